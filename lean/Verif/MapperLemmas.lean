import Verif.Mapper

/-! # Lemmas about the mapper -/

namespace Growt

theorem logLoop_two_pow (k : Nat) : logLoop (2 ^ k) = k := by
  induction k with
  | zero => unfold logLoop; simp
  | succ n ih =>
    unfold logLoop
    have : 2 ^ (n + 1) / 2 = 2 ^ n := by rw [Nat.pow_succ]; omega
    dsimp only
    rw [this, ih]
    have : 0 < 2 ^ n := Nat.two_pow_pos n
    simp

namespace Mapper

theorem lp_val : lpBuffer = 1024 := rfl

@[simp] theorem mk'_cm (cm cp c g) : (Mapper.mk' cm cp c g).cm = cm := rfl
@[simp] theorem mk'_cp (cm cp c g) : (Mapper.mk' cm cp c g).cp = cp := rfl
@[simp] theorem mk'_gh (cm cp c g) : (Mapper.mk' cm cp c g).growHelper = g := rfl

variable {M : Mapper} {k : Nat}

theorem WF.addr_eq (h : M.WF k) : M.addr = 2 ^ k := by
  obtain ⟨_, _, hM⟩ := h
  have : 0 < 2 ^ k := Nat.two_pow_pos k
  rw [hM]; unfold addr mk'
  cases M.cp <;> simp <;> omega

theorem WF.total_eq (h : M.WF k) : M.total = if M.cp then 2 ^ k else 2 ^ k + 1024 := by
  obtain ⟨_, _, hM⟩ := h
  have : 0 < 2 ^ k := Nat.two_pow_pos k
  rw [hM]; unfold total mk'
  cases M.cp <;> simp [lp_val]; omega

theorem WF.addr_le_total (h : M.WF k) : M.addr ≤ M.total := by
  rw [h.addr_eq, h.total_eq]; split <;> omega

theorem WF.addr_pos (h : M.WF k) : 0 < M.addr := by
  rw [h.addr_eq]; exact Nat.two_pow_pos k

theorem WF.remap_cp (h : M.WF k) (hc : M.cp = true) (i : Nat) : M.remap i = i % 2 ^ k := by
  have h2 := h
  obtain ⟨_, _, hM⟩ := h
  unfold remap
  rw [hc]
  have : M.probeHelper = 2 ^ k - 1 := by rw [hM]; simp [mk', hc]
  simp [this, Nat.and_two_pow_sub_one_eq_mod]

theorem remap_lin (hc : M.cp = false) (i : Nat) : M.remap i = i := by
  unfold remap; simp [hc]

theorem WF.map_lt (h : M.WF k) {x : Nat} (hx : x < 2 ^ 64) : M.map x < M.addr := by
  have h2 := h
  obtain ⟨_, hk, hM⟩ := h
  rw [h2.addr_eq]
  unfold map
  cases hc : M.cm
  · have : M.mapHelper = 64 - k := by
      rw [hM]; simp [mk', hc, computeRightShift, logLoop_two_pow]
    simp only [this, Nat.shiftRight_eq_div_pow]
    apply Nat.div_lt_of_lt_mul
    rw [← Nat.pow_add]
    have : 64 - k + k = 64 := by omega
    simpa [this] using hx
  · have : M.mapHelper = 2 ^ k - 1 := by rw [hM]; simp [mk', hc]
    simp only [this, Nat.and_two_pow_sub_one_eq_mod]
    exact Nat.mod_lt _ (Nat.two_pow_pos k)

theorem WF.map_lin (h : M.WF k) (hc : M.cm = false) (x : Nat) : M.map x = x / 2 ^ (64 - k) := by
  obtain ⟨_, hk, hM⟩ := h
  have : M.mapHelper = 64 - k := by
    rw [hM]; simp [mk', hc, computeRightShift, logLoop_two_pow]
  simp [map, hc, this, Nat.shiftRight_eq_div_pow]

theorem WF.map_cyc (h : M.WF k) (hc : M.cm = true) (x : Nat) : M.map x = x % 2 ^ k := by
  obtain ⟨_, hk, hM⟩ := h
  have : M.mapHelper = 2 ^ k - 1 := by rw [hM]; simp [mk', hc]
  simp [map, hc, this, Nat.and_two_pow_sub_one_eq_mod]

/-- remap stays inside the allocation with circular probing -/
theorem WF.remap_lt_cp (h : M.WF k) (hc : M.cp = true) (i : Nat) : M.remap i < M.total := by
  rw [h.remap_cp hc, h.total_eq]; simp [hc, Nat.mod_lt _ (Nat.two_pow_pos k)]

theorem wf_mk' {cm cp : Bool} {g : Nat} (h9 : 9 ≤ k) (h63 : k ≤ 63) :
    (Mapper.mk' cm cp (2 ^ k) g).WF k := by
  refine ⟨h9, h63, rfl⟩

end Mapper

end Growt
