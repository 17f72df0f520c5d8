import Verif.Migrate

/-!
# Geometry of a migration: how target slots correspond to source slots

Every target slot has a source slot, its *fiber*.  The home slot of a key in the target lies over
its home slot in the source, and probing one slot further in the target moves the fiber by at most
one slot.
-/

set_option linter.unusedSectionVars false

namespace Growt
section
variable {K : Type}

/-- The preconditions of a migration: the target was made by `resize` (`estrat_async.hpp:222-226`)
with the same hash function; not the configuration with cyclic mapping and linear probing; fewer
than `2^32` slots; the target size fits in a `size_t`. -/
structure MEnv.OK (G : MEnv K) : Prop where
  src : G.src.OK
  hash : G.tgt.h = G.src.h
  slots : G.tgt.m = G.src.m
  resized : ∃ i d, G.tgt.M = G.src.M.resize i d
  fits : ∃ n, G.tgt.M.WF n
  combo : G.src.M.cm = true → G.src.M.cp = true
  small : G.src.M.addr < 2 ^ 32

/-- The same, unfolded. (proof, no code) -/
structure Shape (G : MEnv K) (k g : Nat) : Prop where
  g1 : g ≤ 1
  wf : G.src.M.WF k
  wf' : G.tgt.M.WF (k + g)
  cm : G.tgt.M.cm = G.src.M.cm
  cp : G.tgt.M.cp = G.src.M.cp
  gh : G.tgt.M.growHelper = if G.src.M.cm then 2 ^ k else g
  combo : G.src.M.cm = true → G.src.M.cp = true
  small : k < 32
  hash : G.tgt.h = G.src.h
  h64 : ∀ x, G.src.h x < 2 ^ 64
  slots : G.tgt.m = G.src.m

theorem WF_unique {M : Mapper} {a b : Nat} (ha : M.WF a) (hb : M.WF b) : a = b := by
  have h1 := ha.addr_eq
  have h2 := hb.addr_eq
  rw [h1] at h2
  exact (Nat.pow_right_inj (by omega)).1 h2

theorem MEnv.OK.shape {G : MEnv K} (h : G.OK) : ∃ k g, Shape G k g := by
  obtain ⟨k, hk⟩ := h.src.wf
  obtain ⟨i, d, hr⟩ := h.resized
  obtain ⟨n, hn⟩ := h.fits
  have hA := hk.addr_eq
  obtain ⟨big, hbig⟩ : ∃ b, Mapper.fillAboveExact (Mapper.sub64 i d) G.src.M.addr = b := ⟨_, rfl⟩
  have hr2 : G.tgt.M = Mapper.mk' G.src.M.cm G.src.M.cp (2 ^ (k + if big then 1 else 0))
      (if G.src.M.cm then 2 ^ k else if big then 1 else 0) := by
    rw [hr]
    rw [hA] at hbig
    simp only [Mapper.resize, hA, hbig]
    cases big <;> simp [Nat.shiftLeft_eq, Nat.pow_succ]
  have hcm : G.tgt.M.cm = G.src.M.cm := by rw [hr2]; rfl
  have hcp : G.tgt.M.cp = G.src.M.cp := by rw [hr2]; rfl
  have hgh : G.tgt.M.growHelper = if G.src.M.cm then 2 ^ k else if big then 1 else 0 := by
    rw [hr2]; rfl
  have hadd : G.tgt.M.addr = 2 ^ (k + if big then 1 else 0) := by
    have : 0 < 2 ^ (k + if big then 1 else 0) := Nat.two_pow_pos _
    rw [hr2]; unfold Mapper.addr Mapper.mk'
    cases G.src.M.cp <;> simp <;> omega
  have hkn : n = k + if big then 1 else 0 := by
    have := hn.addr_eq
    rw [hadd] at this
    exact ((Nat.pow_right_inj (by omega)).1 this).symm
  refine ⟨k, if big then 1 else 0, ?_, hk, hkn ▸ hn, hcm, hcp, hgh, h.combo, ?_, h.hash, h.src.hash,
    h.slots⟩
  · cases big <;> simp
  · have := h.small
    rw [hA] at this
    exact (Nat.pow_lt_pow_iff_right (by omega : 1 < 2)).1 this

/-- The source slot over which a target slot lies. (proof, no code) -/
def fiber (G : MEnv K) (q : Nat) : Nat :=
  if G.src.M.cm then q % G.src.M.addr else q / 2 ^ G.tgt.M.growHelper

/-- Unrolled source index over which the `d`-th probed target slot of `x` lies. (proof, no code) -/
def fib (G : MEnv K) (x : K) (d : Nat) : Nat :=
  if G.src.M.cm then G.src.M.map (G.src.h x) + d
  else (G.tgt.M.map (G.tgt.h x) + d) / 2 ^ G.tgt.M.growHelper

namespace Shape
variable {G : MEnv K} {k g : Nat} (hS : Shape G k g)
include hS

theorem addr : G.src.M.addr = 2 ^ k := hS.wf.addr_eq

theorem k9 : 9 ≤ k := hS.wf.1

theorem total : G.src.M.total = if G.src.M.cp then 2 ^ k else 2 ^ k + 1024 := hS.wf.total_eq

theorem total' : G.tgt.M.total = if G.src.M.cp then 2 ^ k * 2 ^ g else 2 ^ k * 2 ^ g + 1024 := by
  rw [hS.wf'.total_eq, hS.cp, Nat.pow_add]

theorem gpow : 2 ^ g = 1 ∨ 2 ^ g = 2 := by
  have := hS.g1
  rcases Nat.le_one_iff_eq_zero_or_eq_one.1 this with h | h <;> simp [h]

theorem fiber_lt {q : Nat} (hq : q < G.tgt.M.total) : fiber G q < G.src.M.total := by
  rw [hS.total'] at hq
  rw [hS.total]
  unfold fiber
  rw [hS.gh, hS.addr]
  have h2 : 0 < 2 ^ k := Nat.two_pow_pos k
  cases hcm : G.src.M.cm with
  | true =>
    have hcp := hS.combo hcm
    simp only [if_true, hcp] at hq ⊢
    exact Nat.mod_lt _ h2
  | false =>
    simp only [Bool.false_eq_true, if_false]
    rcases hS.gpow with h | h <;> rw [h] at hq ⊢ <;> cases hcp : G.src.M.cp <;>
      simp only [hcp, if_true, Bool.false_eq_true, if_false] at hq ⊢ <;> omega

theorem tgtMap_cyc (hcm : G.src.M.cm = true) (x : K) :
    G.tgt.M.map (G.tgt.h x) % 2 ^ k = G.src.M.map (G.src.h x) := by
  rw [hS.wf'.map_cyc (by rw [hS.cm, hcm]), hS.wf.map_cyc hcm, hS.hash]
  rw [Nat.pow_add, Nat.mod_mul_right_mod]

theorem tgtMap_lin (hcm : G.src.M.cm = false) (x : K) :
    G.tgt.M.map (G.tgt.h x) / 2 ^ g = G.src.M.map (G.src.h x) := by
  rw [hS.wf'.map_lin (by rw [hS.cm, hcm]), hS.wf.map_lin hcm, hS.hash]
  rw [Nat.div_div_eq_div_mul, ← Nat.pow_add]
  congr 2
  have := hS.wf'.2.1
  omega

theorem fib_zero (x : K) : fib G x 0 = G.src.M.map (G.src.h x) := by
  unfold fib
  cases hcm : G.src.M.cm with
  | true => simp
  | false =>
    simp only [Bool.false_eq_true, if_false, Nat.add_zero]
    rw [hS.gh, hcm]
    simpa using hS.tgtMap_lin hcm x

theorem fib_succ (x : K) (d : Nat) : fib G x d ≤ fib G x (d + 1) ∧ fib G x (d + 1) ≤ fib G x d + 1 := by
  unfold fib
  cases hcm : G.src.M.cm with
  | true => simp only [if_true]; omega
  | false =>
    simp only [Bool.false_eq_true, if_false]
    rw [hS.gh, hcm]
    simp only [Bool.false_eq_true, if_false]
    rcases hS.gpow with h | h <;> rw [h] <;> omega

theorem fib_grows (x : K) (d : Nat) : fib G x 0 + d ≤ fib G x (2 * d) := by
  unfold fib
  cases hcm : G.src.M.cm with
  | true => simp only [if_true]; omega
  | false =>
    simp only [Bool.false_eq_true, if_false]
    rw [hS.gh, hcm]
    simp only [Bool.false_eq_true, if_false]
    rcases hS.gpow with h | h <;> rw [h] <;> omega

theorem fib_mono (x : K) {d d' : Nat} (h : d ≤ d') : fib G x d ≤ fib G x d' := by
  induction h with
  | refl => exact Nat.le_refl _
  | step _ ih => exact Nat.le_trans ih (hS.fib_succ x _).1

/-- The fiber of the `d`-th probed slot. -/
theorem fiber_probe (x : K) (d : Nat)
    (hin : G.tgt.M.remap (G.tgt.M.map (G.tgt.h x) + d) < G.tgt.M.total) :
    fiber G (G.tgt.M.remap (G.tgt.M.map (G.tgt.h x) + d)) = fib G x d % G.src.M.total := by
  have hlt := hS.fiber_lt hin
  have htt := hS.total
  have h2 : 0 < 2 ^ k := Nat.two_pow_pos k
  unfold fib
  cases hcp : G.src.M.cp with
  | false =>
    have hcp' : G.tgt.M.cp = false := by rw [hS.cp, hcp]
    have hcm : G.src.M.cm = false := by
      cases h : G.src.M.cm with
      | false => rfl
      | true => have := hS.combo h; simp [hcp] at this
    rw [Mapper.remap_lin hcp'] at hlt ⊢
    unfold fiber at hlt ⊢
    simp only [hcm, Bool.false_eq_true, if_false] at hlt ⊢
    rw [Nat.mod_eq_of_lt hlt]
  | true =>
    have hcp' : G.tgt.M.cp = true := by rw [hS.cp, hcp]
    rw [hS.wf'.remap_cp hcp']
    rw [hcp] at htt
    simp only [if_true] at htt
    rw [htt]
    unfold fiber
    rw [hS.addr]
    cases hcm : G.src.M.cm with
    | true =>
      simp only [if_true]
      rw [Nat.pow_add, Nat.mod_mul_right_mod, ← hS.tgtMap_cyc hcm x]
      simp [Nat.add_mod]
    | false =>
      simp only [Bool.false_eq_true, if_false]
      rw [hS.gh, hcm]
      simp only [Bool.false_eq_true, if_false]
      generalize G.tgt.M.map (G.tgt.h x) + d = u
      rw [Nat.pow_add, Nat.mul_comm (2 ^ k) (2 ^ g), Nat.mod_mul_right_div_self]

/-- The slots written by `initialize(p)` are exactly the slots over `p`. -/
theorem mem_initSlot {p : Nat} (hp : p < G.src.M.total)
    (hlin : G.src.M.cp = false → p ≤ 2 ^ k + 301) (q : Nat) :
    q ∈ initSlot G.tgt.M p ↔ q < G.tgt.M.total ∧ fiber G q = p := by
  have h2 : 0 < 2 ^ k := Nat.two_pow_pos k
  have ht' := hS.total'
  have ht := hS.total
  unfold initSlot fiber
  rw [hS.cm, hS.cp, hS.gh, hS.addr]
  cases hcm : G.src.M.cm with
  | true =>
    have hcp := hS.combo hcm
    rw [hcp] at ht ht'
    simp only [if_true] at ht ht'
    rw [ht] at hp
    rw [ht']
    have hb : G.tgt.M.bitmask = 2 ^ k * 2 ^ g - 1 := by
      have h3 := ht'
      have h4 : G.tgt.M.cp = true := by rw [hS.cp, hcp]
      unfold Mapper.total at h3
      unfold Mapper.bitmask
      simp only [h4, if_true] at h3 ⊢
      omega
    simp only [if_true, hcp, Bool.true_eq_false, false_and, if_false]
    rw [hb]
    rcases hS.gpow with h | h
    · rw [h]
      obtain ⟨f, hf⟩ : ∃ f, 2 ^ k * 1 - 1 + 1 = f + 2 := ⟨2 ^ k - 2, by
        have := hS.k9
        have : 2 ^ 9 ≤ 2 ^ k := Nat.pow_le_pow_right (by omega) this
        omega⟩
      rw [hf]
      simp only [cyclicFill]
      rw [if_pos (by omega), if_neg (by omega)]
      simp
      constructor
      · intro h; subst h; exact ⟨by omega, Nat.mod_eq_of_lt (by omega)⟩
      · rintro ⟨h3, h4⟩; rw [Nat.mod_eq_of_lt h3] at h4; omega
    · rw [h]
      obtain ⟨f, hf⟩ : ∃ f, 2 ^ k * 2 - 1 + 1 = f + 3 := ⟨2 ^ k * 2 - 3, by
        have := hS.k9
        have : 2 ^ 9 ≤ 2 ^ k := Nat.pow_le_pow_right (by omega) this
        omega⟩
      rw [hf]
      simp only [cyclicFill]
      rw [if_pos (by omega), if_pos (by omega), if_neg (by omega)]
      simp
      constructor
      · rintro (h | h)
        · subst h; exact ⟨by omega, Nat.mod_eq_of_lt (by omega)⟩
        · have h : q = p + 2 ^ k := by omega
          subst h
          refine ⟨by omega, ?_⟩
          rw [Nat.add_mod_right, Nat.mod_eq_of_lt (by omega)]
      · rintro ⟨h3, h4⟩
        by_cases h5 : q < 2 ^ k
        · rw [Nat.mod_eq_of_lt h5] at h4; omega
        · rw [Nat.mod_eq_sub_mod (by omega), Nat.mod_eq_of_lt (by omega)] at h4; omega
  | false =>
    simp only [Bool.false_eq_true, if_false]
    simp only [Nat.shiftLeft_eq, List.mem_range'_1]
    cases hcp : G.src.M.cp with
    | true =>
      rw [hcp] at ht ht'
      simp only [if_true] at ht ht'
      rw [ht'] ; rw [ht] at hp
      rcases hS.gpow with h | h <;> rw [h] <;> omega
    | false =>
      rw [hcp] at ht ht'
      simp only [Bool.false_eq_true, if_false] at ht ht'
      rw [ht'] ; rw [ht] at hp
      have := hlin hcp
      rcases hS.gpow with h | h <;> rw [h] <;> omega

/-- The slots written by `initialize(a, e)` are exactly the slots over `[a, e)`. -/
theorem mem_initRange {a e : Nat} (ha : a < e) (he : e ≤ 2 ^ k) (q : Nat) :
    q ∈ initRange G.tgt.M a e ↔ q < G.tgt.M.total ∧ a ≤ fiber G q ∧ fiber G q < e := by
  have h2 : 0 < 2 ^ k := Nat.two_pow_pos k
  have ht' := hS.total'
  unfold initRange fiber
  rw [hS.cm, hS.gh, hS.addr]
  cases hcm : G.src.M.cm with
  | true =>
    have hcp := hS.combo hcm
    rw [hcp] at ht'
    simp only [if_true] at ht'
    rw [ht']
    have hb : G.tgt.M.bitmask = 2 ^ k * 2 ^ g - 1 := by
      have h3 := ht'
      have h4 : G.tgt.M.cp = true := by rw [hS.cp, hcp]
      unfold Mapper.total at h3
      unfold Mapper.bitmask
      simp only [h4, if_true] at h3 ⊢
      omega
    simp only [if_true]
    rw [hb]
    rcases hS.gpow with h | h
    · rw [h]
      obtain ⟨f, hf⟩ : ∃ f, 2 ^ k * 1 - 1 + 1 = f + 2 := ⟨2 ^ k - 2, by
        have := hS.k9
        have : 2 ^ 9 ≤ 2 ^ k := Nat.pow_le_pow_right (by omega) this
        omega⟩
      rw [hf]
      simp only [cyclicFill]
      rw [if_pos (by omega), if_neg (by omega)]
      simp only [List.append_nil, List.mem_range'_1]
      constructor
      · rintro ⟨h3, h4⟩
        have h5 : q < 2 ^ k := by omega
        rw [Nat.mod_eq_of_lt h5]; omega
      · rintro ⟨h3, h4⟩
        rw [Nat.mod_eq_of_lt (by omega)] at h4
        omega
    · rw [h]
      obtain ⟨f, hf⟩ : ∃ f, 2 ^ k * 2 - 1 + 1 = f + 3 := ⟨2 ^ k * 2 - 3, by
        have := hS.k9
        have : 2 ^ 9 ≤ 2 ^ k := Nat.pow_le_pow_right (by omega) this
        omega⟩
      rw [hf]
      simp only [cyclicFill]
      rw [if_pos (by omega), if_pos (by omega), if_neg (by omega)]
      simp only [List.append_nil, List.mem_append, List.mem_range'_1]
      by_cases h5 : q < 2 ^ k
      · rw [Nat.mod_eq_of_lt h5]; omega
      · by_cases h6 : q < 2 ^ k * 2
        · rw [Nat.mod_eq_sub_mod (by omega), Nat.mod_eq_of_lt (by omega)]; omega
        · omega
  | false =>
    simp only [Bool.false_eq_true, if_false]
    simp only [Nat.shiftLeft_eq, List.mem_range'_1]
    cases hcp : G.src.M.cp with
    | true =>
      rw [hcp] at ht'
      simp only [if_true] at ht'
      rw [ht']
      rcases hS.gpow with h | h <;> rw [h] <;> omega
    | false =>
      rw [hcp] at ht'
      simp only [Bool.false_eq_true, if_false] at ht'
      rw [ht']
      rcases hS.gpow with h | h <;> rw [h] <;> omega

end Shape
end
end Growt
