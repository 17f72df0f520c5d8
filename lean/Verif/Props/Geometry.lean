import Verif.MapperLemmas
import Verif.ReturnCode

/-!
# Properties of sizes, hash mapping, growth decision and return codes (C14, C15, C16, C48)
-/

namespace Growt
open Mapper

/-! ## C14: constructor capacity -/

theorem capLoop_shift {d : Nat} : ∀ (n j : Nat), j + n ≤ 31 → d ≤ 2 ^ (j + n) →
    (∀ i, i < n → 2 ^ (j + i) < d) → capLoop d (n + 1) (2 ^ j) = some (2 ^ (j + n)) := by
  intro n
  induction n with
  | zero =>
    intro j _ hd _
    have : ¬ 2 ^ j < d := by simpa using hd
    simp [capLoop, this]
  | succ n ih =>
    intro j hj hd hlt
    have h0 : 2 ^ j < d := by simpa using hlt 0 (by omega)
    have hpow : (2 ^ j <<< 1) % 2 ^ 32 = 2 ^ (j + 1) := by
      rw [Nat.shiftLeft_eq, ← Nat.pow_succ]
      exact Nat.mod_eq_of_lt (Nat.pow_lt_pow_right (by omega) (by omega))
    rw [capLoop, if_pos h0, hpow]
    have e : j + 1 + n = j + (n + 1) := by omega
    have := ih (j + 1) (by omega) (by rw [e]; exact hd) (fun i hi => by
      have := hlt (i + 1) (by omega)
      have e2 : j + 1 + i = j + (i + 1) := by omega
      rw [e2]; exact this)
    rw [this, e]

/-- The least `n` with `d ≤ 256 * 2^n`. -/
theorem exists_least_shift {d : Nat} (hd : d ≤ 2 ^ 30) :
    ∃ n, n ≤ 22 ∧ d ≤ 2 ^ (8 + n) ∧ ∀ i, i < n → 2 ^ (8 + i) < d := by
  have : ∀ m, d ≤ 2 ^ (8 + m) → ∃ n, n ≤ m ∧ d ≤ 2 ^ (8 + n) ∧ ∀ i, i < n → 2 ^ (8 + i) < d := by
    intro m
    induction m with
    | zero => intro h; exact ⟨0, by omega, h, by omega⟩
    | succ m ih =>
      intro h
      by_cases hm : d ≤ 2 ^ (8 + m)
      · obtain ⟨n, h1, h2, h3⟩ := ih hm
        exact ⟨n, by omega, h2, h3⟩
      · refine ⟨m + 1, Nat.le_refl _, h, fun i hi => ?_⟩
        have : 2 ^ (8 + i) ≤ 2 ^ (8 + m) := Nat.pow_le_pow_right (by omega) (by omega)
        omega
  exact this 22 (by simpa using hd)

/-- **C14 (partial: requested sizes up to `2^30`)**.  The constructor's capacity is a power of two,
at least `512`, at least twice the requested size, and less than four times of it (or 512).
Missing: requests above `2^30`, for which the code does not provide the capacity, see
`C14_fails_above_2_30` and `C14_diverges_above_2_31`. -/
theorem C14_capacity_partial {n : Nat} (hn : n ≤ 2 ^ 30) :
    ∃ fuel k, computeCapacity fuel n = some (2 ^ k) ∧ 9 ≤ k ∧ k ≤ 31 ∧ 2 * n ≤ 2 ^ k ∧
      512 ≤ 2 ^ k ∧ (2 ^ k = 512 ∨ 2 ^ k < 4 * n) := by
  obtain ⟨s, hs, hd, hlt⟩ := exists_least_shift hn
  have h1 := capLoop_shift s 8 (by omega) hd hlt
  refine ⟨s + 1, 9 + s, ?_, by omega, by omega, ?_, ?_, ?_⟩
  · unfold computeCapacity
    have : (256 : Nat) = 2 ^ 8 := rfl
    rw [this, h1]
    simp only [Option.map_some]
    rw [Nat.shiftLeft_eq, ← Nat.pow_succ,
      Nat.mod_eq_of_lt (Nat.pow_lt_pow_right (by omega) (by omega))]
    have e : (8 + s).succ = 9 + s := by omega
    rw [e]
  · have e : 9 + s = 8 + s + 1 := by omega
    rw [e, Nat.pow_succ]; omega
  · have : (512 : Nat) = 2 ^ 9 := rfl
    rw [this]; exact Nat.pow_le_pow_right (by omega) (by omega)
  · cases s with
    | zero => exact .inl rfl
    | succ s =>
      right
      have := hlt s (by omega)
      have e : 9 + (s + 1) = 8 + s + 2 := by omega
      rw [e, Nat.pow_add]; omega

/-- **C14 (violated by the code)**: for every request in `(2^30, 2^31]` the computed capacity is 0. -/
theorem C14_fails_above_2_30 {n : Nat} (h1 : 2 ^ 30 < n) (h2 : n ≤ 2 ^ 31) :
    ∃ fuel, computeCapacity fuel n = some 0 := by
  refine ⟨24, ?_⟩
  have := capLoop_shift (d := n) 23 8 (by omega) (by simpa using h2) (fun i hi => by
    have : 2 ^ (8 + i) ≤ 2 ^ 30 := Nat.pow_le_pow_right (by omega) (by omega)
    omega)
  unfold computeCapacity
  have e : (256 : Nat) = 2 ^ 8 := rfl
  rw [e, this]
  rfl

/-- **C14 (violated by the code)**: for every request above `2^31` the loop never ends. -/
theorem C14_diverges_above_2_31 {n : Nat} (h : 2 ^ 31 < n) (fuel : Nat) :
    computeCapacity fuel n = none := by
  have key : ∀ fuel t, (t = 0 ∨ ∃ j, j ≤ 31 ∧ t = 2 ^ j) → capLoop n fuel t = none := by
    intro fuel
    induction fuel with
    | zero => intro t _; rfl
    | succ f ih =>
      intro t ht
      have hlt : t < n := by
        rcases ht with rfl | ⟨j, hj, rfl⟩
        · omega
        · have : 2 ^ j ≤ 2 ^ 31 := Nat.pow_le_pow_right (by omega) hj
          omega
      rw [capLoop, if_pos hlt]
      apply ih
      rcases ht with rfl | ⟨j, hj, rfl⟩
      · left; rfl
      · rw [Nat.shiftLeft_eq, ← Nat.pow_succ]
        by_cases h31 : j = 31
        · left; subst h31; rfl
        · right
          exact ⟨j + 1, by omega, Nat.mod_eq_of_lt (Nat.pow_lt_pow_right (by omega) (by omega))⟩
  unfold computeCapacity
  rw [key fuel 256 (.inr ⟨8, by omega, rfl⟩)]
  rfl

example : (1000 : Nat) ≤ 2 ^ 30 := by decide
example : computeCapacity 10 1000 = some 2048 := by decide
example : 2 ^ 30 < (1100000000 : Nat) ∧ 1100000000 ≤ 2 ^ 31 := by decide
example : 2 ^ 31 < (3000000000 : Nat) := by decide

/-! ## C15: hash mapping -/

/-- **C15**: every 64 bit hash value is mapped to an addressable slot. -/
theorem C15_map_in_range {M : Mapper} {k x : Nat} (h : M.WF k) (hx : x < 2 ^ 64) :
    M.map x < 2 ^ k ∧ M.addr = 2 ^ k := by
  have := h.map_lt hx
  rw [h.addr_eq] at this
  exact ⟨this, h.addr_eq⟩

/-- **C15**: after doubling the home slot is one of the two slots that belong to the old one: the
two children `2i, 2i+1` with linear mapping, `i` and `i + 2^k` with circular mapping. -/
theorem C15_map_doubled {M N : Mapper} {k x : Nat} (h : M.WF k) (h' : N.WF (k + 1))
    (hcm : N.cm = M.cm) :
    if M.cm then N.map x = M.map x ∨ N.map x = M.map x + 2 ^ k
    else N.map x = 2 * M.map x ∨ N.map x = 2 * M.map x + 1 := by
  cases hc : M.cm with
  | true =>
    rw [hc] at hcm
    rw [h.map_cyc hc, h'.map_cyc hcm]
    simp only [if_true]
    have := Nat.mod_mul (x := x) (a := 2 ^ k) (b := 2)
    rw [← Nat.pow_succ] at this
    rw [this]
    rcases Nat.mod_two_eq_zero_or_one (x / 2 ^ k) with e | e <;> rw [e] <;> simp
  | false =>
    rw [hc] at hcm
    rw [h.map_lin hc, h'.map_lin hcm]
    simp only [Bool.false_eq_true, if_false]
    obtain ⟨_, hk, _⟩ := h'
    have e : 64 - k = (64 - (k + 1)) + 1 := by omega
    rw [e, Nat.pow_succ, ← Nat.div_div_eq_div_mul]
    omega

/-- **C15**: a same-size migration does not move home slots. -/
theorem C15_map_same_size {M N : Mapper} {k x : Nat} (h : M.WF k) (h' : N.WF k)
    (hcm : N.cm = M.cm) : N.map x = M.map x := by
  cases hc : M.cm with
  | true => rw [h.map_cyc hc, h'.map_cyc (by rw [hcm, hc])]
  | false => rw [h.map_lin hc, h'.map_lin (by rw [hcm, hc])]

example : (Mapper.mk' false false (2 ^ 10) 0).WF 10 ∧ (Mapper.mk' false false (2 ^ 11) 1).WF 11 ∧
    (Mapper.mk' true true (2 ^ 10) 0).WF 10 ∧ (Mapper.mk' true true (2 ^ 11) 1024).WF 11 :=
  ⟨wf_mk' (by omega) (by omega), wf_mk' (by omega) (by omega), wf_mk' (by omega) (by omega),
    wf_mk' (by omega) (by omega)⟩

/-! ## C16: growth decision -/

theorem sub64_eq {a b : Nat} (ha : a < 2 ^ 64) (hb : b ≤ a) : sub64 a b = a - b := by
  unfold sub64
  have : b % 2 ^ 64 = b := Nat.mod_eq_of_lt (by omega)
  rw [this]
  have : a + (2 ^ 64 - b) = (a - b) + 2 ^ 64 := by omega
  rw [this, Nat.add_mod_right, Nat.mod_eq_of_lt (by omega)]

theorem fillAbove_iff {live k : Nat} (hk : k ≤ 53) :
    fillAboveExact live (2 ^ k) = true ↔ 10 * live > 3 * 2 ^ k := by
  unfold fillAboveExact
  rw [decide_eq_true_iff]
  have hle : 2 ^ k ≤ 2 ^ 53 := Nat.pow_le_pow_right (by omega) hk
  have hne : ∀ j, 2 ^ j % 5 ≠ 0 := by
    intro j
    induction j with
    | zero => decide
    | succ j ih => rw [Nat.pow_succ]; omega
  have := hne k
  generalize 2 ^ k = A at *
  have : 10 * live ≠ 3 * A := by omega
  constructor <;> intro h <;> simp only [gt_iff_lt] at * <;> omega

/-- **C16.**  When growth is triggered the new number of addressable slots is doubled if the live
element estimate exceeds 30 percent of the old number and unchanged otherwise (so it never
shrinks), the new mapper is well formed, and with linear mapping the recorded growth shift
is 1 respectively 0. -/
theorem C16_growth_decision {M : Mapper} {k ins del : Nat} (h : M.WF k) (hk : k ≤ 53)
    (hins : ins < 2 ^ 64) (hdel : del ≤ ins) :
    (M.resize ins del).addr =
        (if 10 * (ins - del) > 3 * M.addr then 2 * M.addr else M.addr) ∧
      (M.resize ins del).WF (if 10 * (ins - del) > 3 * M.addr then k + 1 else k) ∧
      (M.resize ins del).cm = M.cm ∧ (M.resize ins del).cp = M.cp ∧
      (M.cm = false → (M.resize ins del).growHelper =
        if 10 * (ins - del) > 3 * M.addr then 1 else 0) := by
  have hA := h.addr_eq
  have hf := fillAbove_iff (live := ins - del) hk
  obtain ⟨h9, _, _⟩ := h
  unfold resize
  simp only [hA, sub64_eq hins hdel]
  by_cases hb : 10 * (ins - del) > 3 * 2 ^ k
  · have hb' := hf.2 hb
    have e : (2 ^ k) <<< 1 = 2 ^ (k + 1) := by rw [Nat.shiftLeft_eq, ← Nat.pow_succ]
    simp only [hb', hb, e, if_pos]
    have hw : ∀ g, (Mapper.mk' M.cm M.cp (2 ^ (k + 1)) g).WF (k + 1) :=
      fun g => wf_mk' (by omega) (by omega)
    refine ⟨?_, hw _, rfl, rfl, fun hc => by simp [hc]⟩
    rw [(hw _).addr_eq, Nat.pow_succ]; omega
  · have hb' : fillAboveExact (ins - del) (2 ^ k) = false := by
      cases he : fillAboveExact (ins - del) (2 ^ k)
      · rfl
      · exact absurd (hf.1 he) hb
    simp only [hb', hb, if_false, Bool.false_eq_true]
    have hw : ∀ g, (Mapper.mk' M.cm M.cp (2 ^ k) g).WF k :=
      fun g => wf_mk' (by omega) (by omega)
    refine ⟨?_, hw _, rfl, rfl, fun hc => by simp [hc]⟩
    rw [(hw _).addr_eq]

/-- **C16**: it never shrinks. -/
theorem C16_never_shrinks {M : Mapper} {k ins del : Nat} (h : M.WF k) :
    M.addr ≤ (M.resize ins del).addr := by
  have hA := h.addr_eq
  obtain ⟨h9, h63, _⟩ := h
  have : 0 < 2 ^ k := Nat.two_pow_pos k
  unfold resize
  simp only [hA]
  have hmk : ∀ c g, 0 < c → (Mapper.mk' M.cm M.cp c g).addr = c := by
    intro c g hc
    unfold addr mk'
    cases M.cp <;> simp <;> omega
  rw [Nat.shiftLeft_eq, hmk _ _ (by split <;> omega)]
  split <;> omega

/-- Doubling happens at 154 of 512 slots (30.08 percent), not at 153 (29.9 percent). -/
example : ((Mapper.mk' false false (2 ^ 9) 0).resize 154 0).addr = 1024 ∧
    ((Mapper.mk' false false (2 ^ 9) 0).resize 200 47).addr = 512 := by
  have h : (Mapper.mk' false false (2 ^ 9) 0).WF 9 := wf_mk' (by omega) (by omega)
  have a := (C16_growth_decision (ins := 154) (del := 0) h (by omega) (by omega) (by omega)).1
  have b := (C16_growth_decision (ins := 200) (del := 47) h (by omega) (by omega) (by omega)).1
  rw [h.addr_eq] at a b
  exact ⟨a, b⟩

/-! ## C48: return codes -/

/-- **C48**: `successful` holds exactly for the codes that stand for an insertion, an update or a
deletion. -/
theorem C48_successful_iff (c : ReturnCode) :
    c.successful = true ↔ c = .SUCCESS_IN ∨ c = .SUCCESS_UP ∨ c = .SUCCESS_DEL ∨
      c = .TSX_SUCCESS_IN ∨ c = .TSX_SUCCESS_UP ∨ c = .TSX_SUCCESS_DEL := by
  cases c <;> simp [ReturnCode.successful, ReturnCode.toNat]

/-- **C48**: all codes are distinguishable. -/
theorem C48_codes_distinct (a b : ReturnCode) (h : a.toNat = b.toNat) : a = b := by
  cases a <;> cases b <;> simp_all [ReturnCode.toNat]

end Growt
