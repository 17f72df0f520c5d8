import Verif.BaseStep

/-! # One thread on a bounded table: termination and refinement -/

set_option linter.unusedSectionVars false

namespace Growt
section
variable {K V : Type} [DecidableEq K] [DecidableEq V] [Inhabited V]

/-- Table after construction: `std::fill(..., get_empty())`, `base_linear.hpp:396-411`. -/
def emptyTbl : Tbl K V := fun _ => Cell.emptyCell

/-- With circular probing at least one slot is empty. (specification, no code) -/
def HasRoom (E : Env K) (t : Tbl K V) : Prop :=
  E.M.cp = true → ∃ p, p < E.M.total ∧ (t p).c = .empty

/-- No slot is marked. (specification, no code) -/
def NoMarks (t : Tbl K V) : Prop := ∀ p, (t p).marked = false

theorem Inv.emptyTbl (E : Env K) : Inv E (emptyTbl : Tbl K V) := by
  constructor
  · intro p k v _ h; simp [Growt.emptyTbl, Cell.emptyCell] at h
  · intros; rfl

theorem Stores.emptyTbl (E : Env K) : Stores E (emptyTbl : Tbl K V) (fun _ => none) := by
  intro k v; simp [Growt.emptyTbl, Cell.emptyCell]

/-- Probe indices are bounded as long as there is room. -/
theorem Passed.bound {E : Env K} {t : Tbl K V} {k : K} {i : Nat} (hE : E.OK) (hI : Inv E t)
    (hr : HasRoom E t) (h : Passed E t k i) : i < E.M.map (E.h k) + E.M.total := by
  obtain ⟨n, hw⟩ := hE.wf
  cases hc : E.M.cp
  · have := h.le_lin hE hI hc
    have := hw.total_eq; have := hw.addr_eq
    simp [hc] at *; omega
  · obtain ⟨p, hp, he⟩ := hr hc
    have ht : E.M.total = 2 ^ n := by rw [hw.total_eq]; simp [hc]
    -- an index in [home, home + 2^n) that is congruent to p
    have hpos : 0 < 2 ^ n := Nat.two_pow_pos n
    obtain ⟨a, ha⟩ : ∃ a, E.M.map (E.h k) = a := ⟨_, rfl⟩
    rw [ha]
    by_cases hlt : i < a + E.M.total
    · exact hlt
    · exfalso
      rw [ht] at hlt hp
      obtain ⟨j, hj1, hj2, hj3⟩ : ∃ j, a ≤ j ∧ j < a + 2 ^ n ∧ j % 2 ^ n = p := by
        refine ⟨if a % 2 ^ n ≤ p then a + (p - a % 2 ^ n) else a + (2 ^ n + p - a % 2 ^ n), ?_, ?_, ?_⟩
        · split <;> omega
        · have := Nat.mod_lt a hpos
          split <;> omega
        · have hm := Nat.mod_lt a hpos
          have hd := Nat.div_add_mod a (2 ^ n)
          split
          · have : a + (p - a % 2 ^ n) = p + 2 ^ n * (a / 2 ^ n) := by omega
            rw [this, Nat.add_mul_mod_self_left, Nat.mod_eq_of_lt hp]
          · have : a + (2 ^ n + p - a % 2 ^ n) = p + 2 ^ n * (a / 2 ^ n + 1) := by
              rw [Nat.mul_add]; omega
            rw [this, Nat.add_mul_mod_self_left, Nat.mod_eq_of_lt hp]
      have hh : Passed E t k i := h
      have := (hh.2 j (by
        have : E.M.map (E.h k) ≤ j := by omega
        exact this) (by omega)).1
      rw [hw.remap_cp hc, hj3] at this
      exact this he

/-- The modifying access of a thread running alone succeeds at once. -/
theorem act_alone {E : Env K} {t : Tbl K V} {op : Op K V} {i att : Nat}
    (hact : ActOK E op (E.M.remap i) (t (E.M.remap i))) (hlt : E.M.remap i < E.M.total) :
    ∃ t' r, step E op (.act i att (t (E.M.remap i))) t = (t', .done r) ∧
      r.code ≠ some .UNSUCCESS_FULL ∧ r.code ≠ some .UNSUCCESS_BACKOFF ∧
      r.code ≠ some .UNSUCCESS_INVALID := by
  have hau : ∀ k f, (atomicUpdate E.m k (t (E.M.remap i)) (t (E.M.remap i)) f).2.2 = true := by
    intro k f
    unfold atomicUpdate
    cases E.m <;> cases f.atomic <;> simp
  obtain ⟨_, hact⟩ := hact
  cases op <;> simp only [step, hlt, if_true, actStep, casStep, hau]
  case find => exact hact.elim
  case locate => exact hact.elim
  all_goals first
    | exact ⟨_, _, rfl, by simp, by simp, by simp⟩
    | (split
       · exact ⟨_, _, rfl, by simp, by simp, by simp⟩
       · exact ⟨_, _, rfl, by simp, by simp, by simp⟩)

/-- The table after a step differs from the one before in at most one slot. -/
theorem step_set (E : Env K) (op : Op K V) (pc : PC K V) (t : Tbl K V) :
    ∃ p x, (step E op pc t).1 = t.set p x := by
  have hid : ∃ p x, t = t.set p x := ⟨0, t 0, (Tbl.set_self t 0).symm⟩
  cases pc with
  | load i att => simp only [step]; split <;> exact hid
  | act i att curr =>
    simp only [step]
    split
    · cases op <;> simp only [actStep, casStep] <;> (repeat' split) <;>
        first | exact hid | exact ⟨_, _, rfl⟩
    · exact hid

/-- Running an operation alone: it ends, and its last step is a step from the initial table. -/
theorem run_good {E : Env K} {op : Op K V} (hE : E.OK) {t : Tbl K V} (hI : Inv E t)
    (hr : HasRoom E t) :
    ∀ fuel i att, Passed E t op.key i → E.M.map (E.h op.key) + E.M.total - i + 1 ≤ fuel →
    ∃ t' r, run E op fuel (.load i att) t = .done t' r ∧ r.code ≠ some .UNSUCCESS_BACKOFF ∧
      ∃ pc, PcInv E t op pc ∧ SafeAct E t op pc ∧ step E op pc t = (t', .done r) := by
  intro fuel
  induction fuel with
  | zero => intro i att hp hf; omega
  | succ n ih =>
    intro i att hp hf
    have hb := hp.bound hE hI hr
    have hlt := hp.inBounds hE hI
    have hg := step_good (pc := .load i att) hE hI hp (by intro _ _ _ h; cases h)
    have hstep : step E op (.load i att) t =
        (t, afterLoad E op i att (E.M.remap i) (t (E.M.remap i))) := by
      simp [step, hlt]
    unfold run
    rw [hstep] at hg ⊢
    obtain ⟨-, hev, hg⟩ := hg
    have hstep := hstep
    generalize ho : afterLoad E op i att (E.M.remap i) (t (E.M.remap i)) = out at *
    cases out with
    | oob => exact hg.elim
    | done r =>
      refine ⟨t, r, rfl, ?_, .load i att, hp, (by intro _ _ _ h; cases h), hstep⟩
      intro hbk
      revert ho hbk
      cases op <;> simp only [afterLoad, retEnd] <;> intro ho <;>
        (repeat' split at ho) <;> cases ho <;> simp
    | cont pc' =>
      obtain ⟨-, hpc⟩ := hg
      cases pc' with
      | load i' att' =>
        have hi' : i' = i + 1 := by
          revert ho
          cases op <;> simp only [afterLoad, retEnd] <;> intro ho <;>
            (repeat' split at ho) <;> cases ho <;> rfl
        subst hi'
        exact ih (i + 1) att' hpc (by omega)
      | act i' att' curr =>
        have hi' : i' = i ∧ curr = t (E.M.remap i) := by
          revert ho
          cases op <;> simp only [afterLoad, retEnd] <;> intro ho <;>
            (repeat' split at ho) <;> cases ho <;> exact ⟨rfl, rfl⟩
        obtain ⟨rfl, rfl⟩ := hi'
        obtain ⟨t', r, hs, -, hbk, -⟩ := act_alone (att := att') hpc.2.1 hlt
        have hsafe : SafeAct E t op (.act i' att' (t (E.M.remap i'))) := by
          intro i2 a2 c2 h
          injection h with e1 e2 e3
          subst e1; subst e3
          have := hpc.2.1.2
          cases op <;> simp only [Op.usesCas, Op.key] at * <;> simp_all
          all_goals (rcases this with h | h <;> simp_all)
        cases n with
        | zero => omega
        | succ n => exact ⟨t', r, by simp [run, hs], hbk, _, hpc, hsafe, hs⟩

/-- Running an operation alone for any number of steps, also on a full table: it never leaves the
allocation, and if it ends, its last step is a step from the initial table. -/
theorem run_any {E : Env K} {op : Op K V} (hE : E.OK) {t : Tbl K V} (hI : Inv E t) :
    ∀ fuel i att, Passed E t op.key i →
    run E op fuel (.load i att) t = .timeout ∨
    ∃ t' r, run E op fuel (.load i att) t = .done t' r ∧ r.code ≠ some .UNSUCCESS_BACKOFF ∧
      ∃ pc, PcInv E t op pc ∧ SafeAct E t op pc ∧ step E op pc t = (t', .done r) := by
  intro fuel
  induction fuel with
  | zero => intro i att hp; exact .inl rfl
  | succ n ih =>
    intro i att hp
    have hlt := hp.inBounds hE hI
    have hg := step_good (pc := .load i att) hE hI hp (by intro _ _ _ h; cases h)
    have hstep : step E op (.load i att) t =
        (t, afterLoad E op i att (E.M.remap i) (t (E.M.remap i))) := by
      simp [step, hlt]
    unfold run
    rw [hstep] at hg ⊢
    obtain ⟨-, hev, hg⟩ := hg
    have hstep := hstep
    generalize ho : afterLoad E op i att (E.M.remap i) (t (E.M.remap i)) = out at *
    cases out with
    | oob => exact hg.elim
    | done r =>
      refine .inr ⟨t, r, rfl, ?_, .load i att, hp, (by intro _ _ _ h; cases h), hstep⟩
      intro hbk
      revert ho hbk
      cases op <;> simp only [afterLoad, retEnd] <;> intro ho <;>
        (repeat' split at ho) <;> cases ho <;> simp
    | cont pc' =>
      obtain ⟨-, hpc⟩ := hg
      cases pc' with
      | load i' att' =>
        have hi' : i' = i + 1 := by
          revert ho
          cases op <;> simp only [afterLoad, retEnd] <;> intro ho <;>
            (repeat' split at ho) <;> cases ho <;> rfl
        subst hi'
        exact ih (i + 1) att' hpc
      | act i' att' curr =>
        have hi' : i' = i ∧ curr = t (E.M.remap i) := by
          revert ho
          cases op <;> simp only [afterLoad, retEnd] <;> intro ho <;>
            (repeat' split at ho) <;> cases ho <;> exact ⟨rfl, rfl⟩
        obtain ⟨rfl, rfl⟩ := hi'
        obtain ⟨t', r, hs, -, hbk, -⟩ := act_alone (att := att') hpc.2.1 hlt
        have hsafe : SafeAct E t op (.act i' att' (t (E.M.remap i'))) := by
          intro i2 a2 c2 h
          injection h with e1 e2 e3
          subst e1; subst e3
          have := hpc.2.1.2
          cases op <;> simp only [Op.usesCas, Op.key] at * <;> simp_all
          all_goals (rcases this with h | h <;> simp_all)
        cases n with
        | zero => exact .inl rfl
        | succ n => exact .inr ⟨t', r, by simp [run, hs], hbk, _, hpc, hsafe, hs⟩

/-- Enough fuel for any operation on a table with room. (model bookkeeping, no code) -/
def enough (E : Env K) : Nat := E.M.total + 2

theorem runStart_good {E : Env K} {op : Op K V} (hE : E.OK) {t : Tbl K V} (hI : Inv E t)
    (hr : HasRoom E t) :
    ∃ t' r, run E op (enough E) (start E op) t = .done t' r ∧ r.code ≠ some .UNSUCCESS_BACKOFF ∧
      ∃ pc, PcInv E t op pc ∧ SafeAct E t op pc ∧ step E op pc t = (t', .done r) :=
  run_good hE hI hr _ _ _ (Passed.start _ _ _) (by unfold enough; omega)

/-! ## Counting occupied slots -/

/-- Number of slots that are not empty. (specification, no code) -/
def occupied (n : Nat) (t : Tbl K V) : Nat := (List.range n).countP fun p => !(t p).isEmpty

theorem occupied_set_le (t : Tbl K V) (n p : Nat) (x : Cell K V) :
    occupied n (t.set p x) ≤ occupied n t + 1 := by
  unfold occupied
  induction n with
  | zero => simp
  | succ n ih =>
    rw [List.range_succ, List.countP_append, List.countP_append]
    by_cases h : n = p
    · subst h
      have : List.countP (fun q => !(t.set n x q).isEmpty) (List.range n) =
          List.countP (fun q => !(t q).isEmpty) (List.range n) := by
        apply List.countP_congr
        intro q hq
        have : q ≠ n := by have := List.mem_range.1 hq; omega
        simp [Tbl.set, this]
      rw [this]
      have h1 : ∀ (f : Nat → Bool), List.countP f [n] ≤ 1 := fun f => List.countP_le_length
      have := h1 fun q => !(t.set n x q).isEmpty
      omega
    · have : List.countP (fun q => !(t.set p x q).isEmpty) [n] =
          List.countP (fun q => !(t q).isEmpty) [n] := by
        simp [List.countP_cons, Tbl.set, h]
      omega

theorem occupied_lt {t : Tbl K V} {n : Nat} (h : occupied n t < n) :
    ∃ p, p < n ∧ (t p).c = .empty := by
  unfold occupied at h
  by_cases hall : ∀ p ∈ List.range n, (!(t p).isEmpty) = true
  · rw [List.countP_eq_length.2 hall] at h; simp at h
  · have hex : ∃ p, p ∈ List.range n ∧ ¬ (!(t p).isEmpty) = true :=
      Classical.byContradiction fun hc => hall fun p hp =>
        Classical.byContradiction fun hn => hc ⟨p, hp, hn⟩
    obtain ⟨p, hp, h2⟩ := hex
    exact ⟨p, List.mem_range.1 hp, Cell.isEmpty_iff.1 (by simpa using h2)⟩

theorem occupied_empty (n : Nat) : occupied n (emptyTbl : Tbl K V) = 0 := by
  unfold occupied; simp [emptyTbl, Cell.emptyCell, Cell.isEmpty]

end
end Growt
