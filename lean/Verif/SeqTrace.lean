import Verif.SeqBase

/-! # Sequences of calls by one thread on a bounded table -/

set_option linter.unusedSectionVars false

namespace Growt
section
variable {K V : Type} [DecidableEq K] [DecidableEq V] [Inhabited V]

/-- Execute calls one after the other.  `none`: a call accessed memory out of bounds or did not end
within `enough E` steps. (calls of `base_linear.hpp:192-243`) -/
def runOps (E : Env K) : List (Op K V) → Tbl K V → Option (List (Op K V × Ret K V) × Tbl K V)
  | [], t => some ([], t)
  | op :: ops, t =>
    match run E op (enough E) (start E op) t with
    | .done t' r =>
      match runOps E ops t' with
      | some (l, t'') => some ((op, r) :: l, t'')
      | none => none
    | _ => none

/-- The calls and results of one thread are those of an ideal map that goes from `d` to `d'`,
except that an insertion of an absent key may be refused without effect. (specification, no code) -/
inductive Explained (m : Bool) : Dict K V → List (Op K V × Ret K V) → Dict K V → Prop where
  | nil (d : Dict K V) : Explained m d [] d
  | call {d d' : Dict K V} {op : Op K V} {r : Ret K V} {l : List (Op K V × Ret K V)}
      (h : Agrees op r ((op.toSpec m).sem d).2)
      (hl : Explained m ((op.toSpec m).sem d).1 l d') : Explained m d ((op, r) :: l) d'
  | full {d d' : Dict K V} {op : Op K V} {r : Ret K V} {l : List (Op K V × Ret K V)}
      (hi : (op.toSpec m).inserts = true) (ha : d op.key = none)
      (hr : r = ⟨some .UNSUCCESS_FULL, none⟩)
      (hl : Explained m d l d') : Explained m d ((op, r) :: l) d'

/-- Number of calls that may insert. (specification, no code) -/
def insertCalls (ops : List (Op K V)) : Nat := ops.countP fun op => (op.toSpec true).inserts

/-- Only inserting operations can occupy a further slot. -/
theorem step_noins {E : Env K} {t : Tbl K V} {op : Op K V} {pc : PC K V}
    (hni : (op.toSpec true).inserts = false) (hpc : PcInv E t op pc) (hsafe : SafeAct E t op pc)
    (p : Nat) : ((step E op pc t).1 p).c = .empty ↔ (t p).c = .empty := by
  have hset : ∀ (q : Nat) (x : Cell K V), (x.c = .empty ↔ (t q).c = .empty) →
      (((t.set q x) p).c = .empty ↔ (t p).c = .empty) := by
    intro q x hx
    unfold Tbl.set
    split
    · subst q; exact hx
    · exact Iff.rfl
  cases pc with
  | load i att => simp only [step]; split <;> exact Iff.rfl
  | act i att curr =>
    obtain ⟨-, ⟨hm, hact⟩, hle⟩ := hpc
    have hcurr : curr.c ≠ .empty := by
      cases op <;> simp [Op.toSpec, SOp.inserts] at hni <;> simp only at hact <;>
        first | exact hact.elim | (obtain ⟨w, hw⟩ := hact; simp [hw]) | simp [hact]
    have hne : (t (E.M.remap i)).c ≠ .empty := hle.1 hcurr
    have hsm : ∀ (x : Cell K V) v, x.c ≠ .empty → (x.setMapped v).c ≠ .empty := by
      intro x v hx
      unfold Cell.setMapped
      cases hc : x.c <;> simp_all
    have hau : ∀ k f, (atomicUpdate E.m k (t (E.M.remap i)) curr f).1.c = .empty ↔
        (t (E.M.remap i)).c = .empty := by
      intro k f
      have : (atomicUpdate E.m k (t (E.M.remap i)) curr f).1.c ≠ .empty := by
        unfold atomicUpdate
        cases E.m <;> cases f.atomic <;> simp only [Bool.false_eq_true, if_false, if_true] <;>
          (try split) <;> simp_all
      simp [this, hne]
    have hnu : ∀ k f, (nonAtomicUpdate k (t (E.M.remap i)) f).1.c = .empty ↔
        (t (E.M.remap i)).c = .empty := by
      intro k f
      have : (nonAtomicUpdate k (t (E.M.remap i)) f).1.c ≠ .empty := hsm _ _ hne
      simp [this, hne]
    have hdl : (Cell.deletedCell : Cell K V).c = .empty ↔ (t (E.M.remap i)).c = .empty := by
      simp [Cell.deletedCell, hne]
    simp only [step]
    split
    · cases op <;> simp [Op.toSpec, SOp.inserts] at hni <;> simp only [actStep, casStep] <;>
        (repeat' split) <;>
        first | exact Iff.rfl | exact hset _ _ (hau _ _) | exact hset _ _ (hnu _ _)
              | exact hset _ _ hdl
    · exact Iff.rfl

theorem occupied_congr {t t' : Tbl K V} (h : ∀ p, (t' p).c = .empty ↔ (t p).c = .empty) (n : Nat) :
    occupied n t' = occupied n t := by
  unfold occupied
  apply List.countP_congr
  intro p _
  have := h p
  simp only [Bool.not_eq_true', Bool.eq_false_iff, ne_eq, Cell.isEmpty_iff]
  exact not_congr this

/-- The last step of a call by one thread. -/
theorem done_good {E : Env K} (hE : E.OK) {t t' : Tbl K V} (hI : Inv E t) (hn : NoMarks t)
    {op : Op K V} {r : Ret K V} {pc : PC K V} {d : Dict K V} (hs : Stores E t d)
    (hbk : r.code ≠ some .UNSUCCESS_BACKOFF) (hpc : PcInv E t op pc) (hsafe : SafeAct E t op pc)
    (hstep : step E op pc t = (t', .done r)) :
    ∃ d', Inv E t' ∧ NoMarks t' ∧ Stores E t' d' ∧
      (∀ l d'', Explained E.m d' l d'' → Explained E.m d ((op, r) :: l) d'') ∧
      occupied E.M.total t' ≤
        occupied E.M.total t + (if (op.toSpec true).inserts then 1 else 0) := by
  obtain ⟨hI', hev, hd⟩ := step_good hE hI hpc hsafe
  have hmk := step_marks hpc
  have hocc : occupied E.M.total t' ≤
        occupied E.M.total t + (if (op.toSpec true).inserts then 1 else 0) := by
    cases hni : (op.toSpec true).inserts
    · have := occupied_congr (step_noins hni hpc hsafe) E.M.total
      rw [hstep] at this
      simp [this]
    · obtain ⟨p, x, hx⟩ := step_set E op pc t
      rw [hstep] at hx
      simp only at hx
      rw [hx]
      exact occupied_set_le t _ _ _
  rw [hstep] at hI' hev hd hmk
  simp only at hI' hev hd hmk
  have hn' : NoMarks t' := by
    intro p
    cases hp : (t' p).marked
    · rfl
    · have := hmk p hp; rw [hn p] at this; cases this
  cases hd with
  | invalid hr' ht hm => obtain ⟨p, _, hp⟩ := hm; rw [hn p] at hp; cases hp
  | refused c hc hr' ht habs =>
    refine ⟨d, hI', hn', by rw [ht]; exact hs, fun l d'' h => ?_, hocc⟩
    have hc' : c = .UNSUCCESS_FULL ∧ (op.toSpec E.m).inserts = true := by
      cases op <;> simp [Op.mayRefuse, Op.toSpec, SOp.inserts] at * <;>
        first | exact hc | (rw [hr'] at hbk; simp [hc.1] at hbk)
    exact .full hc'.2 (habs hc'.1 d hs) (by rw [hr', hc'.1]) h
  | effect h =>
    obtain ⟨h1, h2⟩ := h d hs
    exact ⟨_, hI', hn', h1, fun l d'' h => .call h2 h, hocc⟩

/-- One call by one thread. -/
theorem call_good {E : Env K} (hE : E.OK) {t : Tbl K V} (hI : Inv E t) (hn : NoMarks t)
    (hr : HasRoom E t) (op : Op K V) {d : Dict K V} (hs : Stores E t d) :
    ∃ t' r d', run E op (enough E) (start E op) t = .done t' r ∧ Inv E t' ∧ NoMarks t' ∧
      Stores E t' d' ∧
      (∀ l d'', Explained E.m d' l d'' → Explained E.m d ((op, r) :: l) d'') ∧
      occupied E.M.total t' ≤
        occupied E.M.total t + (if (op.toSpec true).inserts then 1 else 0) := by
  obtain ⟨t', r, hrun, hbk, pc, hpc, hsafe, hstep⟩ := runStart_good (op := op) hE hI hr
  obtain ⟨d', h⟩ := done_good hE hI hn hs hbk hpc hsafe hstep
  exact ⟨t', r, d', hrun, h⟩

/-- A sequence of calls that all returned (after any number of steps each), with their results.
(specification, no code) -/
inductive Returned (E : Env K) : Tbl K V → List (Op K V × Ret K V) → Tbl K V → Prop where
  | nil (t : Tbl K V) : Returned E t [] t
  | call {t t' t'' : Tbl K V} {op : Op K V} {r : Ret K V} {l : List (Op K V × Ret K V)} (fuel : Nat)
      (h : run E op fuel (start E op) t = .done t' r) (hl : Returned E t' l t'') :
      Returned E t ((op, r) :: l) t''

/-- Any sequence of calls that returned, without restriction on their number. -/
theorem Returned.good {E : Env K} (hE : E.OK) {t t' : Tbl K V} {l : List (Op K V × Ret K V)}
    (h : Returned E t l t') : ∀ (d : Dict K V), Inv E t → NoMarks t → Stores E t d →
      ∃ d', Explained E.m d l d' ∧ Stores E t' d' ∧ Inv E t' ∧ NoMarks t' := by
  induction h with
  | nil t => exact fun d h1 h2 h3 => ⟨d, .nil d, h3, h1, h2⟩
  | @call t t' t'' op r l fuel h hl ih =>
    intro d h1 h2 h3
    rcases run_any (op := op) hE h1 fuel _ 0 (Passed.start _ _ _) with h0 | ⟨a, b, h0, hbk, pc, hpc, hsafe, hst⟩
    · rw [start, h0] at h; cases h
    · rw [start, h0] at h
      injection h with e1 e2
      subst e1; subst e2
      obtain ⟨d', hI', hn', hs', hex, -⟩ := done_good hE h1 h2 h3 hbk hpc hsafe hst
      obtain ⟨d'', g1, g2, g3, g4⟩ := ih d' hI' hn' hs'
      exact ⟨d'', hex _ _ g1, g2, g3, g4⟩

/-- Any sequence of calls, from any good table. -/
theorem runOps_good {E : Env K} (hE : E.OK) (ops : List (Op K V)) :
    ∀ (t : Tbl K V) (d : Dict K V), Inv E t → NoMarks t → Stores E t d →
    (E.M.cp = true → occupied E.M.total t + insertCalls ops < E.M.total) →
    ∃ l t' d', runOps E ops t = some (l, t') ∧ l.map Prod.fst = ops ∧
      Explained E.m d l d' ∧ Stores E t' d' ∧ Inv E t' ∧ NoMarks t' ∧
      occupied E.M.total t' ≤ occupied E.M.total t + insertCalls ops := by
  induction ops with
  | nil =>
    intro t d hI hn hs _
    exact ⟨[], t, d, rfl, rfl, .nil d, hs, hI, hn, Nat.le_add_right _ _⟩
  | cons op ops ih =>
    intro t d hI hn hs hocc
    have hroom : HasRoom E t := by
      intro hc
      exact occupied_lt (by have := hocc hc; omega)
    obtain ⟨t', r, d', hrun, hI', hn', hs', hex, ho⟩ := call_good hE hI hn hroom op hs
    obtain ⟨l, t'', d'', h1, h2, h3, h4, h5, h6, h7⟩ := ih t' d' hI' hn' hs' (by
      intro hc
      have := hocc hc
      simp only [insertCalls, List.countP_cons] at this ⊢
      omega)
    refine ⟨(op, r) :: l, t'', d'', by simp [runOps, hrun, h1], by simp [h2], hex _ _ h3, h4, h5, h6, ?_⟩
    simp only [insertCalls, List.countP_cons] at h7 ⊢
    omega

end
end Growt
