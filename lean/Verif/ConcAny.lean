import Verif.Conc

/-!
# Threads on one bounded table, with arbitrary mixtures of calls

`Conc.lean` excludes, for tables without markable slots, that a key is both erased and updated.  Here
nothing is excluded (but the explicitly unsafe calls): a value-only update may then hit a tombstone.
-/

set_option linter.unusedSectionVars false

namespace Growt
section
variable {T K V : Type} [DecidableEq T] [DecidableEq K] [DecidableEq V] [Inhabited V]

/-- Changing a tombstone into a tombstone. -/
theorem Stores.tomb {E : Env K} {t : Tbl K V} {d : Dict K V} (hs : Stores E t d) {p : Nat} {v v' : V}
    {x : Cell K V} (hp : (t p).c = .deleted v) (hx : x.c = .deleted v') : Stores E (t.set p x) d := by
  intro k w
  rw [hs k w]
  constructor
  · rintro ⟨i, hi, h⟩
    refine ⟨i, hi, ?_⟩
    unfold Tbl.set
    split
    · subst i; rw [hp] at h; cases h
    · exact h
  · rintro ⟨i, hi, h⟩
    refine ⟨i, hi, ?_⟩
    unfold Tbl.set at h
    split at h
    · rw [hx] at h; cases h
    · exact h

/-- Results of a value-only access to a tombstone. (proof, no code) -/
inductive TombOut (op : Op K V) : Out K V → Prop where
  | again (i att : Nat) : TombOut op (.cont (.load i att))
  | updated (x : Nat × Cell K V) (h : ∃ k, op.modifies k) :
      TombOut op (.done ⟨some .SUCCESS_UP, some x⟩)
  | gaveUp (k : K) (f : UpdFn V) (b : Nat → Bool) (n : Nat) (h : op = .updateBackoff k f b)
      (hb : b n = false) : TombOut op (.done ⟨some .UNSUCCESS_BACKOFF, none⟩)

/-- An unprotected access hits a tombstone and only changes its mapped half. -/
theorem tomb_step {E : Env K} {t : Tbl K V} {op : Op K V} {pc : PC K V} (hE : E.OK) (hI : Inv E t)
    (hsf : (∀ k f, op ≠ .updateUnsafe k f) ∧ ∀ k d f, op ≠ .insertOrUpdateUnsafe k d f)
    (hpc : PcInv E t op pc) (hns : ¬ SafeAct E t op pc) :
    ∃ p v v' x, (t p).c = .deleted v ∧ x.c = .deleted v' ∧ x.marked = (t p).marked ∧
      (step E op pc t).1 = t.set p x ∧ TombOut op (step E op pc t).2 ∧ E.m = false ∧
      ∀ pc', (step E op pc t).2 = .cont pc' → PcInv E (step E op pc t).1 op pc' := by
  cases pc with
  | load i att => exact absurd (by intro _ _ _ h; cases h) hns
  | act i att curr =>
    have hlt : E.M.remap i < E.M.total := hpc.1.inBounds hE hI
    have hns' : ¬ (op.usesCas E.m = true ∨ curr.c = .empty ∨
        ∃ w, (t (E.M.remap i)).c = .live op.key w) := fun h =>
      hns (by intro i' a' c' he; cases he; exact h)
    obtain ⟨hp, ⟨hm, hact⟩, hle⟩ := hpc
    have hcas : op.usesCas E.m = false := by
      cases h : op.usesCas E.m
      · rfl
      · exact absurd (.inl h) hns'
    have hcur : ∃ w, curr.c = .live op.key w := by
      cases op <;> simp only [Op.usesCas, Bool.true_eq_false] at hcas <;> simp only at hact
      · exact hact
      · exact hact
      · exact absurd rfl (hsf.1 _ _)
      · rcases hact with h | h
        · exact absurd (.inr (.inl h.1)) hns'
        · exact h
      · exact absurd rfl (hsf.2 _ _ _)
    obtain ⟨w, hw⟩ := hcur
    have htomb : ∃ v, (t (E.M.remap i)).c = .deleted v := by
      have h1 := hle.1 (by rw [hw]; simp)
      cases hc : (t (E.M.remap i)).c with
      | empty => exact absurd hc h1
      | deleted v => exact ⟨v, rfl⟩
      | live k' v =>
        exfalso
        rcases hle.2 k' v hc with h | ⟨u, h⟩
        · rw [hw] at h; cases h
        · rw [hw] at h; cases h
          exact hns' (.inr (.inr ⟨v, hc⟩))
    obtain ⟨v, hv⟩ := htomb
    have hmf : E.m = false := by
      cases op <;> simp only [Op.usesCas, Bool.true_eq_false] at hcas
      · exact hcas
      · exact hcas
      · exact absurd rfl (hsf.1 _ _)
      · exact hcas
      · exact absurd rfl (hsf.2 _ _ _)
    have hau : ∀ k f, ∃ v' x, x.c = .deleted v' ∧ x.marked = (t (E.M.remap i)).marked ∧
        (atomicUpdate E.m k (t (E.M.remap i)) curr f).1 = x := by
      intro k f
      unfold atomicUpdate
      simp only [hmf, Bool.false_eq_true, if_false]
      cases f.atomic with
      | some g => exact ⟨_, _, by simp [Cell.setMapped, hv]; rfl, by simp [Cell.setMapped, hv], rfl⟩
      | none =>
        simp only
        split
        · exact ⟨_, _, by simp [Cell.setMapped, hv]; rfl, by simp [Cell.setMapped, hv], rfl⟩
        · exact ⟨_, _, hv, rfl, rfl⟩
    have hpass : ∀ (x : Cell K V) v', x.c = .deleted v' →
        Passed E (t.set (E.M.remap i) x) op.key i := by
      intro x v' hx
      exact hp.evolve (Evolves.set ⟨fun _ => by rw [hx]; simp, fun k u h => by rw [hx] at h; cases h⟩)
    have hnext : ∀ pc', (step E op (.act i att curr) t).2 = .cont pc' → ∃ a', pc' = .load i a' := by
      intro pc' h
      simp only [step, hlt, if_true] at h
      cases op <;> simp only [actStep, casStep, retEnd] at h <;> (repeat' split at h) <;> cases h <;>
        exact ⟨_, rfl⟩
    have hfin : ∀ k f, op.key = k → (step E op (.act i att curr) t).1 =
          t.set (E.M.remap i) (atomicUpdate E.m k (t (E.M.remap i)) curr f).1 →
        TombOut op (step E op (.act i att curr) t).2 →
        ∃ p v v' x, (t p).c = .deleted v ∧ x.c = .deleted v' ∧ x.marked = (t p).marked ∧
          (step E op (.act i att curr) t).1 = t.set p x ∧
          TombOut op (step E op (.act i att curr) t).2 ∧ E.m = false ∧
          ∀ pc', (step E op (.act i att curr) t).2 = .cont pc' →
            PcInv E (step E op (.act i att curr) t).1 op pc' := by
      intro k f hk h1 h2
      obtain ⟨v', x, hx1, hx2, hx3⟩ := hau k f
      rw [hx3] at h1
      refine ⟨_, v, v', x, hv, hx1, hx2, h1, h2, hmf, fun pc' h => ?_⟩
      obtain ⟨a', rfl⟩ := hnext pc' h
      rw [h1]
      exact hpass x v' hx1
    cases op <;> simp only [Op.usesCas, Bool.true_eq_false] at hcas
    case update k f =>
      refine hfin k f rfl (by simp only [step, hlt, if_true, actStep]) ?_
      simp only [step, hlt, if_true, actStep]
      split
      · exact .updated _ ⟨k, .inl ⟨f, rfl⟩⟩
      · exact .again _ _
    case updateBackoff k f b =>
      refine hfin k f rfl (by simp only [step, hlt, if_true, actStep]) ?_
      simp only [step, hlt, if_true, actStep, retEnd]
      split
      · exact .updated _ ⟨k, .inr (.inl ⟨f, b, rfl⟩)⟩
      · split
        · exact .again _ _
        · exact .gaveUp k f b att rfl (by simp_all)
    case insertOrUpdate k d f =>
      have hne : curr.isEmpty = false := by
        cases h : curr.isEmpty
        · rfl
        · rw [Cell.isEmpty_iff.1 h] at hw; cases hw
      refine hfin k f rfl (by simp only [step, hlt, if_true, actStep, hne]; rfl) ?_
      simp only [step, hlt, if_true, actStep, hne, Bool.false_eq_true, if_false]
      split
      · exact .updated _ ⟨k, .inr (.inr ⟨d, f, rfl⟩)⟩
      · exact .again _ _
    · exact absurd rfl (hsf.1 _ _)
    · exact absurd rfl (hsf.2 _ _ _)

/-- Invariant of one thread. (proof, no code) -/
def ThrInvA (E : Env K) (t : Tbl K V) : Thr K V → Prop
  | .idle => True
  | .busy op pc => ((∀ k f, op ≠ .updateUnsafe k f) ∧ ∀ k d f, op ≠ .insertOrUpdateUnsafe k d f) ∧
      PcInv E t op pc
  | .fin _ _ => True

/-- Global invariant. (proof, no code) -/
structure AInv (E : Env K) (s : CSt T K V) : Prop where
  inv : Inv E s.tbl
  nomarks : NoMarks s.tbl
  thr : ∀ i, ThrInvA E s.tbl (s.thr i)

/-- What the step which ends a call can be. (proof, no code) -/
inductive AnyDone (E : Env K) (op : Op K V) (t t' : Tbl K V) (r : Ret K V) : Prop where
  | good (h : DoneGood E op t t' r)
  | tomb (hd : ∀ d : Dict K V, Stores E t d → Stores E t' d) (ho : TombOut op (.done r))
      (hm : E.m = false)

variable {E : Env K} (hE : E.OK) {ok : Op K V → Prop}
  (hok : ∀ op, ok op → (∀ k f, op ≠ .updateUnsafe k f) ∧ ∀ k d f, op ≠ .insertOrUpdateUnsafe k d f)
include hE hok

/-- One step of a running call. -/
theorem AInv.step {s : CSt T K V} (hI : AInv E s) {i : T} {op : Op K V} {pc : PC K V}
    (hi : s.thr i = .busy op pc) :
    Inv E (step E op pc s.tbl).1 ∧ Evolves s.tbl (step E op pc s.tbl).1 ∧
    NoMarks (step E op pc s.tbl).1 ∧
    match (step E op pc s.tbl).2 with
    | .oob => False
    | .cont pc' => (∀ d : Dict K V, Stores E s.tbl d → Stores E (step E op pc s.tbl).1 d) ∧
        PcInv E (step E op pc s.tbl).1 op pc'
    | .done r => AnyDone E op s.tbl (step E op pc s.tbl).1 r := by
  have hti := hI.thr i
  rw [hi] at hti
  obtain ⟨hsf, hpc⟩ := hti
  refine ⟨?_, ?_, hI.nomarks.step hpc, ?_⟩
  all_goals
    by_cases hsafe : SafeAct E s.tbl op pc
  · exact (step_good hE hI.inv hpc hsafe).1
  · obtain ⟨p, v, v', x, h1, h2, h3, h4, -, -, -⟩ := tomb_step hE hI.inv hsf hpc hsafe
    rw [h4]
    exact hI.inv.setEvolve (by rw [h1]; simp)
      ⟨fun _ => by rw [h2]; simp, fun k u h => by rw [h2] at h; cases h⟩
  · exact (step_good hE hI.inv hpc hsafe).2.1
  · obtain ⟨p, v, v', x, h1, h2, h3, h4, -, -, -⟩ := tomb_step hE hI.inv hsf hpc hsafe
    rw [h4]
    exact Evolves.set ⟨fun _ => by rw [h2]; simp, fun k u h => by rw [h2] at h; cases h⟩
  · have h := (step_good hE hI.inv hpc hsafe).2.2
    revert h
    cases (Growt.step E op pc s.tbl).2 with
    | oob => exact id
    | cont pc' => rintro ⟨h1, h2⟩; rw [h1]; exact ⟨fun _ => id, h2⟩
    | done r => exact .good
  · obtain ⟨p, v, v', x, h1, h2, h3, h4, h5, hm, h6⟩ := tomb_step hE hI.inv hsf hpc hsafe
    have hst : ∀ d : Dict K V, Stores E s.tbl d → Stores E (Growt.step E op pc s.tbl).1 d := by
      intro d hd; rw [h4]; exact hd.tomb h1 h2
    revert h5 h6 hst
    cases (Growt.step E op pc s.tbl).2 with
    | oob => intro h5; cases h5
    | cont pc' => intro _ h6 h7; exact ⟨h7, h6 _ rfl⟩
    | done r => intro h5 _ h7; exact .tomb h7 h5 hm

theorem AInv.next {s s' : CSt T K V} {e : Option (TEv T K V)} (hI : AInv E s)
    (hs : CStep E ok s e s') : AInv E s' := by
  have hother : ∀ {i : T} {op : Op K V} {pc : PC K V} {x : Thr K V},
      s.thr i = .busy op pc → ThrInvA E (Growt.step E op pc s.tbl).1 x →
      AInv E ⟨(Growt.step E op pc s.tbl).1, setAt s.thr i x⟩ := by
    intro i op pc x hi hx
    obtain ⟨hinv, hev, hnm, -⟩ := hI.step hE hok hi
    refine ⟨hinv, hnm, fun j => ?_⟩
    by_cases hj : j = i
    · subst hj; simpa using hx
    · simp only [setAt_other hj]
      have := hI.thr j
      cases hj' : s.thr j with
      | idle => trivial
      | fin => trivial
      | busy op2 pc2 =>
        rw [hj'] at this
        exact ⟨this.1, this.2.evolve hev⟩
  cases hs with
  | @call i op h ho =>
    refine ⟨hI.inv, hI.nomarks, fun j => ?_⟩
    by_cases hj : j = i
    · subst hj
      simp only [setAt_same]
      exact ⟨hok op ho, PcInv.start E _ op⟩
    · simp only [setAt_other hj]; exact hI.thr j
  | @cont i op pc pc' t' h hs =>
    have hti := hI.thr i
    rw [h] at hti
    have hg := hI.step hE hok h
    have h1 := hother (x := .busy op pc') h
    rw [hs] at hg h1
    exact h1 ⟨hti.1, hg.2.2.2.2⟩
  | @done i op pc t' r h hs =>
    have h1 := hother (x := .fin op r) h trivial
    rw [hs] at h1
    exact h1
  | @ret i op r h =>
    refine ⟨hI.inv, hI.nomarks, fun j => ?_⟩
    by_cases hj : j = i
    · subst hj; simp only [setAt_same]; trivial
    · simp only [setAt_other hj]; exact hI.thr j

theorem AInv.reach {l : List (TEv T K V)} {s : CSt T K V} (h : Exec (CStep E ok) CSt.init l s) :
    AInv E s := by
  refine h.invariant (P := fun s => AInv E s) ?_ fun _ _ _ hI hs => hI.next hE hok hs
  exact ⟨Inv.emptyTbl E, fun _ => rfl, fun _ => trivial⟩

/-- What the last access of a call does to the stored dictionary. -/
theorem AInv.lin {s s' : CSt T K V} (hI : AInv E s) {i : T} {op : Op K V} {r : Ret K V}
    (hs : CStep E ok s (some (.lin i op r)) s') {d : Dict K V} (hd : Stores E s.tbl d) :
    (∃ d', Stores E s'.tbl d' ∧ (boundedObj E.m).legal d op r d') ∨
    (Stores E s'.tbl d ∧ TombOut op (.done r) ∧ E.m = false) := by
  cases hs with
  | @done _ _ pc t' _ h hs =>
    have hg := hI.step hE hok h
    rw [hs] at hg
    rcases hg.2.2.2 with hdone | ⟨h1, h2, h3⟩
    · left
      cases hdone with
      | invalid hr ht hm => obtain ⟨p, _, hp⟩ := hm; rw [hI.nomarks p] at hp; cases hp
      | refused c hc hr ht habs =>
        simp only at ht
        refine ⟨d, by rw [ht]; exact hd, .inr ⟨c, hc, hr, rfl, fun h => habs h d hd⟩⟩
      | effect h =>
        obtain ⟨h1, h2⟩ := h d hd
        exact ⟨_, h1, .inl ⟨rfl, h2⟩⟩
    · exact .inr ⟨h1 d hd, h2, h3⟩

/-- Other steps do not change the stored dictionary. -/
theorem AInv.other {s s' : CSt T K V} {e : Option (TEv T K V)} (hI : AInv E s) (hs : CStep E ok s e s')
    (hne : ∀ i op r, e ≠ some (.lin i op r)) {d : Dict K V} (hd : Stores E s.tbl d) :
    Stores E s'.tbl d := by
  cases hs with
  | call => exact hd
  | @cont i op pc pc' t' h hs =>
    have hg := hI.step hE hok h
    rw [hs] at hg
    exact hg.2.2.2.1 d hd
  | done h hs => exact absurd rfl (hne _ _ _)
  | ret => exact hd

/-- In every reachable state the table stores some dictionary. -/
theorem AInv.stores {l : List (TEv T K V)} {s : CSt T K V} (h : Exec (CStep E ok) CSt.init l s) :
    ∃ d, Stores E s.tbl d := by
  induction h with
  | init => exact ⟨_, Stores.emptyTbl E⟩
  | silent h hs ih =>
    obtain ⟨d, hd⟩ := ih
    exact ⟨d, (AInv.reach hE hok h).other hE hok hs (by simp) hd⟩
  | @vis l s s' e h hs ih =>
    obtain ⟨d, hd⟩ := ih
    cases e with
    | lin i op r =>
      rcases (AInv.reach hE hok h).lin hE hok hs hd with ⟨d', h1, -⟩ | ⟨h1, -⟩
      · exact ⟨d', h1⟩
      · exact ⟨d, h1⟩
    | call i op => exact ⟨d, (AInv.reach hE hok h).other hE hok hs (by simp) hd⟩
    | ret i op r => exact ⟨d, (AInv.reach hE hok h).other hE hok hs (by simp) hd⟩

end
end Growt
