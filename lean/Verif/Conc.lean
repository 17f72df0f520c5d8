import Verif.Lin
import Verif.SeqBase

/-!
# Any number of threads working on one bounded table

Interleaving semantics: one step of one thread is one atomic access to a slot
(`data-structures/base_linear.hpp:546-1084`).  Thread names are an arbitrary type `T`, so the number
of threads is unbounded.
-/

set_option linter.unusedSectionVars false

namespace Growt
section
variable {T K V : Type} [DecidableEq T] [DecidableEq K] [DecidableEq V] [Inhabited V]

/-- A thread: between calls, inside a call, or with the result ready to be returned.
(calls of `base_linear.hpp:192-243`) -/
inductive Thr (K V : Type) where
  | idle
  | busy (op : Op K V) (pc : PC K V)
  | fin (op : Op K V) (r : Ret K V)

/-- State of the system: shared table and threads. (`_table`, `base_linear.hpp:248`, and the threads) -/
structure CSt (T K V : Type) where
  tbl : Tbl K V
  thr : T → Thr K V

/-- Events of the table: calls are `Op`s, results are `Ret`s. (specification, no code) -/
abbrev TEv (T K V : Type) := Ev T (Op K V) (Ret K V)

/-- One step of the system; only calls satisfying `ok` are made.  The last atomic access of a call
is labelled `lin`; the return to the caller is a separate, possibly much later, step.
(`base_linear.hpp:556-1084`) -/
inductive CStep (E : Env K) (ok : Op K V → Prop) :
    CSt T K V → Option (TEv T K V) → CSt T K V → Prop where
  | call {s : CSt T K V} {i : T} {op : Op K V} (h : s.thr i = .idle) (ho : ok op) :
      CStep E ok s (some (.call i op)) ⟨s.tbl, setAt s.thr i (.busy op (start E op))⟩
  | cont {s : CSt T K V} {i : T} {op : Op K V} {pc pc' : PC K V} {t' : Tbl K V}
      (h : s.thr i = .busy op pc) (hs : step E op pc s.tbl = (t', .cont pc')) :
      CStep E ok s none ⟨t', setAt s.thr i (.busy op pc')⟩
  | done {s : CSt T K V} {i : T} {op : Op K V} {pc : PC K V} {t' : Tbl K V} {r : Ret K V}
      (h : s.thr i = .busy op pc) (hs : step E op pc s.tbl = (t', .done r)) :
      CStep E ok s (some (.lin i op r)) ⟨t', setAt s.thr i (.fin op r)⟩
  | ret {s : CSt T K V} {i : T} {op : Op K V} {r : Ret K V} (h : s.thr i = .fin op r) :
      CStep E ok s (some (.ret i op r)) ⟨s.tbl, setAt s.thr i .idle⟩

/-- Initially the table is empty and no call is active. (`base_linear.hpp:396-411`) -/
def CSt.init : CSt T K V := ⟨emptyTbl, fun _ => .idle⟩

/-- Calls that remove an element with key `k`. (specification, no code) -/
def Op.removes (op : Op K V) (k : K) : Prop := op = .erase k ∨ ∃ d, op = .eraseIf k d

/-- Calls that may change the value of an existing element with key `k`. (specification, no code) -/
def Op.modifies (op : Op K V) (k : K) : Prop :=
  (∃ f, op = .update k f) ∨ (∃ f b, op = .updateBackoff k f b) ∨ ∃ d f, op = .insertOrUpdate k d f

/-- The calls that may be mixed: never the explicitly unsafe ones; on tables without markable slots
(where updates compare only the mapped half) a key is not both erased and updated. (specification, no code) -/
structure Mix (m : Bool) (ok : Op K V → Prop) : Prop where
  safe : ∀ op, ok op → (∀ k f, op ≠ .updateUnsafe k f) ∧ ∀ k d f, op ≠ .insertOrUpdateUnsafe k d f
  split : m = false → ∀ k, (∀ op, ok op → ¬ op.removes k) ∨ ∀ op, ok op → ¬ op.modifies k

/-- The sequential object: an ideal map that starts empty, whose insertions of absent keys may be
refused as full, and whose updates with backoff may give up if the callback says so at some
time. (specification, no code) -/
def boundedObj (m : Bool) : Obj (Op K V) (Ret K V) (Dict K V) where
  init := fun _ => none
  legal d op r d' :=
    (d' = ((op.toSpec m).sem d).1 ∧ Agrees op r ((op.toSpec m).sem d).2) ∨
    ∃ c, op.mayRefuse c ∧ r = ⟨some c, none⟩ ∧ d' = d ∧ (c = .UNSUCCESS_FULL → d op.key = none)

/-- A live element stays live under every step but a removal of its key. -/
theorem step_live_stays {E : Env K} {t : Tbl K V} {op : Op K V} {pc : PC K V} {p : Nat} {k : K}
    {w : V} (hpc : PcInv E t op pc) (hl : (t p).c = .live k w) (hr : ¬ op.removes k) :
    ∃ w', ((step E op pc t).1 p).c = .live k w' := by
  have hkeep : ∃ w', (t p).c = .live k w' := ⟨w, hl⟩
  have hset : ∀ (q : Nat) (x : Cell K V), (p = q → ∃ w', x.c = .live k w') →
      ∃ w', ((t.set q x) p).c = .live k w' := by
    intro q x hx
    unfold Tbl.set
    split
    · exact hx ‹_›
    · exact hkeep
  cases pc with
  | load i att =>
    simp only [step]; split <;> exact hkeep
  | act i att curr =>
    obtain ⟨-, ⟨hm, hact⟩, hle⟩ := hpc
    have hau : ∀ k2 f, p = E.M.remap i →
        ∃ w', (atomicUpdate E.m k2 (t (E.M.remap i)) curr f).1.c = .live k w' := by
      intro k2 f hp
      subst hp
      unfold atomicUpdate
      cases E.m with
      | true =>
        simp only [if_true]
        split
        · rename_i hc
          rw [← hc]
          exact ⟨_, by simp [Cell.setMapped, hl]; rfl⟩
        · exact ⟨w, hl⟩
      | false =>
        simp only [Bool.false_eq_true, if_false]
        cases f.atomic with
        | some g => exact ⟨_, by simp [Cell.setMapped, hl]; rfl⟩
        | none =>
          simp only
          split
          · exact ⟨_, by simp [Cell.setMapped, hl]; rfl⟩
          · exact ⟨w, hl⟩
    have hnu : ∀ k2 f, p = E.M.remap i →
        ∃ w', (nonAtomicUpdate k2 (t (E.M.remap i)) f).1.c = .live k w' := by
      intro k2 f hp
      subst hp
      exact ⟨_, by simp [nonAtomicUpdate, Cell.setMapped, hl]; rfl⟩
    have hcas : ∀ (new : Cell K V) (r : Ret K V), (curr.c = .live k w → False) →
        ∃ w', ((casStep t i att (E.M.remap i) curr new r).1 p).c = .live k w' := by
      intro new r hne
      unfold casStep
      split
      · rename_i hc
        refine hset _ _ fun hp => ?_
        subst hp
        rw [hc] at hl
        exact (hne hl).elim
      · exact hkeep
    simp only [step]
    split
    · cases op with
      | find | locate => exact hact.elim
      | insert k2 d => exact hcas _ _ (by rw [hact.1]; intro h; cases h)
      | update k2 f => exact hset _ _ (hau k2 f)
      | updateBackoff k2 f b => exact hset _ _ (hau k2 f)
      | updateUnsafe k2 f => exact hset _ _ (hnu k2 f)
      | insertOrUpdate k2 d f =>
        simp only [actStep]
        split
        · rename_i he
          have := Cell.isEmpty_iff.1 he
          exact hcas _ _ (by rw [this]; intro h; cases h)
        · exact hset _ _ (hau k2 f)
      | insertOrUpdateUnsafe k2 d f =>
        simp only [actStep]
        split
        · rename_i he
          have := Cell.isEmpty_iff.1 he
          exact hcas _ _ (by rw [this]; intro h; cases h)
        · exact hset _ _ (hnu k2 f)
      | erase k2 =>
        refine hcas _ _ fun h => ?_
        obtain ⟨u, hu⟩ := hact
        rw [h] at hu; cases hu
        exact hr (.inl rfl)
      | eraseIf k2 d =>
        refine hcas _ _ fun h => ?_
        simp only at hact
        rw [h] at hact; cases hact
        exact hr (.inr ⟨_, rfl⟩)
    · exact hkeep

/-- Invariant of one thread. (proof, no code) -/
def ThrInv (E : Env K) (ok : Op K V → Prop) (t : Tbl K V) : Thr K V → Prop
  | .idle => True
  | .busy op pc => ok op ∧ PcInv E t op pc ∧ SafeAct E t op pc
  | .fin _ _ => True

/-- Global invariant. (proof, no code) -/
structure CInv (E : Env K) (ok : Op K V → Prop) (s : CSt T K V) : Prop where
  inv : Inv E s.tbl
  nomarks : NoMarks s.tbl
  thr : ∀ i, ThrInv E ok s.tbl (s.thr i)

/-- `SafeAct` holds when an operation starts its modifying access ... -/
theorem safe_after_load {E : Env K} {ok : Op K V → Prop} (hmix : Mix E.m ok) {t : Tbl K V}
    {op : Op K V} (ho : ok op) {pc pc' : PC K V} (hs : step E op pc t = (t, .cont pc')) :
    SafeAct E t op pc' := by
  intro i att curr hpc'
  subst hpc'
  obtain ⟨hu1, hu2⟩ := hmix.safe op ho
  cases pc with
  | act j a c =>
    exfalso
    revert hs
    simp only [step]
    split
    · intro hs
      have ho := congrArg Prod.snd hs
      revert ho
      cases op <;> simp only [actStep, casStep, retEnd] <;> (repeat' split) <;> intro ho <;> cases ho
    · intro hs; cases hs
  | load j a =>
    revert hs
    simp only [step]
    split
    · intro hs
      have ho := congrArg Prod.snd hs
      have key : ∀ k, (t (E.M.remap j)).hasKey k = true → op.key = k → ∃ w, (t (E.M.remap j)).c = .live op.key w := by
        intro k hk he; rw [he]; exact Cell.hasKey_iff.1 hk
      revert ho
      cases op with
      | find => simp only [afterLoad]; (repeat' split) <;> intro ho <;> cases ho
      | locate => simp only [afterLoad, retEnd]; (repeat' split) <;> intro ho <;> cases ho
      | insert => intro _; left; rfl
      | erase => intro _; left; rfl
      | eraseIf => intro _; left; rfl
      | updateUnsafe k f => exact absurd rfl (hu1 k f)
      | insertOrUpdateUnsafe k d f => exact absurd rfl (hu2 k d f)
      | update k f =>
        simp only [afterLoad, retEnd]
        (repeat' split) <;> intro ho <;> cases ho
        exact .inr (.inr (key k ‹_› rfl))
      | updateBackoff k f b =>
        simp only [afterLoad, retEnd]
        (repeat' split) <;> intro ho <;> cases ho
        exact .inr (.inr (key k ‹_› rfl))
      | insertOrUpdate k d f =>
        simp only [afterLoad, retEnd]
        (repeat' split) <;> intro ho <;> cases ho
        · exact .inr (.inl (Cell.isEmpty_iff.1 ‹_›))
        · exact .inr (.inr (key k ‹_› rfl))
    · intro hs; cases hs

/-- ... and is preserved by the steps of other threads. -/
theorem safe_stable {E : Env K} {ok : Op K V → Prop} (hmix : Mix E.m ok) {t : Tbl K V}
    {op op2 : Op K V} (ho : ok op) (ho2 : ok op2) {pc pc2 : PC K V} (hsafe : SafeAct E t op pc)
    (hpc2 : PcInv E t op2 pc2) :
    SafeAct E (step E op2 pc2 t).1 op pc := by
  intro i att curr hpc
  rcases hsafe i att curr hpc with h | h | ⟨w, h⟩
  · exact .inl h
  · exact .inr (.inl h)
  · cases hc : op.usesCas E.m with
    | true => exact .inl rfl
    | false =>
      right; right
      obtain ⟨hu1, hu2⟩ := hmix.safe op ho
      have hmod : op.modifies op.key ∧ E.m = false := by
        cases op <;> simp [Op.usesCas] at hc <;> simp only [Op.key, Op.modifies]
        · exact ⟨.inl ⟨_, rfl⟩, hc⟩
        · exact ⟨.inr (.inl ⟨_, _, rfl⟩), hc⟩
        · rename_i k f; exact absurd rfl (hu1 k f)
        · exact ⟨.inr (.inr ⟨_, _, rfl⟩), hc⟩
        · rename_i k d f; exact absurd rfl (hu2 k d f)
      refine step_live_stays hpc2 h ?_
      rcases hmix.split hmod.2 op.key with hr | hr
      · exact hr op2 ho2
      · exact absurd hmod.1 (hr op ho)

theorem NoMarks.step {E : Env K} {t : Tbl K V} {op : Op K V} {pc : PC K V} (hn : NoMarks t)
    (hpc : PcInv E t op pc) : NoMarks (step E op pc t).1 := by
  intro p
  cases hp : ((Growt.step E op pc t).1 p).marked
  · rfl
  · have := step_marks hpc p hp; rw [hn p] at this; cases this

/-- The invariant is inductive. -/
theorem CInv.next {E : Env K} (hE : E.OK) {ok : Op K V → Prop} (hmix : Mix E.m ok)
    {s s' : CSt T K V} {e : Option (TEv T K V)} (hI : CInv E ok s) (hs : CStep E ok s e s') :
    CInv E ok s' := by
  have hother : ∀ {i : T} {op : Op K V} {pc : PC K V} {x : Thr K V},
      s.thr i = .busy op pc → ThrInv E ok (step E op pc s.tbl).1 x →
      CInv E ok ⟨(step E op pc s.tbl).1, setAt s.thr i x⟩ := by
    intro i op pc x hi hx
    have hti := hI.thr i
    rw [hi] at hti
    obtain ⟨ho, hpc, hsafe⟩ := hti
    obtain ⟨hinv, hev, -⟩ := step_good hE hI.inv hpc hsafe
    refine ⟨hinv, hI.nomarks.step hpc, fun j => ?_⟩
    by_cases hj : j = i
    · subst hj; simpa using hx
    · simp only [setAt_other hj]
      have := hI.thr j
      cases hj' : s.thr j with
      | idle => trivial
      | fin => trivial
      | busy op2 pc2 =>
        rw [hj'] at this
        obtain ⟨ho2, hpc2, hs2⟩ := this
        exact ⟨ho2, hpc2.evolve hev, safe_stable hmix ho2 ho hs2 hpc⟩
  cases hs with
  | @call i op h ho =>
    refine ⟨hI.inv, hI.nomarks, fun j => ?_⟩
    by_cases hj : j = i
    · subst hj
      simp only [setAt_same]
      exact ⟨ho, PcInv.start E _ op, by intro a b c h; simp [start] at h⟩
    · simp only [setAt_other hj]; exact hI.thr j
  | @cont i op pc pc' t' h hs =>
    have hti := hI.thr i
    rw [h] at hti
    obtain ⟨ho, hpc, hsafe⟩ := hti
    have hg := step_good hE hI.inv hpc hsafe
    have h1 := hother (x := .busy op pc') h
    rw [hs] at hg h1
    obtain ⟨-, -, ht, hp'⟩ := hg
    simp only at ht
    subst ht
    exact h1 ⟨ho, hp', safe_after_load hmix ho hs⟩
  | @done i op pc t' r h hs =>
    have h1 := hother (x := .fin op r) h trivial
    rw [hs] at h1
    exact h1
  | @ret i op r h =>
    refine ⟨hI.inv, hI.nomarks, fun j => ?_⟩
    by_cases hj : j = i
    · subst hj; simp only [setAt_same]; trivial
    · simp only [setAt_other hj]; exact hI.thr j

theorem CInv.init (E : Env K) (ok : Op K V → Prop) : CInv E ok (CSt.init : CSt T K V) :=
  ⟨Inv.emptyTbl E, fun _ => rfl, fun _ => trivial⟩

theorem CInv.reach {E : Env K} (hE : E.OK) {ok : Op K V → Prop} (hmix : Mix E.m ok)
    {l : List (TEv T K V)} {s : CSt T K V} (h : Exec (CStep E ok) CSt.init l s) : CInv E ok s :=
  h.invariant (CInv.init E ok) fun _ _ _ hI hs => hI.next hE hmix hs

/-- What the last access of a call does to the stored dictionary. -/
theorem lin_legal {E : Env K} (hE : E.OK) {ok : Op K V → Prop}
    {s s' : CSt T K V} {i : T} {op : Op K V} {r : Ret K V} (hI : CInv E ok s)
    (hs : CStep E ok s (some (.lin i op r)) s') {d : Dict K V} (hd : Stores E s.tbl d) :
    ∃ d', Stores E s'.tbl d' ∧ (boundedObj E.m).legal d op r d' := by
  cases hs with
  | @done _ _ pc t' _ h hs =>
    have hti := hI.thr i
    rw [h] at hti
    obtain ⟨ho, hpc, hsafe⟩ := hti
    have hg := step_good hE hI.inv hpc hsafe
    rw [hs] at hg
    obtain ⟨-, -, hdone⟩ := hg
    cases hdone with
    | invalid hr ht hm => obtain ⟨p, _, hp⟩ := hm; rw [hI.nomarks p] at hp; cases hp
    | refused c hc hr ht habs =>
      simp only at ht
      refine ⟨d, by rw [ht]; exact hd, .inr ⟨c, hc, hr, rfl, fun h => habs h d hd⟩⟩
    | effect h =>
      obtain ⟨h1, h2⟩ := h d hd
      exact ⟨_, h1, .inl ⟨rfl, h2⟩⟩

/-- Steps that are not the last access of a call do not change the stored dictionary. -/
theorem nonlin_same {E : Env K} (hE : E.OK) {ok : Op K V → Prop}
    {s s' : CSt T K V} {e : Option (TEv T K V)} (hI : CInv E ok s) (hs : CStep E ok s e s')
    (hne : ∀ i op r, e ≠ some (.lin i op r)) : s'.tbl = s.tbl := by
  cases hs with
  | call => rfl
  | @cont i op pc pc' t' h hs =>
    have hti := hI.thr i
    rw [h] at hti
    obtain ⟨ho, hpc, hsafe⟩ := hti
    have hg := step_good hE hI.inv hpc hsafe
    rw [hs] at hg
    exact hg.2.2.1
  | done h hs => exact absurd rfl (hne _ _ _)
  | ret => rfl

/-- Phase of a thread. (proof, no code) -/
def Thr.phase : Thr K V → Phase (Op K V) (Ret K V)
  | .idle => .idle
  | .busy op _ => .called op
  | .fin op r => .effected op r

theorem CStep.wellFormed {E : Env K} {ok : Op K V → Prop} {s s' : CSt T K V} {e : TEv T K V}
    (hs : CStep E ok s (some e) s') :
    WellFormed (fun i => (s.thr i).phase) [e] (fun i => (s'.thr i).phase) := by
  cases hs with
  | @call i op h ho =>
    exact .call (by simp [h, Thr.phase]) (by simp [Thr.phase])
      (fun j hj => by simp [setAt_other hj]) (.nil _)
  | @done i op pc t' r h hs =>
    exact .lin (by simp [h, Thr.phase]) (by simp [Thr.phase])
      (fun j hj => by simp [setAt_other hj]) (.nil _)
  | @ret i op r h =>
    exact .ret (by simp [h, Thr.phase]) (by simp [Thr.phase])
      (fun j hj => by simp [setAt_other hj]) (.nil _)

theorem CStep.silent_phase {E : Env K} {ok : Op K V → Prop} {s s' : CSt T K V}
    (hs : CStep E ok s none s') (i : T) : (s'.thr i).phase = (s.thr i).phase := by
  cases hs with
  | @cont j op pc pc' t' h hs =>
    by_cases hj : i = j
    · subst hj; simp [h, Thr.phase]
    · simp [setAt_other hj]

/-- Every execution is well formed and its effects are those of the ideal map that the table
stores. -/
theorem exec_explained {E : Env K} (hE : E.OK) {ok : Op K V → Prop} (hmix : Mix E.m ok)
    {l : List (TEv T K V)} {s : CSt T K V} (h : Exec (CStep E ok) CSt.init l s) :
    WellFormed (fun _ => .idle) l (fun i => (s.thr i).phase) ∧
    ∃ d, Legal (boundedObj E.m) (fun _ => none) (effects l) d ∧ Stores E s.tbl d := by
  induction h with
  | init => exact ⟨.nil _, _, .nil _, Stores.emptyTbl E⟩
  | @silent l s s' h hs ih =>
    obtain ⟨hw, d, hl, hd⟩ := ih
    have hsame := nonlin_same hE (CInv.reach hE hmix h) hs (by simp)
    refine ⟨?_, d, hl, by rw [hsame]; exact hd⟩
    have : (fun i => (s'.thr i).phase) = fun i => (s.thr i).phase :=
      funext fun i => hs.silent_phase i
    rw [this]; exact hw
  | @vis l s s' e h hs ih =>
    obtain ⟨hw, d, hl, hd⟩ := ih
    have hI := CInv.reach hE hmix h
    refine ⟨hw.append hs.wellFormed, ?_⟩
    rw [effects_append]
    cases e with
    | lin i op r =>
      obtain ⟨d', hd', hleg⟩ := lin_legal hE hI hs hd
      exact ⟨d', hl.append (.cons hleg (.nil _)), hd'⟩
    | call i op =>
      have hsame := nonlin_same hE hI hs (by simp)
      exact ⟨d, by simpa [effects] using hl, by rw [hsame]; exact hd⟩
    | ret i op r =>
      have hsame := nonlin_same hE hI hs (by simp)
      exact ⟨d, by simpa [effects] using hl, by rw [hsame]; exact hd⟩

end
end Growt
