import Verif.TsxInv
import Verif.Progress

/-!
# Progress of the table with transactions

How many steps a call of `tsx_circular.hpp` needs while other threads work on the same table.  A transaction that
commits is one step; how many rounds its loop makes is counted separately.
-/

set_option linter.unusedSectionVars false

namespace Growt.Tsx
namespace Progress
open Growt.Progress (atomicUpdate_nonempty atomicUpdate_fail set_nonempty setMapped_empty total total_congr total_le
  total_add_one sum_change)
section
variable {T K V : Type} [DecidableEq T] [DecidableEq K] [DecidableEq V] [Inhabited V]

/-! ## Specification -/

/-- Who moved, and the event. (specification, no code) -/
abbrev Move (T K V : Type) := T × Option (TEv T K V)

/-- A step begins a call. (specification, no code) -/
def isCall : Option (TEv T K V) → Bool
  | some (.call _ _) => true
  | _ => false

/-- A step ends a call, as far as the table is concerned. (specification, no code) -/
def isLin : Option (TEv T K V) → Bool
  | some (.lin _ _ _) => true
  | _ => false

/-- A step is a successful modification: it inserts, changes or removes an element. (specification, no code) -/
def isWrite : Option (TEv T K V) → Bool
  | some (.lin _ (.find _) _) => false
  | some (.lin _ _ r) => match r.code with | some c => c.successful | none => false
  | _ => false

/-- A step returns to the caller. (specification, no code) -/
def isRet : Option (TEv T K V) → Bool
  | some (.ret _ _ _) => true
  | _ => false

/-- Executions with the thread that moves: in every step exactly this thread changes.  The last step
stands first. (specification, no code) -/
inductive Trace (Q : Tab K) : List (Move T K V) → St T K V → Prop where
  | nil : Trace Q [] St.init
  | cons {tr : List (Move T K V)} {s s' : St T K V} {i : T} {e : Option (TEv T K V)} (h : Trace Q tr s)
      (hs : Step Q s e s') (hi : s'.thr i ≠ s.thr i) : Trace Q ((i, e) :: tr) s'

/-- The number of steps that thread `i` has made since its last call began. (specification, no code) -/
def mine (i : T) : List (Move T K V) → Nat
  | [] => 0
  | (j, e) :: tr => if j = i then (if isCall e then 0 else mine i tr + 1) else mine i tr

/-- The number of successful modifications by other threads since the last call of thread `i` began.
(specification, no code) -/
def others (i : T) : List (Move T K V) → Nat
  | [] => 0
  | (j, e) :: tr =>
    if j = i then (if isCall e then 0 else others i tr) else others i tr + (if isWrite e then 1 else 0)

/-- The number of steps with a property. (specification, no code) -/
def count (p : Option (TEv T K V) → Bool) : List (Move T K V) → Nat
  | [] => 0
  | (_, e) :: tr => count p tr + (if p e then 1 else 0)

/-- Calls that only read the table. (specification, no code) -/
def reads (op : Call K V) : Prop := ∃ k, op = .find k

/-- A search can end: some slot is empty. (specification, no code) -/
def Room (Q : Tab K) (t : Tbl K V) : Prop := ∃ p, p < 2 ^ Q.k ∧ (t p).c = .empty

/-- The step for an aborted transaction. (specification, no code) -/
def abort (op : Call K V) : Nat := if op.transactional then 1 else 0

/-! ## Steps -/

/-- A slot never becomes empty again. -/
theorem step_nonempty {Q : Tab K} {op : Call K V} {pc : PC K V} {t : Tbl K V} {p : Nat} (h : (t p).c ≠ .empty) :
    ((step Q op pc t).1 p).c ≠ .empty := by
  have hcas : ∀ i pos curr new r, new.c ≠ Content.empty → ((cas t i pos curr new r).1 p).c ≠ .empty := by
    intro i pos curr new r hn
    unfold cas
    split
    · exact set_nonempty h fun _ => hn
    · exact h
  cases pc with
  | begin => exact h
  | load i => exact h
  | act i curr =>
    have hu : ∀ k f, ((t.set (Q.pos i) (atomicUpdate true k (t (Q.pos i)) curr f).1) p).c ≠ .empty :=
      fun k f => set_nonempty h fun e => atomicUpdate_nonempty (e ▸ h)
    cases op with
    | find k => exact h
    | insert k d => exact hcas _ _ _ _ _ nofun
    | update k f => exact hu k f
    | insertOrUpdate k d f =>
      simp only [step, change]; split
      · exact hu k f
      · exact hcas _ _ _ _ _ nofun
    | erase k => exact hcas _ _ _ _ _ nofun

/-- What a committed transaction does to the table: nothing empty comes back, and without success nothing at all. -/
theorem body_effect {Q : Tab K} {op : Call K V} {t t' : Tbl K V} {r : Ret K V} (n : Nat) : ∀ i,
    body Q op n i t = some (t', r) → (∀ p, (t p).c ≠ .empty → (t' p).c ≠ .empty) ∧
      (t' = t ∨ ∃ c, r.code = some c ∧ c.successful = true) := by
  induction n with
  | zero => intro i h; simp [body] at h
  | succ n ih =>
    intro i h
    have hv : ∀ k f p, (t p).c ≠ .empty →
        ((t.set (Q.pos i) (nonAtomicUpdate k (t (Q.pos i)) f).1) p).c ≠ .empty :=
      fun k f p hp => set_nonempty hp fun e h' => (e ▸ hp) (setMapped_empty.1 h')
    have hl : ∀ k d p, (t p).c ≠ .empty → ((t.set (Q.pos i) (Cell.liveCell k d)) p).c ≠ .empty :=
      fun k d p hp => set_nonempty hp fun _ => nofun
    cases op <;> simp only [body] at h
    case find => cases h
    case erase => cases h
    all_goals
      split at h
      · cases h; exact ⟨fun _ h => h, .inl rfl⟩
      · split at h
        · cases h
          first
          | exact ⟨fun _ h => h, .inl rfl⟩
          | exact ⟨hv _ _, .inr ⟨_, rfl, rfl⟩⟩
        · split at h
          · cases h
            first
            | exact ⟨fun _ h => h, .inl rfl⟩
            | exact ⟨hl _ _, .inr ⟨_, rfl, rfl⟩⟩
          · exact ih _ h

/-- What a load leads to, if the call goes on. -/
theorem load_cont {Q : Tab K} {op : Call K V} {i : Nat} {t t' : Tbl K V} {pc' : PC K V}
    (h : step Q op (.load i) t = (t', .cont pc')) :
    t' = t ∧ ((pc' = .load (i + 1) ∧ (t (Q.pos i)).c ≠ .empty) ∨ (pc' = .act i (t (Q.pos i)) ∧ ¬ reads op)) := by
  simp only [step] at h
  injection h with h1 h2
  refine ⟨h1.symm, ?_⟩
  have hne : (t (Q.pos i)).isEmpty = false → (t (Q.pos i)).c ≠ .empty := by
    intro h e; rw [Cell.isEmpty_iff.2 e] at h; cases h
  cases op <;> simp only [afterLoad] at h2 <;> (repeat' split at h2) <;> cases h2 <;> simp_all [reads]

/-- A failed attempt. -/
theorem act_cont {Q : Tab K} {op : Call K V} {i : Nat} {curr : Cell K V} {t t' : Tbl K V} {pc' : PC K V}
    (hr : ¬ reads op) (h : step Q op (.act i curr) t = (t', .cont pc')) :
    t' = t ∧ t (Q.pos i) ≠ curr ∧ pc' = .load i := by
  simp only [step] at h
  have hcas : ∀ new r, cas t i (Q.pos i) curr new r = (t', .cont pc') →
      t' = t ∧ t (Q.pos i) ≠ curr ∧ pc' = .load i := by
    intro new r h
    unfold cas at h
    split at h <;> rename_i e
    · injection h with _ h; cases h
    · injection h with h1 h2; injection h2 with h2
      exact ⟨h1.symm, e, h2.symm⟩
  have hupd : ∀ (k : K) (f : UpdFn V),
      (t.set (Q.pos i) (atomicUpdate true k (t (Q.pos i)) curr f).1,
        if (atomicUpdate true k (t (Q.pos i)) curr f).2.2 = true then
          (.done ⟨some .SUCCESS_UP,
            some (Q.pos i, k, (atomicUpdate true k (t (Q.pos i)) curr f).2.1.mapped)⟩ : Out K V)
        else .cont (.load i)) = (t', .cont pc') → t' = t ∧ t (Q.pos i) ≠ curr ∧ pc' = .load i := by
    intro k f h
    injection h with h1 h2
    split at h2 <;> rename_i e
    · cases h2
    · obtain ⟨e1, e2⟩ := atomicUpdate_fail (by simpa using e)
      injection h2 with h2
      refine ⟨?_, e2, h2.symm⟩
      rw [← h1, e1, Tbl.set_self]
  cases op with
  | find k => exact absurd ⟨k, rfl⟩ hr
  | insert k d => exact hcas _ _ h
  | update k f => exact hupd k f h
  | insertOrUpdate k d f =>
    simp only [change] at h
    split at h
    · exact hupd k f h
    · exact hcas _ _ h
  | erase k => exact hcas _ _ h

/-- A call that changes the table is a successful modification. -/
theorem done_write {Q : Tab K} {op : Call K V} {pc : PC K V} {t t' : Tbl K V} {r : Ret K V} {i : T}
    (h : step Q op pc t = (t', .done r)) (hw : isWrite (some (.lin i op r) : Option (TEv T K V)) = false) :
    t' = t := by
  cases pc with
  | begin => simp [step] at h
  | load j => simp only [step] at h; injection h with h _; exact h.symm
  | act j curr =>
    simp only [step] at h
    have hcas : ∀ new r', cas t j (Q.pos j) curr new r' = (t', .done r) → (t' = t ∨ r = r') := by
      intro new r' h
      unfold cas at h
      split at h <;> injection h with h1 h2
      · injection h2 with h2; exact .inr h2.symm
      · exact .inl h1.symm
    have hupd : ∀ (k : K) (f : UpdFn V),
        (t.set (Q.pos j) (atomicUpdate true k (t (Q.pos j)) curr f).1,
          if (atomicUpdate true k (t (Q.pos j)) curr f).2.2 = true then
            (.done ⟨some .SUCCESS_UP,
              some (Q.pos j, k, (atomicUpdate true k (t (Q.pos j)) curr f).2.1.mapped)⟩ : Out K V)
          else .cont (.load j)) = (t', .done r) → (t' = t ∨ r.code = some .SUCCESS_UP) := by
      intro k f h
      injection h with h1 h2
      split at h2 <;> rename_i e
      · injection h2 with h2; exact .inr (by rw [← h2])
      · cases h2
    have hs : ∀ c, c = .SUCCESS_IN ∨ c = .SUCCESS_UP ∨ c = .SUCCESS_DEL → ReturnCode.successful c = true := by
      rintro c (rfl | rfl | rfl) <;> rfl
    cases op with
    | find k => injection h with _ h; cases h
    | insert k d =>
      refine (hcas _ _ h).resolve_right fun e => ?_
      subst e; simp [isWrite, hs] at hw
    | update k f =>
      refine (hupd k f h).resolve_right fun e => ?_
      simp [isWrite, e, hs] at hw
    | insertOrUpdate k d f =>
      simp only [change] at h
      split at h
      · refine (hupd k f h).resolve_right fun e => ?_
        simp [isWrite, e, hs] at hw
      · refine (hcas _ _ h).resolve_right fun e => ?_
        subst e; simp [isWrite, hs] at hw
    | erase k =>
      refine (hcas _ _ h).resolve_right fun e => ?_
      subst e; simp [isWrite, hs] at hw

theorem commit_write {Q : Tab K} {op : Call K V} {n j : Nat} {t t' : Tbl K V} {r : Ret K V} {i : T}
    (h : body Q op n j t = some (t', r)) (hw : isWrite (some (.lin i op r) : Option (TEv T K V)) = false) :
    t' = t := by
  rcases (body_effect n j h).2 with h' | ⟨c, hc, hs⟩
  · exact h'
  · cases op <;> simp [isWrite, hc, hs] at hw
    cases n <;> simp [body] at h

/-! ## The account of one call -/

/-- The slots passed by a search are occupied. (proof, no code) -/
def Passed (Q : Tab K) (t : Tbl K V) (st a : Nat) : Prop := ∀ b, b < a → (t (Q.pos (st + b))).c ≠ .empty

/-- The account of a thread: `n` own steps in its call, `w` successful modifications by others
meanwhile. (proof, no code) -/
def Acc (Q : Tab K) (t : Tbl K V) (n w : Nat) : Thr K V → Prop
  | .idle => True
  | .busy op .begin => n = 0 ∧ op.transactional = true
  | .busy op (.load j) => ∃ a f, j = Q.home op.key + a ∧ Passed Q t (Q.home op.key) a ∧ f ≤ w ∧
      n ≤ a + 2 * f + abort op ∧ (reads op → f = 0)
  | .busy op (.act j curr) => ∃ a f, j = Q.home op.key + a ∧ Passed Q t (Q.home op.key) a ∧ f ≤ w ∧
      n ≤ a + 2 * f + 1 + abort op ∧ (f < w ∨ t (Q.pos j) = curr) ∧ ¬ reads op
  | .fin op _ => ∃ a f, Passed Q t (Q.home op.key) a ∧ f ≤ w ∧ n ≤ a + 2 * f + 2 + abort op ∧ (reads op → n ≤ a + 1)

theorem reads_abort {op : Call K V} (h : reads op) : abort op = 0 := by
  obtain ⟨k, rfl⟩ := h; rfl

theorem Passed.mono {Q : Tab K} {t t' : Tbl K V} {st a : Nat} (h : Passed Q t st a)
    (ht : ∀ p, (t p).c ≠ .empty → (t' p).c ≠ .empty) : Passed Q t' st a := fun b hb => ht _ (h b hb)

theorem Passed.push {Q : Tab K} {t : Tbl K V} {st a : Nat} (h : Passed Q t st a)
    (h' : (t (Q.pos (st + a))).c ≠ .empty) : Passed Q t st (a + 1) := by
  intro b hb
  by_cases e : b = a
  · subst e; exact h'
  · exact h b (by omega)

/-- A step of another thread. -/
theorem Acc.frame {Q : Tab K} {t t' : Tbl K V} {n w d : Nat} {x : Thr K V} (h : Acc Q t n w x)
    (ht : ∀ p, (t p).c ≠ .empty → (t' p).c ≠ .empty) (hd : d = 0 → t' = t) : Acc Q t' n (w + d) x := by
  cases x with
  | idle => trivial
  | fin op r =>
    obtain ⟨a, f, h1, h3, h4, h5⟩ := h
    exact ⟨a, f, h1.mono ht, by omega, h4, h5⟩
  | busy op pc =>
    cases pc with
    | begin => exact h
    | load j =>
      obtain ⟨a, f, h0, h1, h3, h4, h5⟩ := h
      exact ⟨a, f, h0, h1.mono ht, by omega, h4, h5⟩
    | act j curr =>
      obtain ⟨a, f, h0, h1, h3, h4, h5, h6⟩ := h
      refine ⟨a, f, h0, h1.mono ht, by omega, h4, ?_, h6⟩
      by_cases hz : d = 0
      · rw [hd hz, hz]; exact h5
      · left; omega

/-- Calls that only read never try to change a slot. (proof, no code) -/
theorem no_act {Q : Tab K} {tr : List (Move T K V)} {s : St T K V} (h : Trace Q tr s) :
    ∀ i op j c, s.thr i = .busy op (.act j c) → ¬ reads op := by
  induction h with
  | nil => intro i op j c h; cases h
  | @cons tr s s' i e h hs hi ih =>
    intro l op j c hl
    have back : ∀ {x : Thr K V} {i' : T}, x ≠ .busy op (.act j c) → setAt s.thr i' x l = .busy op (.act j c) →
        s.thr l = .busy op (.act j c) := by
      intro x i' hx h
      by_cases e : l = i'
      · subst e; rw [setAt_same] at h; exact absurd h hx
      · rwa [setAt_other e] at h
    cases hs with
    | @call i' op' h' =>
      refine ih l op j c (back (fun e => ?_) hl)
      injection e with _ e
      unfold start at e
      split at e <;> cases e
    | commit h' hb => exact ih l op j c (back (x := .fin _ _) nofun hl)
    | @cont i' op' pc pc' t' h' hs =>
      by_cases e : l = i'
      · subst e
        change setAt _ _ _ _ = _ at hl
        rw [setAt_same] at hl
        cases hl
        cases pc with
        | begin => simp [step] at hs
        | load i0 =>
          obtain ⟨-, ⟨e, -⟩ | ⟨-, hr⟩⟩ := load_cont hs
          · cases e
          · exact hr
        | act i0 c0 => exact ih _ _ _ _ h'
      · change setAt _ _ _ _ = _ at hl
        rw [setAt_other e] at hl
        exact ih l op j c hl
    | done h' hs => exact ih l op j c (back (x := .fin _ _) nofun hl)
    | ret h' => exact ih l op j c (back (x := .idle) nofun hl)

/-- What a step does to the table and to the threads. -/
theorem step_cases {Q : Tab K} {tr : List (Move T K V)} {s s' : St T K V} {i : T} {e : Option (TEv T K V)}
    (ht : Trace Q tr s) (hs : Step Q s e s') (hi : s'.thr i ≠ s.thr i) :
    (∀ p, (s.tbl p).c ≠ .empty → (s'.tbl p).c ≠ .empty) ∧ (isWrite e = false → s'.tbl = s.tbl) ∧
      ∀ j, j ≠ i → s'.thr j = s.thr j := by
  have key : ∀ {f : T → Thr K V} {i' : T} {x : Thr K V}, setAt f i' x i ≠ f i → ∀ j, j ≠ i → setAt f i' x j = f j := by
    intro f i' x h j hj
    by_cases e : i = i'
    · subst e; exact setAt_other hj
    · exact absurd (setAt_other e) h
  cases hs with
  | call h => exact ⟨fun _ h => h, fun _ => rfl, key hi⟩
  | @commit i' op n t' r h hb =>
    exact ⟨(body_effect n _ hb).1, fun hw => commit_write hb hw, key hi⟩
  | @cont i' op pc pc' t' h hs =>
    refine ⟨fun p hp => ?_, fun _ => ?_, key hi⟩
    · have := step_nonempty (Q := Q) (op := op) (pc := pc) hp
      rwa [hs] at this
    · cases pc with
      | begin => simp only [step] at hs; injection hs with hs _; exact hs.symm
      | load => exact (load_cont hs).1
      | act => exact (act_cont (no_act ht _ _ _ _ h) hs).1
  | @done i' op pc t' r h hs =>
    refine ⟨fun p hp => ?_, fun hw => done_write hs hw, key hi⟩
    have := step_nonempty (Q := Q) (op := op) (pc := pc) hp
    rwa [hs] at this
  | ret h => exact ⟨fun _ h => h, fun _ => rfl, key hi⟩

/-- A step as seen from the thread that makes it and from the others. -/
theorem mover {Q : Tab K} {tr : List (Move T K V)} {s s' : St T K V} {e : Option (TEv T K V)} (ht : Trace Q tr s)
    (h : Step Q s e s') : ∃ i x, s'.thr = setAt s.thr i x ∧ x ≠ s.thr i := by
  cases h with
  | call h => exact ⟨_, _, rfl, by rw [h]; nofun⟩
  | commit h hb => exact ⟨_, _, rfl, by rw [h]; nofun⟩
  | @cont i op pc pc' t' h hs =>
    refine ⟨_, _, rfl, fun e => ?_⟩
    rw [h] at e
    injection e with _ e
    cases pc with
    | begin => subst e; simp [step] at hs
    | load j =>
      obtain ⟨-, ⟨rfl, -⟩ | ⟨rfl, -⟩⟩ := load_cont hs
      · injection e with e; omega
      · cases e
    | act j c =>
      obtain ⟨-, -, rfl⟩ := act_cont (no_act ht _ _ _ _ h) hs
      cases e
  | done h hs => exact ⟨_, _, rfl, by rw [h]; nofun⟩
  | ret h => exact ⟨_, _, rfl, by rw [h]; nofun⟩

/-- Every execution can be seen that way. -/
theorem trace_step {Q : Tab K} {s s' : St T K V} {e : Option (TEv T K V)}
    {tr : List (Move T K V)} (ht : Trace Q tr s) (h : Step Q s e s') : ∃ i, Trace Q ((i, e) :: tr) s' := by
  obtain ⟨i, x, h1, h2⟩ := mover ht h
  exact ⟨i, ht.cons h (by rw [h1, setAt_same]; exact h2)⟩

/-- The account of every thread is kept. -/
theorem acc {Q : Tab K} {tr : List (Move T K V)} {s : St T K V} (h : Trace Q tr s) :
    ∀ i, Acc Q s.tbl (mine i tr) (others i tr) (s.thr i) := by
  induction h with
  | nil => intro i; trivial
  | @cons tr s s' i e h hs hi ih =>
    intro j
    obtain ⟨c1, c2, c3⟩ := step_cases h hs hi
    by_cases hj : j = i
    · subst hj
      have hm : mine j ((j, e) :: tr) = if isCall e then 0 else mine j tr + 1 := by simp [mine]
      have ho : others j ((j, e) :: tr) = if isCall e then 0 else others j tr := by simp [others]
      have hA := ih j
      rw [hm, ho]
      have key : ∀ {f : T → Thr K V} {i' : T} {x : Thr K V}, setAt f i' x j ≠ f j → i' = j := by
        intro f i' x h
        by_cases e : i' = j
        · exact e
        · exact absurd (setAt_other (Ne.symm e)) h
      cases hs with
      | @call i' op h' =>
        obtain rfl := key hi
        simp only [isCall, setAt_same, if_true]
        unfold start
        split
        · rename_i htx; exact ⟨rfl, htx⟩
        · exact ⟨0, 0, rfl, nofun, Nat.le_refl _, Nat.zero_le _, fun _ => rfl⟩
      | @commit i' op n t' r h' hb =>
        obtain rfl := key hi
        simp only [isCall, setAt_same, Bool.false_eq_true, if_false]
        rw [h'] at hA
        obtain ⟨h0, htx⟩ := hA
        exact ⟨0, 0, nofun, Nat.zero_le _, by omega, fun hr => by omega⟩
      | @cont i' op pc pc' t' h' hs =>
        obtain rfl := key hi
        simp only [isCall, setAt_same, Bool.false_eq_true, if_false]
        rw [h'] at hA
        cases pc with
        | begin =>
          obtain ⟨h0, htx⟩ := hA
          simp only [step] at hs
          injection hs with _ hs; injection hs with hs; subst hs
          refine ⟨0, 0, rfl, nofun, Nat.zero_le _, ?_, fun _ => rfl⟩
          simp [abort, htx]; omega
        | load l =>
          obtain ⟨rfl, hc⟩ := load_cont hs
          obtain ⟨a, f, rfl, h1, h3, h4, h5⟩ := hA
          rcases hc with ⟨rfl, hne⟩ | ⟨rfl, hr⟩
          · exact ⟨a + 1, f, rfl, h1.push hne, h3, by omega, h5⟩
          · exact ⟨a, f, rfl, h1, h3, by omega, .inr rfl, hr⟩
        | act l curr =>
          obtain ⟨rfl, hne, rfl⟩ := act_cont (no_act h _ _ _ _ h') hs
          obtain ⟨a, f, rfl, h1, h3, h4, h5, h6⟩ := hA
          have hf := h5.resolve_right hne
          exact ⟨a, f + 1, rfl, h1, hf, by omega, fun hr => absurd hr h6⟩
      | @done i' op pc t' r h' hs =>
        obtain rfl := key hi
        simp only [isCall, setAt_same, Bool.false_eq_true, if_false]
        rw [h'] at hA
        cases pc with
        | begin => simp [step] at hs
        | load l =>
          obtain ⟨a, f, rfl, h1, h3, h4, h5⟩ := hA
          refine ⟨a, f, h1.mono c1, h3, by omega, fun hr => ?_⟩
          have := h5 hr; have := reads_abort hr; omega
        | act l curr =>
          obtain ⟨a, f, rfl, h1, h3, h4, h5, h6⟩ := hA
          exact ⟨a, f, h1.mono c1, h3, by omega, fun hr => absurd hr h6⟩
      | @ret i' op r h' =>
        obtain rfl := key hi
        simp only [setAt_same]
        trivial
    · have hm : mine j ((i, e) :: tr) = mine j tr := by simp [mine, Ne.symm hj]
      have ho : others j ((i, e) :: tr) = others j tr + (if isWrite e then 1 else 0) := by
        simp [others, Ne.symm hj]
      rw [hm, ho, c3 j hj]
      refine (ih j).frame c1 fun hd => c2 ?_
      cases hw : isWrite e with
      | false => rfl
      | true => simp [hw] at hd

/-! ## Bounds -/

/-- With room in the table no search passes all slots. -/
theorem passed_lt {Q : Tab K} (hQ : Q.OK) {t : Tbl K V} (hR : Room Q t) {st a : Nat} (h : Passed Q t st a) :
    a < 2 ^ Q.k := by
  obtain ⟨k, hw⟩ := hQ.env.wf
  have := Growt.Progress.passed_lt (E := Q.env) hw (t := t) (fun _ => by rw [Q.total_eq]; exact hR) rfl
    (st := st) (a := a) (fun b hb => by rw [← Q.pos_eq]; exact h b hb)
  rwa [Q.total_eq] at this

/-- Bound of an active call. -/
theorem busy_bound {Q : Tab K} (hQ : Q.OK) {tr : List (Move T K V)}
    {s : St T K V} (h : Trace Q tr s) (hR : Room Q s.tbl) {i : T} {op : Call K V} {pc : PC K V}
    (hb : s.thr i = .busy op pc) :
    mine i tr ≤ 2 ^ Q.k + 2 * others i tr + abort op ∧ (reads op → mine i tr ≤ 2 ^ Q.k) := by
  have hA := acc h i
  rw [hb] at hA
  cases pc with
  | begin => obtain ⟨h0, -⟩ := hA; exact ⟨by rw [h0]; exact Nat.zero_le _, fun _ => by rw [h0]; exact Nat.zero_le _⟩
  | load j =>
    obtain ⟨a, f, rfl, h1, h3, h4, h5⟩ := hA
    have := passed_lt hQ hR h1
    exact ⟨by omega, fun hr => by have := h5 hr; have := reads_abort hr; omega⟩
  | act j curr =>
    obtain ⟨a, f, rfl, h1, h3, h4, h5, h6⟩ := hA
    have := passed_lt hQ hR h1
    exact ⟨by omega, fun hr => absurd hr h6⟩

/-- Bound of a call that has finished. -/
theorem fin_bound {Q : Tab K} (hQ : Q.OK) {tr : List (Move T K V)}
    {s : St T K V} (h : Trace Q tr s) (hR : Room Q s.tbl) {i : T} {op : Call K V} {r : Ret K V}
    (hb : s.thr i = .fin op r) :
    mine i tr ≤ 2 ^ Q.k + 2 * others i tr + 1 + abort op ∧ (reads op → mine i tr ≤ 2 ^ Q.k) := by
  have hA := acc h i
  rw [hb] at hA
  obtain ⟨a, f, h1, h3, h4, h5⟩ := hA
  have := passed_lt hQ hR h1
  exact ⟨by omega, fun hr => by have := h5 hr; omega⟩

theorem abort_le (op : Call K V) : abort op ≤ 1 := by unfold abort; split <;> omega

/-! ## All calls together -/

/-- The number of the last call of a thread. (proof, no code) -/
def cur (i : T) : List (Move T K V) → Nat
  | [] => 0
  | (j, e) :: tr => if j = i ∧ isCall e = true then count isCall tr else cur i tr

/-- The number of steps with a property made for call number `n`. (proof, no code) -/
def per (p : Option (TEv T K V) → Bool) (n : Nat) : List (Move T K V) → Nat
  | [] => 0
  | (j, e) :: tr => per p n tr + (if cur j ((j, e) :: tr) = n then (if p e then 1 else 0) else 0)

/-- The four kinds of steps. -/
theorem kinds {Q : Tab K} {s s' : St T K V} {i : T} {e : Option (TEv T K V)}
    (hs : Step Q s e s') (hi : s'.thr i ≠ s.thr i) :
    (s.thr i = .idle ∧ isCall e = true ∧ isLin e = false ∧ isRet e = false ∧ ∃ op pc, s'.thr i = .busy op pc) ∨
    (∃ op pc, s.thr i = .busy op pc ∧ isCall e = false ∧ isRet e = false ∧
      ((isLin e = false ∧ ∃ pc', s'.thr i = .busy op pc') ∨ (isLin e = true ∧ ∃ r, s'.thr i = .fin op r))) ∨
    (∃ op r, s.thr i = .fin op r ∧ isCall e = false ∧ isLin e = false ∧ isRet e = true ∧ s'.thr i = .idle) := by
  have key : ∀ {f : T → Thr K V} {i' : T} {x : Thr K V}, setAt f i' x i ≠ f i → i' = i := by
    intro f i' x h
    by_cases e : i' = i
    · exact e
    · exact absurd (setAt_other (Ne.symm e)) h
  cases hs with
  | call h => obtain rfl := key hi; exact .inl ⟨h, rfl, rfl, rfl, _, _, setAt_same _ _ _⟩
  | commit h hb =>
    obtain rfl := key hi; exact .inr (.inl ⟨_, _, h, rfl, rfl, .inr ⟨rfl, _, setAt_same _ _ _⟩⟩)
  | cont h hs =>
    obtain rfl := key hi; exact .inr (.inl ⟨_, _, h, rfl, rfl, .inl ⟨rfl, _, setAt_same _ _ _⟩⟩)
  | done h hs =>
    obtain rfl := key hi; exact .inr (.inl ⟨_, _, h, rfl, rfl, .inr ⟨rfl, _, setAt_same _ _ _⟩⟩)
  | ret h => obtain rfl := key hi; exact .inr (.inr ⟨_, _, h, rfl, rfl, rfl, setAt_same _ _ _⟩)

/-- The books are in order. (proof, no code) -/
structure Book (tr : List (Move T K V)) (s : St T K V) : Prop where
  lt : ∀ i, s.thr i ≠ .idle → cur i tr < count isCall tr
  inj : ∀ i j, s.thr i ≠ .idle → s.thr j ≠ .idle → i ≠ j → cur i tr ≠ cur j tr
  fresh : ∀ p n, count isCall tr ≤ n → per p n tr = 0
  sum : ∀ p, total (fun n => per p n tr) (count isCall tr) = count p tr
  own : ∀ i, s.thr i ≠ .idle → per (fun _ => true) (cur i tr) tr = mine i tr + 1
  open_ : ∀ i op pc, s.thr i = .busy op pc → per isLin (cur i tr) tr = 0
  once : ∀ n, per isLin n tr ≤ 1

theorem book {Q : Tab K} {tr : List (Move T K V)} {s : St T K V} (h : Trace Q tr s) :
    Book tr s := by
  induction h with
  | nil =>
    exact ⟨fun i h => absurd rfl h, fun i j h => absurd rfl h, fun _ _ _ => rfl, fun _ => rfl,
      fun i h => absurd rfl h, nofun, fun _ => Nat.zero_le _⟩
  | @cons tr s s' i e h hs hi ih =>
    obtain ⟨-, -, c3⟩ := step_cases h hs hi
    have hK := kinds hs hi
    have hcur : ∀ j, j ≠ i → cur j ((i, e) :: tr) = cur j tr := by
      intro j hj; simp [cur, Ne.symm hj]
    rcases hK with ⟨k1, k2, k3, k4, op, pc, k5⟩ | hK
    · have hci : cur i ((i, e) :: tr) = count isCall tr := by simp [cur, k2]
      have hcc : count isCall ((i, e) :: tr) = count isCall tr + 1 := by simp [count, k2]
      have hper : ∀ p n, per p n ((i, e) :: tr) =
          per p n tr + (if count isCall tr = n then (if p e then 1 else 0) else 0) := by
        intro p n; simp only [per, hci]
      refine ⟨?_, ?_, ?_, ?_, ?_, ?_, ?_⟩
      · intro j hj
        by_cases hji : j = i
        · subst hji; rw [hci, hcc]; omega
        · rw [hcur j hji, hcc]; rw [c3 j hji] at hj; have := ih.lt j hj; omega
      · intro j l hj hl hne
        by_cases hji : j = i
        · subst hji
          rw [hci, hcur l (Ne.symm hne)]
          rw [c3 l (Ne.symm hne)] at hl
          have := ih.lt l hl; omega
        · rw [c3 j hji] at hj
          rw [hcur j hji]
          by_cases hli : l = i
          · subst hli; rw [hci]; have := ih.lt j hj; omega
          · rw [hcur l hli]; rw [c3 l hli] at hl
            exact ih.inj j l hj hl hne
      · intro p n hn
        rw [hcc] at hn
        rw [hper, ih.fresh p n (by omega), if_neg (by omega)]
      · intro p
        simp only [hcc, hper, total]
        rw [total_congr (g := fun n => per p n tr) (fun m hm => by simp [Nat.ne_of_gt hm]), ih.sum p,
          ih.fresh p _ (Nat.le_refl _)]
        simp [count]
      · intro j hj
        by_cases hji : j = i
        · subst hji
          rw [hci, hper, ih.fresh _ _ (Nat.le_refl _)]
          simp [mine, k2]
        · rw [c3 j hji] at hj
          have := ih.lt j hj
          rw [hcur j hji, hper, if_neg (by omega), ih.own j hj]
          simp [mine, Ne.symm hji]
      · intro j op' pc' hj
        by_cases hji : j = i
        · subst hji
          rw [hci, hper, ih.fresh _ _ (Nat.le_refl _), k3]; simp
        · rw [c3 j hji] at hj
          rw [hcur j hji, hper, ih.open_ j op' pc' hj, k3]; simp
      · intro n
        rw [hper, k3]; simpa using ih.once n
    · have hni : s.thr i ≠ .idle := by
        rcases hK with ⟨op, pc, h, -⟩ | ⟨op, r, h, -⟩ <;> rw [h] <;> nofun
      have hnc : isCall e = false := by
        rcases hK with ⟨op, pc, -, h, -⟩ | ⟨op, r, -, h, -⟩ <;> exact h
      have hci : ∀ j, cur j ((i, e) :: tr) = cur j tr := by intro j; simp [cur, hnc]
      have hcc : count isCall ((i, e) :: tr) = count isCall tr := by simp [count, hnc]
      have hback : ∀ j, s'.thr j ≠ .idle → s.thr j ≠ .idle := by
        intro j hj
        by_cases hji : j = i
        · rw [hji]; exact hni
        · rwa [c3 j hji] at hj
      have hper : ∀ p n, per p n ((i, e) :: tr) =
          per p n tr + (if cur i tr = n then (if p e then 1 else 0) else 0) := by
        intro p n; simp only [per, hci]
      refine ⟨?_, ?_, ?_, ?_, ?_, ?_, ?_⟩
      · intro j hj; rw [hci, hcc]; exact ih.lt j (hback j hj)
      · intro j l hj hl; rw [hci, hci]; exact ih.inj j l (hback j hj) (hback l hl)
      · intro p n hn
        rw [hcc] at hn
        have := ih.lt i hni
        rw [hper, ih.fresh p n hn, if_neg (by omega)]
      · intro p
        simp only [hcc, hper]
        rw [total_add_one (ih.lt i hni), ih.sum p]; simp [count]
      · intro j hj
        rw [hci, hper, ih.own j (hback j hj)]
        by_cases hji : j = i
        · subst hji; simp [mine, hnc]
        · rw [if_neg (ih.inj i j hni (hback j hj) (Ne.symm hji))]
          simp [mine, Ne.symm hji]
      · intro j op' pc' hj
        rw [hci, hper]
        by_cases hji : j = i
        · subst hji
          rcases hK with ⟨op, pc, h1, -, -, ⟨h2, -⟩ | ⟨-, r, h2⟩⟩ | ⟨op, r, -, -, -, -, h2⟩
          · rw [ih.open_ _ _ _ h1, h2]; simp
          · rw [h2] at hj; cases hj
          · rw [h2] at hj; cases hj
        · have hj2 := hj
          rw [c3 j hji] at hj2
          rw [if_neg (ih.inj i j hni (by rw [hj2]; nofun) (Ne.symm hji)), ih.open_ _ _ _ hj2]
      · intro n
        rw [hper]
        have hn := ih.once n
        split
        · rename_i hc
          rcases hK with ⟨op, pc, h1, -, -, ⟨h2, -⟩ | ⟨h2, -⟩⟩ | ⟨op, r, -, -, h2, -⟩
          · rw [h2]; simpa using hn
          · rw [← hc, ih.open_ _ _ _ h1, h2]; simp
          · rw [h2]; simpa using hn
        · simpa using hn

theorem isWrite_lin {e : Option (TEv T K V)} (h : isWrite e = true) : isLin e = true := by
  cases e with
  | none => cases h
  | some e => cases e <;> first | rfl | cases h

theorem others_le (i : T) : ∀ tr : List (Move T K V), others i tr ≤ count isLin tr
  | [] => Nat.le_refl _
  | (j, e) :: tr => by
    have ih := others_le i tr
    simp only [others, count]
    split
    · split <;> omega
    · by_cases hw : isWrite e = true
      · simp [hw, isWrite_lin hw]; omega
      · simp only [hw]; simp; omega

theorem lins_le {Q : Tab K} {tr : List (Move T K V)} {s : St T K V} (h : Trace Q tr s) :
    count isLin tr ≤ count isCall tr := by
  have hb := book h
  rw [← hb.sum isLin]
  have := total_le (f := fun n => per isLin n tr) (b := 1) (n := count isCall tr) fun m _ => hb.once m
  omega

theorem Room.before {Q : Tab K} {t t' : Tbl K V} (h : Room Q t')
    (ht : ∀ p, (t p).c ≠ .empty → (t' p).c ≠ .empty) : Room Q t := by
  obtain ⟨p, h1, h2⟩ := h
  exact ⟨p, h1, Classical.byContradiction fun h => ht p h h2⟩

/-- The steps of one call. -/
theorem per_bound {Q : Tab K} (hQ : Q.OK) {tr : List (Move T K V)}
    {s : St T K V} (h : Trace Q tr s) (hR : Room Q s.tbl) :
    ∀ n, per (fun _ => true) n tr ≤ 2 ^ Q.k + 2 * count isCall tr + 4 := by
  induction h with
  | nil => intro n; exact Nat.zero_le _
  | @cons tr s s' i e h hs hi ih =>
    intro n
    obtain ⟨c1, -, -⟩ := step_cases h hs hi
    have hR' := hR.before c1
    have hih := ih hR' n
    have hB := book h
    have hT : Trace Q ((i, e) :: tr) s' := h.cons hs hi
    have hB' := book hT
    have hcc : count isCall tr ≤ count isCall ((i, e) :: tr) := Nat.le_add_right _ _
    by_cases hn : cur i ((i, e) :: tr) = n
    · rcases kinds hs hi with ⟨-, -, -, -, op, pc, k5⟩ | ⟨op, pc, -, -, -, ⟨-, pc', k5⟩ | ⟨-, r, k5⟩⟩ |
          ⟨op, r, k1, k2, -, -, -⟩
      · rw [← hn, hB'.own i (by rw [k5]; nofun)]
        have := (busy_bound hQ hT hR k5).1
        have := abort_le op
        have := others_le i ((i, e) :: tr)
        have := lins_le hT
        omega
      · rw [← hn, hB'.own i (by rw [k5]; nofun)]
        have := (busy_bound hQ hT hR k5).1
        have := abort_le op
        have := others_le i ((i, e) :: tr)
        have := lins_le hT
        omega
      · rw [← hn, hB'.own i (by rw [k5]; nofun)]
        have := (fin_bound hQ hT hR k5).1
        have := abort_le op
        have := others_le i ((i, e) :: tr)
        have := lins_le hT
        omega
      · have hci : cur i ((i, e) :: tr) = cur i tr := by simp [cur, k2]
        have ho := hB.own i (by rw [k1]; nofun)
        have := (fin_bound hQ h hR' k1).1
        have := abort_le op
        have := others_le i tr
        have := lins_le h
        have hp : per (fun _ => true) n ((i, e) :: tr) = per (fun _ => true) n tr + 1 := by
          simp only [per, hn]; simp
        rw [hp, ← hn, hci, ho]
        omega
    · have hp : per (fun _ => true) n ((i, e) :: tr) = per (fun _ => true) n tr := by
        simp only [per, hn]; simp
      rw [hp]; omega

theorem length_eq (tr : List (Move T K V)) : count (fun _ => true) tr = tr.length := by
  induction tr with
  | nil => rfl
  | cons a tr ih => obtain ⟨j, e⟩ := a; simp [count, ih]

theorem length_bound {Q : Tab K} (hQ : Q.OK) {tr : List (Move T K V)}
    {s : St T K V} (h : Trace Q tr s) (hR : Room Q s.tbl) :
    tr.length ≤ count isCall tr * (2 ^ Q.k + 2 * count isCall tr + 4) := by
  rw [← length_eq, ← (book h).sum]
  exact total_le fun m _ => per_bound hQ h hR m

/-! ## Calls that have not returned -/

/-- Calls of one thread that have not returned. (proof, no code) -/
def pend : Thr K V → Nat
  | .idle => 0
  | _ => 1

theorem pend_le (x : Thr K V) : pend x ≤ 1 := by cases x <;> simp [pend]

theorem pending {Q : Tab K} {tr : List (Move T K V)} {s : St T K V} (h : Trace Q tr s)
    {L : List T} (hL : L.Nodup) (hm : ∀ m ∈ tr, m.1 ∈ L) :
    count isCall tr = count isRet tr + (L.map fun i => pend (s.thr i)).sum := by
  induction h with
  | nil =>
    have : ∀ L : List T, (L.map fun i => pend ((St.init : St T K V).thr i)).sum = 0 := by
      intro L
      induction L with
      | nil => rfl
      | cons a L ih => simp only [List.map_cons, List.sum_cons, ih]; rfl
    rw [this]; rfl
  | @cons tr s s' i e h hs hi ih =>
    have ih := ih fun m hm' => hm m (List.mem_cons_of_mem _ hm')
    obtain ⟨-, -, c3⟩ := step_cases h hs hi
    have hc := sum_change (f := fun j => pend (s.thr j)) (g := fun j => pend (s'.thr j)) hL
      (hm (i, e) (List.mem_cons_self ..)) (fun j hj => by simp only [c3 j hj])
    have e0 : pend (Thr.idle : Thr K V) = 0 := rfl
    have e1 : ∀ op pc, pend (Thr.busy op pc : Thr K V) = 1 := fun _ _ => rfl
    have e2 : ∀ op r, pend (Thr.fin op r : Thr K V) = 1 := fun _ _ => rfl
    simp only [count]
    rcases kinds hs hi with ⟨k1, k2, k3, k4, op, pc, k5⟩ | ⟨op, pc, k1, k2, k3, ⟨-, pc', k5⟩ | ⟨-, r, k5⟩⟩ |
        ⟨op, r, k1, k2, -, k3, k5⟩
    · rw [k1, k5, e0, e1] at hc; rw [k2, k4]; simp only [if_true, Bool.false_eq_true, if_false]; omega
    · rw [k1, k5, e1, e1] at hc; rw [k2, k3]; simp only [Bool.false_eq_true, if_false]; omega
    · rw [k1, k5, e1, e2] at hc; rw [k2, k3]; simp only [Bool.false_eq_true, if_false]; omega
    · rw [k1, k5, e2, e0] at hc; rw [k2, k3]; simp only [if_true, Bool.false_eq_true, if_false]; omega

theorem sum_pend_le {f : T → Thr K V} (L : List T) : (L.map fun i => pend (f i)).sum ≤ L.length := by
  induction L with
  | nil => exact Nat.le_refl _
  | cons a L ih =>
    have := pend_le (f a)
    simp only [List.map_cons, List.sum_cons, List.length_cons]; omega

end
end Progress
end Growt.Tsx
