import Verif.Conc

/-!
# Progress of the bounded table

How many slot accesses a call needs while other threads work on the same table.
-/

set_option linter.unusedSectionVars false

namespace Growt
namespace Progress
section
variable {T K V : Type} [DecidableEq T] [DecidableEq K] [DecidableEq V] [Inhabited V]

/-! ## Specification -/

/-- Who moved, and the event. (specification, no code) -/
abbrev Move (T K V : Type) := T × Option (TEv T K V)

/-- A step begins a call. (specification, no code) -/
def isCall : Option (TEv T K V) → Bool
  | some (.call _ _) => true
  | _ => false

/-- A step ends a call, as far as the table is concerned. (specification, no code) -/
def isLin : Option (TEv T K V) → Bool
  | some (.lin _ _ _) => true
  | _ => false

/-- A step is a successful modification: it inserts, changes or removes an element. (specification, no code) -/
def isWrite : Option (TEv T K V) → Bool
  | some (.lin _ (.find _) _) => false
  | some (.lin _ (.locate _) _) => false
  | some (.lin _ _ r) => match r.code with | some c => c.successful | none => false
  | _ => false

/-- A step returns to the caller. (specification, no code) -/
def isRet : Option (TEv T K V) → Bool
  | some (.ret _ _ _) => true
  | _ => false

/-- Executions with the thread that moves: in every step exactly this thread changes.  The last step
stands first. (specification, no code) -/
inductive Trace (E : Env K) (ok : Op K V → Prop) : List (Move T K V) → CSt T K V → Prop where
  | nil : Trace E ok [] CSt.init
  | cons {tr : List (Move T K V)} {s s' : CSt T K V} {i : T} {e : Option (TEv T K V)} (h : Trace E ok tr s)
      (hs : CStep E ok s e s') (hi : s'.thr i ≠ s.thr i) : Trace E ok ((i, e) :: tr) s'

/-- The number of steps that thread `i` has made since its last call began. (specification, no code) -/
def mine (i : T) : List (Move T K V) → Nat
  | [] => 0
  | (j, e) :: tr => if j = i then (if isCall e then 0 else mine i tr + 1) else mine i tr

/-- The number of successful modifications by other threads since the last call of thread `i` began.
(specification, no code) -/
def others (i : T) : List (Move T K V) → Nat
  | [] => 0
  | (j, e) :: tr =>
    if j = i then (if isCall e then 0 else others i tr) else others i tr + (if isWrite e then 1 else 0)

/-- The number of steps with a property. (specification, no code) -/
def count (p : Option (TEv T K V) → Bool) : List (Move T K V) → Nat
  | [] => 0
  | (_, e) :: tr => count p tr + (if p e then 1 else 0)

/-- Calls that only read the table. (specification, no code) -/
def reads (op : Op K V) : Prop := (∃ k, op = .find k) ∨ ∃ k, op = .locate k

/-- A search can end: with circular probing some slot is empty. (specification, no code) -/
def Room (E : Env K) (t : Tbl K V) : Prop := E.M.cp = true → ∃ p, p < E.M.total ∧ (t p).c = .empty

/-! ## Steps -/

theorem setMapped_empty {x : Cell K V} {v : V} : (x.setMapped v).c = .empty ↔ x.c = .empty := by
  obtain ⟨m, c⟩ := x
  cases c <;> simp [Cell.setMapped]

theorem atomicUpdate_nonempty {m : Bool} {k : K} {cell expected : Cell K V} {f : UpdFn V} (h : cell.c ≠ .empty) :
    (atomicUpdate m k cell expected f).1.c ≠ .empty := by
  unfold atomicUpdate
  split
  · split
    · rename_i e; subst e; exact fun h' => h (setMapped_empty.1 h')
    · exact h
  · split
    · exact fun h' => h (setMapped_empty.1 h')
    · split
      · exact fun h' => h (setMapped_empty.1 h')
      · exact h

theorem atomicUpdate_fail {m : Bool} {k : K} {cell expected : Cell K V} {f : UpdFn V}
    (h : (atomicUpdate m k cell expected f).2.2 = false) :
    (atomicUpdate m k cell expected f).1 = cell ∧ cell ≠ expected := by
  unfold atomicUpdate at h ⊢
  split at h <;> rename_i hm
  · split at h <;> rename_i e
    · cases h
    · simp [hm, e]
  · split at h <;> rename_i ha
    · cases h
    · split at h <;> rename_i e
      · cases h
      · refine ⟨by simp [hm, e], fun h' => e (by rw [h'])⟩

theorem set_nonempty {t : Tbl K V} {q : Nat} {x : Cell K V} {p : Nat} (h : (t p).c ≠ .empty)
    (hx : p = q → x.c ≠ .empty) : ((t.set q x) p).c ≠ .empty := by
  unfold Tbl.set
  split
  · rename_i e; exact hx e
  · exact h

/-- A slot never becomes empty again. -/
theorem step_nonempty {E : Env K} {op : Op K V} {pc : PC K V} {t : Tbl K V} {p : Nat} (h : (t p).c ≠ .empty) :
    ((step E op pc t).1 p).c ≠ .empty := by
  have hcas : ∀ i att pos curr new r, new.c ≠ Content.empty →
      ((casStep t i att pos curr new r).1 p).c ≠ .empty := by
    intro i att pos curr new r hn
    unfold casStep
    split
    · exact set_nonempty h fun _ => hn
    · exact h
  cases pc with
  | load i att =>
    simp only [step]; split <;> exact h
  | act i att curr =>
    simp only [step]
    split
    · have hu : ∀ k f, ((t.set (E.M.remap i) (atomicUpdate E.m k (t (E.M.remap i)) curr f).1) p).c ≠ .empty :=
        fun k f => set_nonempty h fun e => atomicUpdate_nonempty (e ▸ h)
      have hv : ∀ k f, ((t.set (E.M.remap i) (nonAtomicUpdate k (t (E.M.remap i)) f).1) p).c ≠ .empty :=
        fun k f => set_nonempty h fun e h' => (e ▸ h) (setMapped_empty.1 h')
      cases op with
      | find k => exact h
      | locate k => exact h
      | insert k d => exact hcas _ _ _ _ _ _ nofun
      | update k f => exact hu k f
      | updateBackoff k f b => exact hu k f
      | updateUnsafe k f => exact hv k f
      | insertOrUpdate k d f =>
        simp only [actStep]; split
        · exact hcas _ _ _ _ _ _ nofun
        · exact hu k f
      | insertOrUpdateUnsafe k d f =>
        simp only [actStep]; split
        · exact hcas _ _ _ _ _ _ nofun
        · exact hv k f
      | erase k => exact hcas _ _ _ _ _ _ nofun
      | eraseIf k d => exact hcas _ _ _ _ _ _ nofun
    · exact h

/-- What a load leads to, if the call goes on. -/
theorem load_cont {E : Env K} {op : Op K V} {i att : Nat} {t t' : Tbl K V} {pc' : PC K V}
    (h : step E op (.load i att) t = (t', .cont pc')) :
    t' = t ∧ E.M.remap i < E.M.total ∧
      ((pc' = .load (i + 1) att ∧ (t (E.M.remap i)).c ≠ .empty) ∨
        (pc' = .act i att (t (E.M.remap i)) ∧ ¬ reads op)) := by
  simp only [step] at h
  split at h <;> rename_i hlt
  · injection h with h1 h2
    refine ⟨h1.symm, hlt, ?_⟩
    have hne : (t (E.M.remap i)).isEmpty = false → (t (E.M.remap i)).c ≠ .empty := by
      intro h e; rw [Cell.isEmpty_iff.2 e] at h; cases h
    cases op <;> simp only [afterLoad, retEnd] at h2 <;> (repeat' split at h2) <;> cases h2 <;>
      simp_all [reads]
  · cases h

/-- A failed attempt. -/
theorem act_cont {E : Env K} {op : Op K V} {i att : Nat} {curr : Cell K V} {t t' : Tbl K V} {pc' : PC K V}
    (h : step E op (.act i att curr) t = (t', .cont pc')) :
    t' = t ∧ t (E.M.remap i) ≠ curr ∧ ∃ att', pc' = .load i att' := by
  simp only [step] at h
  split at h <;> rename_i hlt
  · have hcas : ∀ new r, casStep t i att (E.M.remap i) curr new r = (t', .cont pc') →
        t' = t ∧ t (E.M.remap i) ≠ curr ∧ ∃ att', pc' = .load i att' := by
      intro new r h
      unfold casStep at h
      split at h <;> rename_i e
      · injection h with _ h; cases h
      · injection h with h1 h2; injection h2 with h2
        exact ⟨h1.symm, e, att, h2.symm⟩
    have hupd : ∀ (k : K) (f : UpdFn V) (fail : Out K V), (∀ pc, fail = .cont pc → ∃ att', pc = .load i att') →
        (t.set (E.M.remap i) (atomicUpdate E.m k (t (E.M.remap i)) curr f).1,
          if (atomicUpdate E.m k (t (E.M.remap i)) curr f).2.2 = true then
            (.done ⟨some .SUCCESS_UP,
              some (E.M.remap i, (atomicUpdate E.m k (t (E.M.remap i)) curr f).2.1)⟩ : Out K V)
          else fail) = (t', .cont pc') → t' = t ∧ t (E.M.remap i) ≠ curr ∧ ∃ att', pc' = .load i att' := by
      intro k f fail hf h
      injection h with h1 h2
      split at h2 <;> rename_i e
      · cases h2
      · obtain ⟨e1, e2⟩ := atomicUpdate_fail (by simpa using e)
        refine ⟨?_, e2, hf _ h2⟩
        rw [← h1, e1, Tbl.set_self]
    cases op with
    | find k => injection h with _ h; cases h
    | locate k => injection h with _ h; cases h
    | insert k d => exact hcas _ _ h
    | update k f => exact hupd k f _ (fun pc e => by cases e; exact ⟨_, rfl⟩) h
    | updateBackoff k f b =>
      refine hupd k f _ (fun pc e => ?_) h
      split at e <;> cases e
      exact ⟨_, rfl⟩
    | updateUnsafe k f => injection h with _ h; cases h
    | insertOrUpdate k d f =>
      simp only [actStep] at h
      split at h
      · exact hcas _ _ h
      · exact hupd k f _ (fun pc e => by cases e; exact ⟨_, rfl⟩) h
    | insertOrUpdateUnsafe k d f =>
      simp only [actStep] at h
      split at h
      · exact hcas _ _ h
      · injection h with _ h; cases h
    | erase k => exact hcas _ _ h
    | eraseIf k d => exact hcas _ _ h
  · cases h

theorem step_bound {E : Env K} {op : Op K V} {pc : PC K V} {t t' : Tbl K V} {r : Ret K V}
    (h : step E op pc t = (t', .done r)) :
    ∀ i, (∃ att, pc = .load i att) ∨ (∃ att c, pc = .act i att c) → E.M.remap i < E.M.total := by
  rintro i (⟨att, rfl⟩ | ⟨att, c, rfl⟩) <;> simp only [step] at h <;> split at h <;> first | assumption | cases h

/-! ## The thread that moves -/

/-- A step as seen from the thread that makes it and from the others. (proof, no code) -/
theorem mover {E : Env K} {ok : Op K V → Prop} {s s' : CSt T K V} {e : Option (TEv T K V)}
    (h : CStep E ok s e s') : ∃ i x, s'.thr = setAt s.thr i x ∧ x ≠ s.thr i := by
  cases h with
  | call h ho => exact ⟨_, _, rfl, by rw [h]; nofun⟩
  | @cont i op pc pc' t' h hs =>
    refine ⟨_, _, rfl, fun e => ?_⟩
    rw [h] at e
    injection e with _ e
    cases pc with
    | load j att =>
      obtain ⟨-, -, ⟨rfl, -⟩ | ⟨rfl, -⟩⟩ := load_cont hs
      · injection e with e; omega
      · cases e
    | act j att c =>
      obtain ⟨-, -, att', rfl⟩ := act_cont hs
      cases e
  | done h hs => exact ⟨_, _, rfl, by rw [h]; nofun⟩
  | ret h => exact ⟨_, _, rfl, by rw [h]; nofun⟩

/-- Every execution can be seen that way. -/
theorem trace_step {E : Env K} {ok : Op K V → Prop} {s s' : CSt T K V} {e : Option (TEv T K V)}
    {tr : List (Move T K V)} (ht : Trace E ok tr s) (h : CStep E ok s e s') : ∃ i, Trace E ok ((i, e) :: tr) s' := by
  obtain ⟨i, x, h1, h2⟩ := mover h
  exact ⟨i, ht.cons h (by rw [h1, setAt_same]; exact h2)⟩

/-! ## The account of one call -/

/-- Where the search of a call begins. (`base_linear.hpp:562`) -/
def origin (E : Env K) (op : Op K V) : Nat := E.M.map (E.h op.key)

/-- The slots passed by a search are occupied. (proof, no code) -/
def Passed (E : Env K) (t : Tbl K V) (st a : Nat) : Prop := ∀ b, b < a → (t (E.M.remap (st + b))).c ≠ .empty

/-- The account of a thread: `n` own steps in its call, `w` successful modifications by others
meanwhile. (proof, no code) -/
def Acc (E : Env K) (t : Tbl K V) (n w : Nat) : Thr K V → Prop
  | .idle => True
  | .busy op (.load j _) => ∃ a f, j = origin E op + a ∧ Passed E t (origin E op) a ∧
      (E.M.cp = false → origin E op + a ≤ E.M.total ∨ a = 0) ∧ f ≤ w ∧ n ≤ a + 2 * f ∧ (reads op → f = 0)
  | .busy op (.act j _ curr) => ∃ a f, j = origin E op + a ∧ Passed E t (origin E op) a ∧
      (E.M.cp = false → origin E op + a < E.M.total) ∧ f ≤ w ∧ n ≤ a + 2 * f + 1 ∧
      (f < w ∨ t (E.M.remap j) = curr) ∧ ¬ reads op
  | .fin op _ => ∃ a f, Passed E t (origin E op) a ∧
      (E.M.cp = false → origin E op + a < E.M.total) ∧ f ≤ w ∧ n ≤ a + 2 * f + 2 ∧ (reads op → n ≤ a + 1)

theorem Passed.mono {E : Env K} {t t' : Tbl K V} {st a : Nat} (h : Passed E t st a)
    (ht : ∀ p, (t p).c ≠ .empty → (t' p).c ≠ .empty) : Passed E t' st a := fun b hb => ht _ (h b hb)

/-- A step of another thread. -/
theorem Acc.frame {E : Env K} {t t' : Tbl K V} {n w d : Nat} {x : Thr K V} (h : Acc E t n w x)
    (ht : ∀ p, (t p).c ≠ .empty → (t' p).c ≠ .empty) (hd : d = 0 → t' = t) : Acc E t' n (w + d) x := by
  cases x with
  | idle => trivial
  | fin op r =>
    obtain ⟨a, f, h1, h2, h3, h4, h5⟩ := h
    exact ⟨a, f, h1.mono ht, h2, by omega, h4, h5⟩
  | busy op pc =>
    cases pc with
    | load j att =>
      obtain ⟨a, f, h0, h1, h2, h3, h4, h5⟩ := h
      exact ⟨a, f, h0, h1.mono ht, h2, by omega, h4, h5⟩
    | act j att curr =>
      obtain ⟨a, f, h0, h1, h2, h3, h4, h5, h6⟩ := h
      refine ⟨a, f, h0, h1.mono ht, h2, by omega, h4, ?_, h6⟩
      by_cases hz : d = 0
      · rw [hd hz, hz]; exact h5
      · left; omega

/-- A call that changes the table is a successful modification. -/
theorem done_write {E : Env K} {op : Op K V} {pc : PC K V} {t t' : Tbl K V} {r : Ret K V} {i : T}
    (h : step E op pc t = (t', .done r)) (hw : isWrite (some (.lin i op r) : Option (TEv T K V)) = false) :
    t' = t := by
  cases pc with
  | load j att =>
    simp only [step] at h
    split at h <;> injection h with h _ <;> exact h.symm
  | act j att curr =>
    simp only [step] at h
    split at h
    · have hcas : ∀ new r', casStep t j att (E.M.remap j) curr new r' = (t', .done r) →
          (t' = t ∨ r = r') := by
        intro new r' h
        unfold casStep at h
        split at h <;> injection h with h1 h2
        · injection h2 with h2; exact .inr h2.symm
        · exact .inl h1.symm
      have hupd : ∀ (k : K) (f : UpdFn V) (fail : Out K V),
          (t.set (E.M.remap j) (atomicUpdate E.m k (t (E.M.remap j)) curr f).1,
            if (atomicUpdate E.m k (t (E.M.remap j)) curr f).2.2 = true then
              (.done ⟨some .SUCCESS_UP,
                some (E.M.remap j, (atomicUpdate E.m k (t (E.M.remap j)) curr f).2.1)⟩ : Out K V)
            else fail) = (t', .done r) → (t' = t ∨ r.code = some .SUCCESS_UP) := by
        intro k f fail h
        injection h with h1 h2
        split at h2 <;> rename_i e
        · injection h2 with h2; exact .inr (by rw [← h2])
        · obtain ⟨e1, e2⟩ := atomicUpdate_fail (by simpa using e)
          left
          rw [← h1, e1, Tbl.set_self]
      have hs : ∀ c, c = .SUCCESS_IN ∨ c = .SUCCESS_UP ∨ c = .SUCCESS_DEL → ReturnCode.successful c = true := by
        rintro c (rfl | rfl | rfl) <;> rfl
      cases op with
      | find k => injection h with _ h; cases h
      | locate k => injection h with _ h; cases h
      | insert k d =>
        refine (hcas _ _ h).resolve_right fun e => ?_
        subst e; simp [isWrite, hs] at hw
      | update k f =>
        refine (hupd k f _ h).resolve_right fun e => ?_
        simp [isWrite, e, hs] at hw
      | updateBackoff k f b =>
        refine (hupd k f _ h).resolve_right fun e => ?_
        simp [isWrite, e, hs] at hw
      | updateUnsafe k f =>
        injection h with _ h; injection h with h; subst h; simp [isWrite, hs] at hw
      | insertOrUpdate k d f =>
        simp only [actStep] at h
        split at h
        · refine (hcas _ _ h).resolve_right fun e => ?_
          subst e; simp [isWrite, hs] at hw
        · refine (hupd k f _ h).resolve_right fun e => ?_
          simp [isWrite, e, hs] at hw
      | insertOrUpdateUnsafe k d f =>
        simp only [actStep] at h
        split at h
        · refine (hcas _ _ h).resolve_right fun e => ?_
          subst e; simp [isWrite, hs] at hw
        · injection h with _ h; injection h with h; subst h; simp [isWrite, hs] at hw
      | erase k =>
        refine (hcas _ _ h).resolve_right fun e => ?_
        subst e; simp [isWrite, hs] at hw
      | eraseIf k d =>
        refine (hcas _ _ h).resolve_right fun e => ?_
        subst e; simp [isWrite, hs] at hw
    · cases h

/-- What a step does to the table and to the threads. -/
theorem step_cases {E : Env K} {ok : Op K V → Prop} {s s' : CSt T K V} {i : T} {e : Option (TEv T K V)}
    (hs : CStep E ok s e s') (hi : s'.thr i ≠ s.thr i) :
    (∀ p, (s.tbl p).c ≠ .empty → (s'.tbl p).c ≠ .empty) ∧ (isWrite e = false → s'.tbl = s.tbl) ∧
      ∀ j, j ≠ i → s'.thr j = s.thr j := by
  have key : ∀ {f : T → Thr K V} {i' : T} {x : Thr K V}, setAt f i' x i ≠ f i → ∀ j, j ≠ i → setAt f i' x j = f j := by
    intro f i' x h j hj
    by_cases e : i = i'
    · subst e; exact setAt_other hj
    · exact absurd (setAt_other e) h
  cases hs with
  | call h ho => exact ⟨fun _ h => h, fun _ => rfl, key hi⟩
  | @cont i' op pc pc' t' h hs =>
    refine ⟨fun p hp => ?_, fun _ => ?_, key hi⟩
    · have := step_nonempty (E := E) (op := op) (pc := pc) hp
      rwa [hs] at this
    · cases pc with
      | load => exact (load_cont hs).1
      | act => exact (act_cont hs).1
  | @done i' op pc t' r h hs =>
    refine ⟨fun p hp => ?_, fun hw => done_write hs hw, key hi⟩
    have := step_nonempty (E := E) (op := op) (pc := pc) hp
    rwa [hs] at this
  | ret h => exact ⟨fun _ h => h, fun _ => rfl, key hi⟩

theorem Passed.push {E : Env K} {t : Tbl K V} {st a : Nat} (h : Passed E t st a)
    (h' : (t (E.M.remap (st + a))).c ≠ .empty) : Passed E t st (a + 1) := by
  intro b hb
  by_cases e : b = a
  · subst e; exact h'
  · exact h b (by omega)

/-- The account of every thread is kept. -/
theorem acc {E : Env K} {ok : Op K V → Prop} {tr : List (Move T K V)} {s : CSt T K V} (h : Trace E ok tr s) :
    ∀ i, Acc E s.tbl (mine i tr) (others i tr) (s.thr i) := by
  induction h with
  | nil => intro i; trivial
  | @cons tr s s' i e h hs hi ih =>
    intro j
    obtain ⟨c1, c2, c3⟩ := step_cases hs hi
    by_cases hj : j = i
    · subst hj
      have hm : mine j ((j, e) :: tr) = if isCall e then 0 else mine j tr + 1 := by simp [mine]
      have ho : others j ((j, e) :: tr) = if isCall e then 0 else others j tr := by simp [others]
      have hA := ih j
      rw [hm, ho]
      have key : ∀ {f : T → Thr K V} {i' : T} {x : Thr K V}, setAt f i' x j ≠ f j → i' = j := by
        intro f i' x h
        by_cases e : i' = j
        · exact e
        · exact absurd (setAt_other (Ne.symm e)) h
      cases hs with
      | @call i' op h ho =>
        obtain rfl := key hi
        simp only [isCall, setAt_same, if_true]
        exact ⟨0, 0, rfl, nofun, fun _ => .inr rfl, Nat.le_refl _, Nat.le_refl _, fun _ => rfl⟩
      | @cont i' op pc pc' t' h hs =>
        obtain rfl := key hi
        simp only [isCall, setAt_same, Bool.false_eq_true, if_false]
        rw [h] at hA
        cases pc with
        | load l att =>
          obtain ⟨rfl, hlt, hc⟩ := load_cont hs
          obtain ⟨a, f, rfl, h1, h2, h3, h4, h5⟩ := hA
          have hlin : E.M.cp = false → origin E op + a < E.M.total := fun hc => by
            rwa [Mapper.remap_lin hc] at hlt
          rcases hc with ⟨rfl, hne⟩ | ⟨rfl, hr⟩
          · exact ⟨a + 1, f, rfl, h1.push hne, fun hc => .inl (hlin hc), h3, by omega, h5⟩
          · exact ⟨a, f, rfl, h1, hlin, h3, by omega, .inr rfl, hr⟩
        | act l att curr =>
          obtain ⟨rfl, hne, att', rfl⟩ := act_cont hs
          obtain ⟨a, f, rfl, h1, h2, h3, h4, h5, h6⟩ := hA
          have hf := h5.resolve_right hne
          exact ⟨a, f + 1, rfl, h1, fun hc => .inl (Nat.le_of_lt (h2 hc)), hf, by omega, fun hr => absurd hr h6⟩
      | @done i' op pc t' r h hs =>
        obtain rfl := key hi
        simp only [isCall, setAt_same, Bool.false_eq_true, if_false]
        rw [h] at hA
        cases pc with
        | load l att =>
          have hlt := step_bound hs l (.inl ⟨att, rfl⟩)
          obtain ⟨a, f, rfl, h1, h2, h3, h4, h5⟩ := hA
          refine ⟨a, f, h1.mono c1, fun hc => ?_, h3, by omega, fun hr => ?_⟩
          · rwa [Mapper.remap_lin hc] at hlt
          · have := h5 hr; omega
        | act l att curr =>
          obtain ⟨a, f, rfl, h1, h2, h3, h4, h5, h6⟩ := hA
          exact ⟨a, f, h1.mono c1, h2, h3, by omega, fun hr => absurd hr h6⟩
      | @ret i' op r h =>
        obtain rfl := key hi
        simp only [setAt_same]
        trivial
    · have hm : mine j ((i, e) :: tr) = mine j tr := by simp [mine, Ne.symm hj]
      have ho : others j ((i, e) :: tr) = others j tr + (if isWrite e then 1 else 0) := by
        simp [others, Ne.symm hj]
      rw [hm, ho, c3 j hj]
      refine (ih j).frame c1 fun hd => c2 ?_
      cases hw : isWrite e with
      | false => rfl
      | true => simp [hw] at hd

/-! ## Bounds -/

/-- With room in the table no search passes all slots. -/
theorem passed_lt {E : Env K} {k : Nat} (hE : E.M.WF k) {t : Tbl K V} (hR : Room E t) (hc : E.M.cp = true) {st a : Nat}
    (h : Passed E t st a) : a < E.M.total := by
  apply Nat.lt_of_not_le
  intro hle
  obtain ⟨p, hp, he⟩ := hR hc
  have ht : E.M.total = 2 ^ k := by rw [hE.total_eq, hc]; rfl
  rw [ht] at hp hle
  have hpos : 0 < 2 ^ k := Nat.two_pow_pos k
  have hm : st % 2 ^ k < 2 ^ k := Nat.mod_lt _ hpos
  refine h ((p + (2 ^ k - st % 2 ^ k)) % 2 ^ k) (Nat.lt_of_lt_of_le (Nat.mod_lt _ hpos) hle) ?_
  rw [hE.remap_cp hc]
  have : (st + (p + (2 ^ k - st % 2 ^ k)) % 2 ^ k) % 2 ^ k = p := by
    rw [Nat.add_mod, Nat.mod_mod, ← Nat.add_mod]
    have e : st + (p + (2 ^ k - st % 2 ^ k)) = p + 2 ^ k * (st / 2 ^ k + 1) := by
      have := Nat.div_add_mod st (2 ^ k)
      rw [Nat.mul_add]; omega
    rw [e, Nat.add_mul_mod_self_left, Nat.mod_eq_of_lt hp]
  rw [this]; exact he

/-- Bound of an active call. -/
theorem busy_bound {E : Env K} {k : Nat} (hE : E.M.WF k) {ok : Op K V → Prop} {tr : List (Move T K V)}
    {s : CSt T K V} (h : Trace E ok tr s) (hR : Room E s.tbl) {i : T} {op : Op K V} {pc : PC K V}
    (hb : s.thr i = .busy op pc) :
    mine i tr ≤ E.M.total + 2 * others i tr ∧ (reads op → mine i tr ≤ E.M.total) := by
  have hA := acc h i
  rw [hb] at hA
  cases pc with
  | load j att =>
    obtain ⟨a, f, rfl, h1, h2, h3, h4, h5⟩ := hA
    have : a ≤ E.M.total := by
      cases hc : E.M.cp with
      | true => exact Nat.le_of_lt (passed_lt hE hR hc h1)
      | false => rcases h2 hc with h | h <;> omega
    exact ⟨by omega, fun hr => by have := h5 hr; omega⟩
  | act j att curr =>
    obtain ⟨a, f, rfl, h1, h2, h3, h4, h5, h6⟩ := hA
    have : a < E.M.total := by
      cases hc : E.M.cp with
      | true => exact passed_lt hE hR hc h1
      | false => have := h2 hc; omega
    exact ⟨by omega, fun hr => absurd hr h6⟩

/-- Bound of a call that has finished. -/
theorem fin_bound {E : Env K} {k : Nat} (hE : E.M.WF k) {ok : Op K V → Prop} {tr : List (Move T K V)}
    {s : CSt T K V} (h : Trace E ok tr s) (hR : Room E s.tbl) {i : T} {op : Op K V} {r : Ret K V}
    (hb : s.thr i = .fin op r) :
    mine i tr ≤ E.M.total + 2 * others i tr + 1 ∧ (reads op → mine i tr ≤ E.M.total) := by
  have hA := acc h i
  rw [hb] at hA
  obtain ⟨a, f, h1, h2, h3, h4, h5⟩ := hA
  have : a < E.M.total := by
    cases hc : E.M.cp with
    | true => exact passed_lt hE hR hc h1
    | false => have := h2 hc; omega
  exact ⟨by omega, fun hr => by have := h5 hr; omega⟩

/-! ## All calls together -/

/-- The number of the last call of a thread. (proof, no code) -/
def cur (i : T) : List (Move T K V) → Nat
  | [] => 0
  | (j, e) :: tr => if j = i ∧ isCall e = true then count isCall tr else cur i tr

/-- The number of steps with a property made for call number `n`. (proof, no code) -/
def per (p : Option (TEv T K V) → Bool) (n : Nat) : List (Move T K V) → Nat
  | [] => 0
  | (j, e) :: tr => per p n tr + (if cur j ((j, e) :: tr) = n then (if p e then 1 else 0) else 0)

/-- `f 0 + … + f (n - 1)`. (proof, no code) -/
def total (f : Nat → Nat) : Nat → Nat
  | 0 => 0
  | n + 1 => total f n + f n

theorem total_congr {f g : Nat → Nat} : ∀ {n : Nat}, (∀ m, m < n → f m = g m) → total f n = total g n
  | 0, _ => rfl
  | n + 1, h => by
    simp only [total]
    rw [total_congr fun m hm => h m (by omega), h n (by omega)]

theorem total_le {f : Nat → Nat} {b : Nat} : ∀ {n : Nat}, (∀ m, m < n → f m ≤ b) → total f n ≤ n * b
  | 0, _ => by simp [total]
  | n + 1, h => by
    have h1 := total_le (n := n) fun m hm => h m (by omega)
    have h2 := h n (by omega)
    simp only [total, Nat.succ_mul]; omega

theorem total_add_one {f : Nat → Nat} {c d : Nat} : ∀ {n : Nat}, c < n →
    total (fun m => f m + (if c = m then d else 0)) n = total f n + d
  | 0, h => absurd h (Nat.not_lt_zero _)
  | n + 1, h => by
    simp only [total]
    by_cases e : c = n
    · subst e
      have : total (fun m => f m + (if c = m then d else 0)) c = total f c :=
        total_congr fun m hm => by simp [Nat.ne_of_gt hm]
      rw [this]; simp; omega
    · rw [total_add_one (by omega)]; simp [e]; omega

/-- The four kinds of steps. -/
theorem kinds {E : Env K} {ok : Op K V → Prop} {s s' : CSt T K V} {i : T} {e : Option (TEv T K V)}
    (hs : CStep E ok s e s') (hi : s'.thr i ≠ s.thr i) :
    (s.thr i = .idle ∧ isCall e = true ∧ isLin e = false ∧ isRet e = false ∧ ∃ op pc, s'.thr i = .busy op pc) ∨
    (∃ op pc, s.thr i = .busy op pc ∧ isCall e = false ∧ isRet e = false ∧
      ((isLin e = false ∧ ∃ pc', s'.thr i = .busy op pc') ∨ (isLin e = true ∧ ∃ r, s'.thr i = .fin op r))) ∨
    (∃ op r, s.thr i = .fin op r ∧ isCall e = false ∧ isLin e = false ∧ isRet e = true ∧ s'.thr i = .idle) := by
  have key : ∀ {f : T → Thr K V} {i' : T} {x : Thr K V}, setAt f i' x i ≠ f i → i' = i := by
    intro f i' x h
    by_cases e : i' = i
    · exact e
    · exact absurd (setAt_other (Ne.symm e)) h
  cases hs with
  | call h ho => obtain rfl := key hi; exact .inl ⟨h, rfl, rfl, rfl, _, _, setAt_same _ _ _⟩
  | cont h hs =>
    obtain rfl := key hi; exact .inr (.inl ⟨_, _, h, rfl, rfl, .inl ⟨rfl, _, setAt_same _ _ _⟩⟩)
  | done h hs =>
    obtain rfl := key hi; exact .inr (.inl ⟨_, _, h, rfl, rfl, .inr ⟨rfl, _, setAt_same _ _ _⟩⟩)
  | ret h => obtain rfl := key hi; exact .inr (.inr ⟨_, _, h, rfl, rfl, rfl, setAt_same _ _ _⟩)

/-- The books are in order. (proof, no code) -/
structure Book (tr : List (Move T K V)) (s : CSt T K V) : Prop where
  lt : ∀ i, s.thr i ≠ .idle → cur i tr < count isCall tr
  inj : ∀ i j, s.thr i ≠ .idle → s.thr j ≠ .idle → i ≠ j → cur i tr ≠ cur j tr
  fresh : ∀ p n, count isCall tr ≤ n → per p n tr = 0
  sum : ∀ p, total (fun n => per p n tr) (count isCall tr) = count p tr
  own : ∀ i, s.thr i ≠ .idle → per (fun _ => true) (cur i tr) tr = mine i tr + 1
  open_ : ∀ i op pc, s.thr i = .busy op pc → per isLin (cur i tr) tr = 0
  once : ∀ n, per isLin n tr ≤ 1

theorem book {E : Env K} {ok : Op K V → Prop} {tr : List (Move T K V)} {s : CSt T K V} (h : Trace E ok tr s) :
    Book tr s := by
  induction h with
  | nil =>
    exact ⟨fun i h => absurd rfl h, fun i j h => absurd rfl h, fun _ _ _ => rfl, fun _ => rfl,
      fun i h => absurd rfl h, nofun, fun _ => Nat.zero_le _⟩
  | @cons tr s s' i e h hs hi ih =>
    obtain ⟨-, -, c3⟩ := step_cases hs hi
    have hK := kinds hs hi
    have hcur : ∀ j, j ≠ i → cur j ((i, e) :: tr) = cur j tr := by
      intro j hj; simp [cur, Ne.symm hj]
    rcases hK with ⟨k1, k2, k3, k4, op, pc, k5⟩ | hK
    · have hci : cur i ((i, e) :: tr) = count isCall tr := by simp [cur, k2]
      have hcc : count isCall ((i, e) :: tr) = count isCall tr + 1 := by simp [count, k2]
      have hper : ∀ p n, per p n ((i, e) :: tr) =
          per p n tr + (if count isCall tr = n then (if p e then 1 else 0) else 0) := by
        intro p n; simp only [per, hci]
      refine ⟨?_, ?_, ?_, ?_, ?_, ?_, ?_⟩
      · intro j hj
        by_cases hji : j = i
        · subst hji; rw [hci, hcc]; omega
        · rw [hcur j hji, hcc]; rw [c3 j hji] at hj; have := ih.lt j hj; omega
      · intro j l hj hl hne
        by_cases hji : j = i
        · subst hji
          rw [hci, hcur l (Ne.symm hne)]
          rw [c3 l (Ne.symm hne)] at hl
          have := ih.lt l hl; omega
        · rw [c3 j hji] at hj
          rw [hcur j hji]
          by_cases hli : l = i
          · subst hli; rw [hci]; have := ih.lt j hj; omega
          · rw [hcur l hli]; rw [c3 l hli] at hl
            exact ih.inj j l hj hl hne
      · intro p n hn
        rw [hcc] at hn
        rw [hper, ih.fresh p n (by omega), if_neg (by omega)]
      · intro p
        simp only [hcc, hper, total]
        rw [total_congr (g := fun n => per p n tr) (fun m hm => by simp [Nat.ne_of_gt hm]), ih.sum p,
          ih.fresh p _ (Nat.le_refl _)]
        simp [count]
      · intro j hj
        by_cases hji : j = i
        · subst hji
          rw [hci, hper, ih.fresh _ _ (Nat.le_refl _)]
          simp [mine, k2]
        · rw [c3 j hji] at hj
          have := ih.lt j hj
          rw [hcur j hji, hper, if_neg (by omega), ih.own j hj]
          simp [mine, Ne.symm hji]
      · intro j op' pc' hj
        by_cases hji : j = i
        · subst hji
          rw [hci, hper, ih.fresh _ _ (Nat.le_refl _), k3]; simp
        · rw [c3 j hji] at hj
          rw [hcur j hji, hper, ih.open_ j op' pc' hj, k3]; simp
      · intro n
        rw [hper, k3]; simpa using ih.once n
    · have hni : s.thr i ≠ .idle := by
        rcases hK with ⟨op, pc, h, -⟩ | ⟨op, r, h, -⟩ <;> rw [h] <;> nofun
      have hnc : isCall e = false := by
        rcases hK with ⟨op, pc, -, h, -⟩ | ⟨op, r, -, h, -⟩ <;> exact h
      have hci : ∀ j, cur j ((i, e) :: tr) = cur j tr := by intro j; simp [cur, hnc]
      have hcc : count isCall ((i, e) :: tr) = count isCall tr := by simp [count, hnc]
      have hback : ∀ j, s'.thr j ≠ .idle → s.thr j ≠ .idle := by
        intro j hj
        by_cases hji : j = i
        · rw [hji]; exact hni
        · rwa [c3 j hji] at hj
      have hper : ∀ p n, per p n ((i, e) :: tr) =
          per p n tr + (if cur i tr = n then (if p e then 1 else 0) else 0) := by
        intro p n; simp only [per, hci]
      refine ⟨?_, ?_, ?_, ?_, ?_, ?_, ?_⟩
      · intro j hj; rw [hci, hcc]; exact ih.lt j (hback j hj)
      · intro j l hj hl; rw [hci, hci]; exact ih.inj j l (hback j hj) (hback l hl)
      · intro p n hn
        rw [hcc] at hn
        have := ih.lt i hni
        rw [hper, ih.fresh p n hn, if_neg (by omega)]
      · intro p
        simp only [hcc, hper]
        rw [total_add_one (ih.lt i hni), ih.sum p]; simp [count]
      · intro j hj
        rw [hci, hper, ih.own j (hback j hj)]
        by_cases hji : j = i
        · subst hji; simp [mine, hnc]
        · rw [if_neg (ih.inj i j hni (hback j hj) (Ne.symm hji))]
          simp [mine, Ne.symm hji]
      · intro j op' pc' hj
        rw [hci, hper]
        by_cases hji : j = i
        · subst hji
          rcases hK with ⟨op, pc, h1, -, -, ⟨h2, -⟩ | ⟨-, r, h2⟩⟩ | ⟨op, r, -, -, -, -, h2⟩
          · rw [ih.open_ _ _ _ h1, h2]; simp
          · rw [h2] at hj; cases hj
          · rw [h2] at hj; cases hj
        · have hj2 := hj
          rw [c3 j hji] at hj2
          rw [if_neg (ih.inj i j hni (by rw [hj2]; nofun) (Ne.symm hji)), ih.open_ _ _ _ hj2]
      · intro n
        rw [hper]
        have hn := ih.once n
        split
        · rename_i hc
          rcases hK with ⟨op, pc, h1, -, -, ⟨h2, -⟩ | ⟨h2, -⟩⟩ | ⟨op, r, -, -, h2, -⟩
          · rw [h2]; simpa using hn
          · rw [← hc, ih.open_ _ _ _ h1, h2]; simp
          · rw [h2]; simpa using hn
        · simpa using hn

theorem isWrite_lin {e : Option (TEv T K V)} (h : isWrite e = true) : isLin e = true := by
  cases e with
  | none => cases h
  | some e => cases e <;> first | rfl | cases h

theorem others_le (i : T) : ∀ tr : List (Move T K V), others i tr ≤ count isLin tr
  | [] => Nat.le_refl _
  | (j, e) :: tr => by
    have ih := others_le i tr
    simp only [others, count]
    split
    · split <;> omega
    · by_cases hw : isWrite e = true
      · simp [hw, isWrite_lin hw]; omega
      · simp only [hw]; simp; omega

theorem lins_le {E : Env K} {ok : Op K V → Prop} {tr : List (Move T K V)} {s : CSt T K V} (h : Trace E ok tr s) :
    count isLin tr ≤ count isCall tr := by
  have hb := book h
  rw [← hb.sum isLin]
  have := total_le (f := fun n => per isLin n tr) (b := 1) (n := count isCall tr) fun m _ => hb.once m
  omega

theorem Room.before {E : Env K} {t t' : Tbl K V} (h : Room E t')
    (ht : ∀ p, (t p).c ≠ .empty → (t' p).c ≠ .empty) : Room E t := by
  intro hc
  obtain ⟨p, h1, h2⟩ := h hc
  exact ⟨p, h1, Classical.byContradiction fun h => ht p h h2⟩

/-- The steps of one call. -/
theorem per_bound {E : Env K} {k : Nat} (hE : E.M.WF k) {ok : Op K V → Prop} {tr : List (Move T K V)}
    {s : CSt T K V} (h : Trace E ok tr s) (hR : Room E s.tbl) :
    ∀ n, per (fun _ => true) n tr ≤ E.M.total + 2 * count isCall tr + 3 := by
  induction h with
  | nil => intro n; exact Nat.zero_le _
  | @cons tr s s' i e h hs hi ih =>
    intro n
    obtain ⟨c1, -, -⟩ := step_cases hs hi
    have hR' := hR.before c1
    have hih := ih hR' n
    have hB := book h
    have hT : Trace E ok ((i, e) :: tr) s' := h.cons hs hi
    have hB' := book hT
    have hcc : count isCall tr ≤ count isCall ((i, e) :: tr) := Nat.le_add_right _ _
    by_cases hn : cur i ((i, e) :: tr) = n
    · rcases kinds hs hi with ⟨-, -, -, -, op, pc, k5⟩ | ⟨op, pc, -, -, -, ⟨-, pc', k5⟩ | ⟨-, r, k5⟩⟩ |
          ⟨op, r, k1, k2, -, -, -⟩
      · rw [← hn, hB'.own i (by rw [k5]; nofun)]
        have := (busy_bound hE hT hR k5).1
        have := others_le i ((i, e) :: tr)
        have := lins_le hT
        omega
      · rw [← hn, hB'.own i (by rw [k5]; nofun)]
        have := (busy_bound hE hT hR k5).1
        have := others_le i ((i, e) :: tr)
        have := lins_le hT
        omega
      · rw [← hn, hB'.own i (by rw [k5]; nofun)]
        have := (fin_bound hE hT hR k5).1
        have := others_le i ((i, e) :: tr)
        have := lins_le hT
        omega
      · have hci : cur i ((i, e) :: tr) = cur i tr := by simp [cur, k2]
        have ho := hB.own i (by rw [k1]; nofun)
        have := (fin_bound hE h hR' k1).1
        have := others_le i tr
        have := lins_le h
        have hp : per (fun _ => true) n ((i, e) :: tr) = per (fun _ => true) n tr + 1 := by
          simp only [per, hn]; simp
        rw [hp, ← hn, hci, ho]
        omega
    · have hp : per (fun _ => true) n ((i, e) :: tr) = per (fun _ => true) n tr := by
        simp only [per, hn]; simp
      rw [hp]; omega

theorem length_eq (tr : List (Move T K V)) : count (fun _ => true) tr = tr.length := by
  induction tr with
  | nil => rfl
  | cons a tr ih => obtain ⟨j, e⟩ := a; simp [count, ih]

theorem length_bound {E : Env K} {k : Nat} (hE : E.M.WF k) {ok : Op K V → Prop} {tr : List (Move T K V)}
    {s : CSt T K V} (h : Trace E ok tr s) (hR : Room E s.tbl) :
    tr.length ≤ count isCall tr * (E.M.total + 2 * count isCall tr + 3) := by
  rw [← length_eq, ← (book h).sum]
  exact total_le fun m _ => per_bound hE h hR m

/-! ## Calls that have not returned -/

/-- Calls of one thread that have not returned. (proof, no code) -/
def pend : Thr K V → Nat
  | .idle => 0
  | _ => 1

theorem pend_le (x : Thr K V) : pend x ≤ 1 := by cases x <;> simp [pend]

theorem sum_change {f g : T → Nat} {i : T} {L : List T} (hn : L.Nodup) (hi : i ∈ L)
    (hfg : ∀ j, j ≠ i → g j = f j) : (L.map g).sum + f i = (L.map f).sum + g i := by
  induction L with
  | nil => cases hi
  | cons a L ih =>
    simp only [List.map_cons, List.sum_cons]
    have hn' := List.nodup_cons.1 hn
    by_cases h : a = i
    · subst h
      have : L.map g = L.map f := List.map_congr_left fun j hj => hfg j fun e => hn'.1 (e ▸ hj)
      rw [this]; omega
    · have := ih hn'.2 ((List.mem_cons.1 hi).resolve_left (Ne.symm h))
      rw [hfg a h]; omega

theorem pending {E : Env K} {ok : Op K V → Prop} {tr : List (Move T K V)} {s : CSt T K V} (h : Trace E ok tr s)
    {L : List T} (hL : L.Nodup) (hm : ∀ m ∈ tr, m.1 ∈ L) :
    count isCall tr = count isRet tr + (L.map fun i => pend (s.thr i)).sum := by
  induction h with
  | nil =>
    have : ∀ L : List T, (L.map fun i => pend ((CSt.init : CSt T K V).thr i)).sum = 0 := by
      intro L
      induction L with
      | nil => rfl
      | cons a L ih => simp only [List.map_cons, List.sum_cons, ih]; rfl
    rw [this]; rfl
  | @cons tr s s' i e h hs hi ih =>
    have ih := ih fun m hm' => hm m (List.mem_cons_of_mem _ hm')
    obtain ⟨-, -, c3⟩ := step_cases hs hi
    have hc := sum_change (f := fun j => pend (s.thr j)) (g := fun j => pend (s'.thr j)) hL
      (hm (i, e) (List.mem_cons_self ..)) (fun j hj => by simp only [c3 j hj])
    have e0 : pend (Thr.idle : Thr K V) = 0 := rfl
    have e1 : ∀ op pc, pend (Thr.busy op pc : Thr K V) = 1 := fun _ _ => rfl
    have e2 : ∀ op r, pend (Thr.fin op r : Thr K V) = 1 := fun _ _ => rfl
    simp only [count]
    rcases kinds hs hi with ⟨k1, k2, k3, k4, op, pc, k5⟩ | ⟨op, pc, k1, k2, k3, ⟨-, pc', k5⟩ | ⟨-, r, k5⟩⟩ |
        ⟨op, r, k1, k2, -, k3, k5⟩
    · rw [k1, k5, e0, e1] at hc; rw [k2, k4]; simp only [if_true, Bool.false_eq_true, if_false]; omega
    · rw [k1, k5, e1, e1] at hc; rw [k2, k3]; simp only [Bool.false_eq_true, if_false]; omega
    · rw [k1, k5, e1, e2] at hc; rw [k2, k3]; simp only [Bool.false_eq_true, if_false]; omega
    · rw [k1, k5, e2, e0] at hc; rw [k2, k3]; simp only [if_true, Bool.false_eq_true, if_false]; omega

theorem sum_pend_le {f : T → Thr K V} (L : List T) : (L.map fun i => pend (f i)).sum ≤ L.length := by
  induction L with
  | nil => exact Nat.le_refl _
  | cons a L ih =>
    have := pend_le (f a)
    simp only [List.map_cons, List.sum_cons, List.length_cons]; omega

end
end Progress
end Growt
