/-!
# Concurrent histories and linearizability (specification)

This file knows nothing about tables.  `O` are operations, `R` results, `D` abstract states.
-/

set_option linter.unusedSectionVars false

namespace Growt

/-- Events of a concurrent execution.  `lin` is the instant at which the call takes effect; it is
not visible to the callers. (specification, no code) -/
inductive Ev (T O R : Type) where
  | call (i : T) (o : O)
  | lin (i : T) (o : O) (r : R)
  | ret (i : T) (o : O) (r : R)

/-- A sequential object: its initial state and its legal calls. (specification, no code) -/
structure Obj (O R D : Type) where
  init : D
  legal : D → O → R → D → Prop

/-- What one thread is doing. (specification, no code) -/
inductive Phase (O R : Type) where
  | idle
  | called (o : O)
  | effected (o : O) (r : R)

section
variable {T O R D : Type}

/-- The visible history: calls and returns. (specification, no code) -/
def visible : List (Ev T O R) → List (Ev T O R)
  | [] => []
  | .lin _ _ _ :: l => visible l
  | .call i o :: l => .call i o :: visible l
  | .ret i o r :: l => .ret i o r :: visible l

/-- The effects in the order in which they happen. (specification, no code) -/
def effects : List (Ev T O R) → List (O × R)
  | [] => []
  | .lin _ o r :: l => (o, r) :: effects l
  | .call _ _ :: l => effects l
  | .ret _ _ _ :: l => effects l

/-- Every call of every thread is followed by at most one effect and then at most one return with
that same result, in this order, before the thread's next call. (specification, no code) -/
inductive WellFormed : (T → Phase O R) → List (Ev T O R) → (T → Phase O R) → Prop where
  | nil (p : T → Phase O R) : WellFormed p [] p
  | call {p q p' : T → Phase O R} {i : T} {o : O} {l : List (Ev T O R)}
      (h : p i = .idle) (hq : q i = .called o) (hf : ∀ j, j ≠ i → q j = p j)
      (hl : WellFormed q l p') : WellFormed p (.call i o :: l) p'
  | lin {p q p' : T → Phase O R} {i : T} {o : O} {r : R} {l : List (Ev T O R)}
      (h : p i = .called o) (hq : q i = .effected o r) (hf : ∀ j, j ≠ i → q j = p j)
      (hl : WellFormed q l p') : WellFormed p (.lin i o r :: l) p'
  | ret {p q p' : T → Phase O R} {i : T} {o : O} {r : R} {l : List (Ev T O R)}
      (h : p i = .effected o r) (hq : q i = .idle) (hf : ∀ j, j ≠ i → q j = p j)
      (hl : WellFormed q l p') : WellFormed p (.ret i o r :: l) p'

/-- A sequence of effects is legal for the sequential object. (specification, no code) -/
inductive Legal (S : Obj O R D) : D → List (O × R) → D → Prop where
  | nil (d : D) : Legal S d [] d
  | cons {d d1 d' : D} {o : O} {r : R} {l : List (O × R)} (h : S.legal d o r d1)
      (hl : Legal S d1 l d') : Legal S d ((o, r) :: l) d'

/-- A visible history is linearizable: instants of effect can be inserted, each between the call
and the return of its operation, such that the effects in this order are a legal sequential
execution. (specification, no code) -/
def Linearizable (S : Obj O R D) (h : List (Ev T O R)) : Prop :=
  ∃ l p' d', visible l = h ∧ WellFormed (fun _ => .idle) l p' ∧ Legal S S.init (effects l) d'

theorem visible_append (a b : List (Ev T O R)) : visible (a ++ b) = visible a ++ visible b := by
  induction a with
  | nil => rfl
  | cons e a ih => cases e <;> simp [visible, ih]

theorem effects_append (a b : List (Ev T O R)) : effects (a ++ b) = effects a ++ effects b := by
  induction a with
  | nil => rfl
  | cons e a ih => cases e <;> simp [effects, ih]

theorem WellFormed.append {p q r : T → Phase O R} {a b : List (Ev T O R)}
    (h1 : WellFormed p a q) (h2 : WellFormed q b r) : WellFormed p (a ++ b) r := by
  induction h1 with
  | nil => exact h2
  | call h hq hf _ ih => exact .call h hq hf (ih h2)
  | lin h hq hf _ ih => exact .lin h hq hf (ih h2)
  | ret h hq hf _ ih => exact .ret h hq hf (ih h2)

theorem Legal.append {S : Obj O R D} {d d' d'' : D} {a b : List (O × R)}
    (h1 : Legal S d a d') (h2 : Legal S d' b d'') : Legal S d (a ++ b) d'' := by
  induction h1 with
  | nil => exact h2
  | cons h _ ih => exact .cons h (ih h2)

/-- Executions of a labelled transition system; `none` labels are silent. (specification, no code) -/
inductive Exec {St L : Type} (step : St → Option L → St → Prop) (s0 : St) :
    List L → St → Prop where
  | init : Exec step s0 [] s0
  | silent {l : List L} {s s' : St} (h : Exec step s0 l s) (hs : step s none s') :
      Exec step s0 l s'
  | vis {l : List L} {s s' : St} {e : L} (h : Exec step s0 l s) (hs : step s (some e) s') :
      Exec step s0 (l ++ [e]) s'

/-- Induction principle for invariants. -/
theorem Exec.invariant {St L : Type} {step : St → Option L → St → Prop} {s0 s : St} {l : List L}
    {P : St → Prop} (h : Exec step s0 l s) (h0 : P s0)
    (hs : ∀ a e b, P a → step a e b → P b) : P s := by
  induction h with
  | init => exact h0
  | silent _ hst ih => exact hs _ _ _ ih hst
  | vis _ hst ih => exact hs _ _ _ ih hst

/-- Real time order is respected: an operation whose return precedes the call of another one also
takes effect before it.  (Sanity check of the definition of `WellFormed`.) -/
theorem WellFormed.lin_before_ret [DecidableEq T] {p q : T → Phase O R} {l : List (Ev T O R)} {i : T} {o : O}
    {r : R} (hp : ∀ o r, p i ≠ .effected o r) (h : WellFormed p (l ++ [.ret i o r]) q) :
    ∃ a b, l = a ++ .lin i o r :: b ∧ ∀ e ∈ b, ∀ o', e ≠ .call i o' := by
  suffices H : ∀ (m : List (Ev T O R)) (p : T → Phase O R), WellFormed p m q → m = l ++ [.ret i o r] →
      (∃ a b, l = a ++ .lin i o r :: b ∧ ∀ e ∈ b, ∀ o', e ≠ .call i o') ∨
      (p i = .effected o r ∧ ∀ e ∈ l, ∀ o', e ≠ .call i o') by
    rcases H _ p h rfl with h | h
    · exact h
    · exact absurd h.1 (hp o r)
  intro m p hw
  clear h hp
  induction hw generalizing l with
  | nil => intro h; cases l <;> simp at h
  | @call p q p' j o1 m h hq hf hl ih =>
    intro he
    cases l with
    | nil => simp at he
    | cons e l =>
      simp only [List.cons_append, List.cons.injEq] at he
      obtain ⟨rfl, rfl⟩ := he
      rcases ih rfl with ⟨a, b, rfl, hb⟩ | ⟨h1, h2⟩
      · exact .inl ⟨_ :: a, b, rfl, hb⟩
      · right
        by_cases hij : i = j
        · subst hij; rw [hq] at h1; cases h1
        · rw [hf _ hij] at h1
          refine ⟨h1, fun e he o' => ?_⟩
          rcases List.mem_cons.1 he with rfl | he
          · intro hc; injection hc with hc _; exact hij hc.symm
          · exact h2 e he o'
  | @lin p q p' j o1 r1 m h hq hf hl ih =>
    intro he
    cases l with
    | nil => simp at he
    | cons e l =>
      simp only [List.cons_append, List.cons.injEq] at he
      obtain ⟨rfl, rfl⟩ := he
      rcases ih rfl with ⟨a, b, rfl, hb⟩ | ⟨h1, h2⟩
      · exact .inl ⟨_ :: a, b, rfl, hb⟩
      · by_cases hij : i = j
        · subst hij; rw [hq] at h1
          injection h1 with e1 e2
          subst e1; subst e2
          exact .inl ⟨[], l, rfl, h2⟩
        · right
          rw [hf _ hij] at h1
          refine ⟨h1, fun e he o' => ?_⟩
          rcases List.mem_cons.1 he with rfl | he
          · intro hc; cases hc
          · exact h2 e he o'
  | @ret p q p' j o1 r1 m h hq hf hl ih =>
    intro he
    cases l with
    | nil =>
      simp only [List.nil_append, List.cons.injEq] at he
      obtain ⟨h1, rfl⟩ := he
      injection h1 with e1 e2 e3
      subst e1; subst e2; subst e3
      exact .inr ⟨h, by simp⟩
    | cons e l =>
      simp only [List.cons_append, List.cons.injEq] at he
      obtain ⟨rfl, rfl⟩ := he
      rcases ih rfl with ⟨a, b, rfl, hb⟩ | ⟨h1, h2⟩
      · exact .inl ⟨_ :: a, b, rfl, hb⟩
      · by_cases hij : i = j
        · subst hij; rw [hq] at h1; cases h1
        · right
          rw [hf _ hij] at h1
          refine ⟨h1, fun e he o' => ?_⟩
          rcases List.mem_cons.1 he with rfl | he
          · intro hc; cases hc
          · exact h2 e he o'

end

section
variable {T O R D : Type} [DecidableEq T]

/-- Function update. (specification, no code) -/
def setAt {α : Type} (f : T → α) (i : T) (a : α) : T → α := fun j => if j = i then a else f j

@[simp] theorem setAt_same {α : Type} (f : T → α) (i : T) (a : α) : setAt f i a i = a := by
  simp [setAt]

theorem setAt_other {α : Type} {f : T → α} {i j : T} {a : α} (h : j ≠ i) :
    setAt f i a j = f j := by simp [setAt, h]

/-- "No linearization of the rest `h` of a history from phases `p` and abstract state `d`".
(specification, no code) -/
def NoLin (S : Obj O R D) (p : T → Phase O R) (d : D) (h : List (Ev T O R)) : Prop :=
  ∀ l q d', WellFormed p l q → Legal S d (effects l) d' → visible l = h → False

theorem setAt_eq {α : Type} {p q : T → α} {i : T} {a : α} (h1 : q i = a)
    (h2 : ∀ j, j ≠ i → q j = p j) : q = setAt p i a := by
  funext j
  by_cases hj : j = i
  · subst hj; simp [h1]
  · rw [setAt_other hj, h2 j hj]

theorem NoLin.call {S : Obj O R D} {p : T → Phase O R} {d : D} {h : List (Ev T O R)} {i : T} {o : O}
    (h1 : p i = .idle → NoLin S (setAt p i (.called o)) d h)
    (h2 : ∀ j o' r d1, p j = .called o' → S.legal d o' r d1 →
      NoLin S (setAt p j (.effected o' r)) d1 (.call i o :: h)) :
    NoLin S p d (.call i o :: h) := by
  intro l q d' hw hl hv
  cases hw with
  | nil => simp [visible] at hv
  | @call _ q' _ j o1 l h0 hq hf hw =>
    simp only [visible, List.cons.injEq, Ev.call.injEq] at hv
    obtain ⟨⟨rfl, rfl⟩, hv⟩ := hv
    rw [setAt_eq hq hf] at hw
    exact h1 h0 l q d' hw hl hv
  | @lin _ q' _ j o1 r1 l h0 hq hf hw =>
    rw [setAt_eq hq hf] at hw
    cases hl with
    | cons hleg hl => exact h2 j o1 r1 _ h0 hleg l q d' hw hl hv
  | @ret _ q' _ j o1 r1 l h0 hq hf hw => simp [visible] at hv

theorem NoLin.ret {S : Obj O R D} {p : T → Phase O R} {d : D} {h : List (Ev T O R)} {i : T} {o : O}
    {r : R} (h1 : p i = .effected o r → NoLin S (setAt p i .idle) d h)
    (h2 : ∀ j o' r' d1, p j = .called o' → S.legal d o' r' d1 →
      NoLin S (setAt p j (.effected o' r')) d1 (.ret i o r :: h)) :
    NoLin S p d (.ret i o r :: h) := by
  intro l q d' hw hl hv
  cases hw with
  | nil => simp [visible] at hv
  | @ret _ q' _ j o1 r1 l h0 hq hf hw =>
    simp only [visible, List.cons.injEq, Ev.ret.injEq] at hv
    obtain ⟨⟨rfl, rfl, rfl⟩, hv⟩ := hv
    rw [setAt_eq hq hf] at hw
    exact h1 h0 l q d' hw hl hv
  | @lin _ q' _ j o1 r1 l h0 hq hf hw =>
    rw [setAt_eq hq hf] at hw
    cases hl with
    | cons hleg hl => exact h2 j o1 r1 _ h0 hleg l q d' hw hl hv
  | @call _ q' _ j o1 l h0 hq hf hw => simp [visible] at hv

theorem not_linearizable {S : Obj O R D} {h : List (Ev T O R)}
    (hn : NoLin S (fun _ => .idle) S.init h) : ¬ Linearizable S h := by
  rintro ⟨l, p', d', h1, h2, h3⟩
  exact hn l p' d' h2 h3 h1

end
end Growt
