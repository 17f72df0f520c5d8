import Verif.Conc

/-!
# Executable schedules

`runSched` executes a list of scheduling decisions; every such run is an execution of the system.
It is used only to exhibit concrete executions.
-/

set_option linter.unusedSectionVars false

namespace Growt
section
variable {T K V : Type} [DecidableEq T] [DecidableEq K] [DecidableEq V] [Inhabited V]

/-- Scheduling decisions. (model bookkeeping, no code) -/
inductive Sched (T K V : Type) where
  | call (i : T) (op : Op K V)
  | step (i : T)
  | ret (i : T)

/-- One decision. (model bookkeeping, no code) -/
def schedStep (E : Env K) (s : CSt T K V) : Sched T K V → Option (Option (TEv T K V) × CSt T K V)
  | .call i op =>
    match s.thr i with
    | .idle => some (some (.call i op), ⟨s.tbl, setAt s.thr i (.busy op (start E op))⟩)
    | _ => none
  | .step i =>
    match s.thr i with
    | .busy op pc =>
      match step E op pc s.tbl with
      | (t', .cont pc') => some (none, ⟨t', setAt s.thr i (.busy op pc')⟩)
      | (t', .done r) => some (some (.lin i op r), ⟨t', setAt s.thr i (.fin op r)⟩)
      | (_, .oob) => none
    | _ => none
  | .ret i =>
    match s.thr i with
    | .fin op r => some (some (.ret i op r), ⟨s.tbl, setAt s.thr i .idle⟩)
    | _ => none

/-- A sequence of decisions. (model bookkeeping, no code) -/
def runSched (E : Env K) : List (Sched T K V) → CSt T K V → Option (List (TEv T K V) × CSt T K V)
  | [], s => some ([], s)
  | a :: as, s =>
    match schedStep E s a with
    | none => none
    | some (e, s') =>
      match runSched E as s' with
      | none => none
      | some (l, s'') => some (e.toList ++ l, s'')

/-- The calls in a schedule are allowed. (model bookkeeping, no code) -/
def Sched.allowed (ok : Op K V → Prop) : Sched T K V → Prop
  | .call _ op => ok op
  | _ => True

theorem schedStep_sound {E : Env K} {ok : Op K V → Prop} {s s' : CSt T K V} {a : Sched T K V}
    {e : Option (TEv T K V)} (ha : a.allowed ok) (h : schedStep E s a = some (e, s')) :
    CStep E ok s e s' := by
  cases a with
  | call i op =>
    simp only [schedStep] at h
    split at h
    · injection h with h; injection h with h1 h2; subst h1; subst h2
      exact .call ‹_› ha
    · cases h
  | step i =>
    simp only [schedStep] at h
    split at h
    · split at h
      · injection h with h; injection h with h1 h2; subst h1; subst h2
        exact .cont ‹_› ‹_›
      · injection h with h; injection h with h1 h2; subst h1; subst h2
        exact .done ‹_› ‹_›
      · cases h
    · cases h
  | ret i =>
    simp only [schedStep] at h
    split at h
    · injection h with h; injection h with h1 h2; subst h1; subst h2
      exact .ret ‹_›
    · cases h

theorem runSched_sound {E : Env K} {ok : Op K V → Prop} {s0 : CSt T K V} :
    ∀ (as : List (Sched T K V)) (l0 : List (TEv T K V)) (s s' : CSt T K V) (l : List (TEv T K V)),
      (∀ a ∈ as, a.allowed ok) → Exec (CStep E ok) s0 l0 s → runSched E as s = some (l, s') →
      Exec (CStep E ok) s0 (l0 ++ l) s' := by
  intro as
  induction as with
  | nil =>
    intro l0 s s' l _ he h
    simp only [runSched] at h
    injection h with h; injection h with h1 h2; subst h1; subst h2
    simpa using he
  | cons a as ih =>
    intro l0 s s' l ha he h
    simp only [runSched] at h
    split at h
    · cases h
    · rename_i e s1 h1
      split at h
      · cases h
      · rename_i l1 s2 h2
        injection h with h; injection h with e1 e2; subst e1; subst e2
        have hst := schedStep_sound (ok := ok) (ha a (by simp)) h1
        have ha' : ∀ a ∈ as, a.allowed ok := fun a h => ha a (by simp [h])
        cases e with
        | none => simpa using ih l0 s1 s2 l1 ha' (he.silent hst) h2
        | some e => simpa using ih (l0 ++ [e]) s1 s2 l1 ha' (he.vis hst) h2

end
end Growt
