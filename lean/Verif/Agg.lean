import Verif.Lin
import Verif.Spec
import Verif.BaseOps
import Verif.SyncData

/-!
# Counting with `insert_or_update` (the aggregation of `tests/agg_test.cpp`)

Threads add values to keys by `insert_or_update(k, v, Increment(), v)` while others look keys up.
The definitions speak about histories of calls and returns only; the lemmas hold for every sequential
object whose legal calls add and look up (`Counter`).
-/

set_option linter.unusedSectionVars false

namespace Growt.Agg

section
variable {T O R D K : Type}

/-! ### Specification -/

/-- The sum of `g` over the calls of a history. (specification, no code) -/
def callSum (g : O → Nat) : List (Ev T O R) → Nat
  | [] => 0
  | .call _ o :: l => g o + callSum g l
  | .lin _ _ _ :: l => callSum g l
  | .ret _ _ _ :: l => callSum g l

/-- The sum of `f` over the returns of a history. (specification, no code) -/
def retSum (f : O → R → Nat) : List (Ev T O R) → Nat
  | [] => 0
  | .call _ _ :: l => retSum f l
  | .lin _ _ _ :: l => retSum f l
  | .ret _ o r :: l => f o r + retSum f l

/-- Every call of the history has returned. (specification, no code) -/
def Quiet (h : List (Ev T O R)) : Prop :=
  ∀ a i o b, h = a ++ .call i o :: b → ∃ o' r, Ev.ret i o' r ∈ b

/-- Only calls in `P` are made. (specification, no code) -/
def Only (P : O → Prop) (h : List (Ev T O R)) : Prop := ∀ i o, Ev.call i o ∈ h → P o

/-! ### Tokens: open calls -/

/-- The sum of `f` over the effects of a history. (proof, no code) -/
def linSum (f : O → R → Nat) : List (Ev T O R) → Nat
  | [] => 0
  | .call _ _ :: l => linSum f l
  | .lin _ o r :: l => f o r + linSum f l
  | .ret _ _ _ :: l => linSum f l

/-- The weight of a phase. (proof, no code) -/
def phaseW (g : O → Nat) (f : O → R → Nat) : Phase O R → Nat
  | .idle => 0
  | .called o => g o
  | .effected o r => f o r

/-- The weight of the threads in `A`. (proof, no code) -/
def openW (g : O → Nat) (f : O → R → Nat) (p : T → Phase O R) : List T → Nat
  | [] => 0
  | i :: A => phaseW g f (p i) + openW g f p A

theorem openW_congr {g : O → Nat} {f : O → R → Nat} {p q : T → Phase O R} {A : List T}
    (h : ∀ i ∈ A, p i = q i) : openW g f p A = openW g f q A := by
  induction A with
  | nil => rfl
  | cons i A ih =>
    simp only [openW, h i (List.mem_cons_self ..), ih fun j hj => h j (List.mem_cons_of_mem _ hj)]

theorem openW_one {g : O → Nat} {f : O → R → Nat} {p q : T → Phase O R} {i : T} {A : List T}
    (hn : A.Nodup) (hi : i ∈ A) (h : ∀ j, j ≠ i → q j = p j) :
    openW g f q A + phaseW g f (p i) = openW g f p A + phaseW g f (q i) := by
  induction A with
  | nil => cases hi
  | cons j A ih =>
    obtain ⟨hj, hn⟩ := List.nodup_cons.1 hn
    simp only [openW]
    rcases List.mem_cons.1 hi with rfl | hi'
    · rw [openW_congr (p := q) (q := p) fun k hk => h k fun e => hj (e ▸ hk)]
      omega
    · have := ih hn hi'
      rw [h j fun e => hj (e ▸ hi')]
      omega

/-- The threads of a history. (proof, no code) -/
def threads : List (Ev T O R) → List T
  | [] => []
  | .call i _ :: l => i :: threads l
  | .lin i _ _ :: l => i :: threads l
  | .ret i _ _ :: l => i :: threads l

/-- Conservation: what is called is open until it takes effect, what has taken effect is open until it
has returned. -/
theorem wf_tokens {g : O → Nat} {f : O → R → Nat} {p q : T → Phase O R} {l : List (Ev T O R)}
    {A : List T} (hn : A.Nodup) (h : WellFormed p l q) (hA : ∀ i ∈ threads l, i ∈ A) :
    openW g f p A + callSum g l + linSum f l =
      linSum (fun o _ => g o) l + retSum f l + openW g f q A := by
  induction h with
  | nil => simp [callSum, linSum, retSum]
  | @call p q p' i o l h hq hf hl ih =>
    have := ih fun j hj => hA j (List.mem_cons_of_mem _ hj)
    have h1 := openW_one (g := g) (f := f) hn (hA i (List.mem_cons_self ..)) hf
    rw [h, hq] at h1
    simp only [phaseW] at h1
    simp only [callSum, linSum, retSum]
    omega
  | @lin p q p' i o r l h hq hf hl ih =>
    have := ih fun j hj => hA j (List.mem_cons_of_mem _ hj)
    have h1 := openW_one (g := g) (f := f) hn (hA i (List.mem_cons_self ..)) hf
    rw [h, hq] at h1
    simp only [phaseW] at h1
    simp only [callSum, linSum, retSum]
    omega
  | @ret p q p' i o r l h hq hf hl ih =>
    have := ih fun j hj => hA j (List.mem_cons_of_mem _ hj)
    have h1 := openW_one (g := g) (f := f) hn (hA i (List.mem_cons_self ..)) hf
    rw [h, hq] at h1
    simp only [phaseW] at h1
    simp only [callSum, linSum, retSum]
    omega

theorem openW_idle {g : O → Nat} {f : O → R → Nat} {p : T → Phase O R} {A : List T}
    (h : ∀ i, p i = .idle) : openW g f p A = 0 := by
  induction A with
  | nil => rfl
  | cons i A ih => simp [openW, h i, phaseW, ih]

/-- A list without duplicates containing the elements of another one. -/
theorem exists_nodup [DecidableEq T] (l : List T) : ∃ A : List T, A.Nodup ∧ ∀ i ∈ l, i ∈ A := by
  induction l with
  | nil => exact ⟨[], List.nodup_nil, fun _ h => h⟩
  | cons a l ih =>
    obtain ⟨A, hn, hA⟩ := ih
    by_cases h : a ∈ A
    · exact ⟨A, hn, fun i hi => by
        rcases List.mem_cons.1 hi with rfl | hi
        · exact h
        · exact hA i hi⟩
    · exact ⟨a :: A, List.nodup_cons.2 ⟨h, hn⟩, fun i hi => by
        rcases List.mem_cons.1 hi with rfl | hi
        · exact List.mem_cons_self ..
        · exact List.mem_cons_of_mem _ (hA i hi)⟩

theorem linSum_mono {f f' : O → R → Nat} (h : ∀ o r, f o r ≤ f' o r) (l : List (Ev T O R)) :
    linSum f l ≤ linSum f' l := by
  induction l with
  | nil => exact Nat.le_refl _
  | cons e l ih =>
    cases e with
    | lin i o r => exact Nat.add_le_add (h o r) ih
    | _ => exact ih

theorem linSum_append (f : O → R → Nat) (a b : List (Ev T O R)) :
    linSum f (a ++ b) = linSum f a + linSum f b := by
  induction a with
  | nil => simp [linSum]
  | cons e a ih => cases e <;> simp [linSum, ih] <;> omega

theorem callSum_append (g : O → Nat) (a b : List (Ev T O R)) :
    callSum g (a ++ b) = callSum g a + callSum g b := by
  induction a with
  | nil => simp [callSum]
  | cons e a ih => cases e <;> simp [callSum, ih] <;> omega

theorem callSum_visible (g : O → Nat) (a : List (Ev T O R)) : callSum g (visible a) = callSum g a := by
  induction a with
  | nil => rfl
  | cons e a ih => cases e <;> simp [callSum, visible, ih]

theorem retSum_visible (f : O → R → Nat) (a : List (Ev T O R)) :
    retSum f (visible a) = retSum f a := by
  induction a with
  | nil => rfl
  | cons e a ih => cases e <;> simp [retSum, visible, ih]

/-- What has returned has taken effect. -/
theorem ret_le_lin [DecidableEq T] {f : O → R → Nat} {q : T → Phase O R} {l : List (Ev T O R)}
    (h : WellFormed (fun _ => .idle) l q) : retSum f l ≤ linSum f l := by
  obtain ⟨A, hn, hA⟩ := exists_nodup (threads l)
  have := wf_tokens (g := fun _ => 0) (f := f) hn h hA
  have h0 : callSum (fun _ => 0) l = 0 := by
    clear h hA this
    induction l with
    | nil => rfl
    | cons e l ih => cases e <;> simp [callSum, ih]
  have h1 : linSum (fun (_ : O) (_ : R) => 0) l = 0 := by
    clear h hA this h0
    induction l with
    | nil => rfl
    | cons e l ih => cases e <;> simp [linSum, ih]
  rw [h0, h1, openW_idle fun _ => rfl] at this
  omega

/-- What has taken effect has been called. -/
theorem lin_le_call [DecidableEq T] {g : O → Nat} {q : T → Phase O R} {l : List (Ev T O R)}
    (h : WellFormed (fun _ => .idle) l q) : linSum (fun o _ => g o) l ≤ callSum g l := by
  obtain ⟨A, hn, hA⟩ := exists_nodup (threads l)
  have := wf_tokens (g := g) (f := fun _ _ => 0) hn h hA
  have h0 : retSum (fun (_ : O) (_ : R) => 0) l = 0 := by
    clear h hA this
    induction l with
    | nil => rfl
    | cons e l ih => cases e <;> simp [retSum, ih]
  have h1 : linSum (fun (_ : O) (_ : R) => 0) l = 0 := by
    clear h hA this h0
    induction l with
    | nil => rfl
    | cons e l ih => cases e <;> simp [linSum, ih]
  rw [h0, h1, openW_idle fun _ => rfl] at this
  omega

/-- When all threads are idle, effects and returns are the same. -/
theorem quiet_sums [DecidableEq T] {f : O → R → Nat} {q : T → Phase O R}
    {l : List (Ev T O R)} (h : WellFormed (fun _ => .idle) l q) (hq : ∀ i, q i = .idle) :
    linSum f l = retSum f l := by
  obtain ⟨A, hn, hA⟩ := exists_nodup (threads l)
  have := wf_tokens (g := fun _ => 0) (f := f) hn h hA
  have h0 : callSum (fun _ => 0) l = 0 := by
    clear h hA this
    induction l with
    | nil => rfl
    | cons e l ih => cases e <;> simp [callSum, ih]
  have h1 : linSum (fun (_ : O) (_ : R) => 0) l = 0 := by
    clear h hA this h0
    induction l with
    | nil => rfl
    | cons e l ih => cases e <;> simp [linSum, ih]
  rw [h0, h1, openW_idle fun _ => rfl, openW_idle hq] at this
  omega

/-- When all threads are idle, calls and returns are the same. -/
theorem quiet_calls [DecidableEq T] {g : O → Nat} {q : T → Phase O R}
    {l : List (Ev T O R)} (h : WellFormed (fun _ => .idle) l q) (hq : ∀ i, q i = .idle) :
    callSum g l = retSum (fun o _ => g o) l := by
  obtain ⟨A, hn, hA⟩ := exists_nodup (threads l)
  have := wf_tokens (g := g) (f := fun o _ => g o) hn h hA
  rw [openW_idle fun _ => rfl, openW_idle hq] at this
  omega

/-! ### Cutting histories -/

theorem WellFormed.cut {p q : T → Phase O R} {a b : List (Ev T O R)} (h : WellFormed p (a ++ b) q) :
    ∃ m, WellFormed p a m ∧ WellFormed m b q := by
  induction a generalizing p with
  | nil => exact ⟨p, .nil p, h⟩
  | cons e a ih =>
    cases h with
    | call h hq hf hl => obtain ⟨m, h1, h2⟩ := ih hl; exact ⟨m, .call h hq hf h1, h2⟩
    | lin h hq hf hl => obtain ⟨m, h1, h2⟩ := ih hl; exact ⟨m, .lin h hq hf h1, h2⟩
    | ret h hq hf hl => obtain ⟨m, h1, h2⟩ := ih hl; exact ⟨m, .ret h hq hf h1, h2⟩

theorem Legal.cut {S : Obj O R D} {d d' : D} {a b : List (O × R)} (h : Legal S d (a ++ b) d') :
    ∃ m, Legal S d a m ∧ Legal S m b d' := by
  induction a generalizing d with
  | nil => exact ⟨d, .nil d, h⟩
  | cons e a ih =>
    cases h with
    | cons h hl => obtain ⟨m, h1, h2⟩ := ih hl; exact ⟨m, .cons h h1, h2⟩

/-- A history is cut before one of its visible events. -/
theorem visible_cut {l a b : List (Ev T O R)} {e : Ev T O R} (h : visible l = a ++ e :: b) :
    ∃ a' b', l = a' ++ e :: b' ∧ visible a' = a ∧ visible b' = b := by
  induction l generalizing a with
  | nil => cases a <;> simp [visible] at h
  | cons e' l ih =>
    cases e' with
    | lin i o r =>
      obtain ⟨a', b', h1, h2, h3⟩ := ih (show visible l = a ++ e :: b from h)
      exact ⟨.lin i o r :: a', b', by rw [h1]; rfl, h2, h3⟩
    | call i o =>
      cases a with
      | nil =>
        simp only [visible, List.nil_append, List.cons.injEq] at h
        exact ⟨[], l, by rw [h.1]; rfl, rfl, h.2⟩
      | cons x a =>
        simp only [visible, List.cons_append, List.cons.injEq] at h
        obtain ⟨a', b', h1, h2, h3⟩ := ih h.2
        exact ⟨.call i o :: a', b', by rw [h1]; rfl, by rw [← h.1, ← h2]; rfl, h3⟩
    | ret i o r =>
      cases a with
      | nil =>
        simp only [visible, List.nil_append, List.cons.injEq] at h
        exact ⟨[], l, by rw [h.1]; rfl, rfl, h.2⟩
      | cons x a =>
        simp only [visible, List.cons_append, List.cons.injEq] at h
        obtain ⟨a', b', h1, h2, h3⟩ := ih h.2
        exact ⟨.ret i o r :: a', b', by rw [h1]; rfl, by rw [← h.1, ← h2]; rfl, h3⟩

theorem call_visible {l : List (Ev T O R)} {i : T} {o : O} (h : Ev.call i o ∈ l) :
    Ev.call i o ∈ visible l := by
  induction l with
  | nil => cases h
  | cons e l ih =>
    rcases List.mem_cons.1 h with rfl | h'
    · exact List.mem_cons_self ..
    · cases e with
      | lin => exact ih h'
      | _ => exact List.mem_cons_of_mem _ (ih h')

theorem ret_of_visible {l : List (Ev T O R)} {i : T} {o : O} {r : R} (h : Ev.ret i o r ∈ visible l) :
    Ev.ret i o r ∈ l := by
  induction l with
  | nil => cases h
  | cons e l ih =>
    cases e with
    | lin => exact List.mem_cons_of_mem _ (ih h)
    | _ =>
      rcases List.mem_cons.1 h with h | h
      · rw [h]; exact List.mem_cons_self ..
      · exact List.mem_cons_of_mem _ (ih h)

/-- A thread that is not idle has an open call. -/
theorem open_call [DecidableEq T] {p q : T → Phase O R} {l : List (Ev T O R)}
    (h : WellFormed p l q) {i : T} (hi : q i ≠ .idle) :
    (p i ≠ .idle ∧ ∀ o r, Ev.ret i o r ∉ l) ∨
      ∃ a o b, l = a ++ .call i o :: b ∧ ∀ o' r, Ev.ret i o' r ∉ b := by
  induction h with
  | nil => exact .inl ⟨hi, fun _ _ h => by cases h⟩
  | @call p q p' j o l h hq hf hl ih =>
    rcases ih hi with ⟨h1, h2⟩ | ⟨a, o', b, rfl, h2⟩
    · by_cases hj : i = j
      · subst hj; exact .inr ⟨[], o, l, rfl, h2⟩
      · rw [hf _ hj] at h1
        refine .inl ⟨h1, fun o' r hm => ?_⟩
        rcases List.mem_cons.1 hm with hm | hm
        · cases hm
        · exact h2 o' r hm
    · exact .inr ⟨_ :: a, o', b, rfl, h2⟩
  | @lin p q p' j o r l h hq hf hl ih =>
    rcases ih hi with ⟨h1, h2⟩ | ⟨a, o', b, rfl, h2⟩
    · refine .inl ⟨?_, fun o' r' hm => ?_⟩
      · by_cases hj : i = j
        · subst hj; rw [h]; intro hc; cases hc
        · rwa [hf _ hj] at h1
      · rcases List.mem_cons.1 hm with hm | hm
        · cases hm
        · exact h2 o' r' hm
    · exact .inr ⟨_ :: a, o', b, rfl, h2⟩
  | @ret p q p' j o r l h hq hf hl ih =>
    rcases ih hi with ⟨h1, h2⟩ | ⟨a, o', b, rfl, h2⟩
    · by_cases hj : i = j
      · subst hj; exact absurd hq h1
      · rw [hf _ hj] at h1
        refine .inl ⟨h1, fun o' r' hm => ?_⟩
        rcases List.mem_cons.1 hm with hm | hm
        · injection hm with hm; exact hj hm
        · exact h2 o' r' hm
    · exact .inr ⟨_ :: a, o', b, rfl, h2⟩

/-- In a quiet history all threads are idle. -/
theorem Quiet.idle [DecidableEq T] {q : T → Phase O R} {l : List (Ev T O R)}
    (hQ : Quiet (visible l)) (h : WellFormed (fun _ => .idle) l q) (i : T) : q i = .idle := by
  cases hq : q i with
  | idle => rfl
  | _ =>
    exfalso
    rcases open_call h (i := i) (by rw [hq]; intro hc; cases hc) with ⟨h1, -⟩ | ⟨a, o, b, rfl, h2⟩
    · exact h1 rfl
    · obtain ⟨o', r, hm⟩ := hQ (visible a) i o (visible b) (by rw [visible_append]; rfl)
      exact h2 o' r (ret_of_visible hm)

/-- The operations that take effect have been called. -/
theorem effects_only [DecidableEq T] {P : O → Prop} {p q : T → Phase O R} {l : List (Ev T O R)}
    (h : WellFormed p l q) (hp : ∀ i o, p i = .called o → P o) (hP : Only P l) :
    ∀ x ∈ effects l, P x.1 := by
  induction h with
  | nil => intro x hx; cases hx
  | @call p q p' j o l h hq hf hl ih =>
    refine ih (fun i o' hi => ?_) fun i o' hm => hP i o' (List.mem_cons_of_mem _ hm)
    by_cases hj : i = j
    · subst hj; rw [hq] at hi; injection hi with hi; subst hi; exact hP i o (List.mem_cons_self ..)
    · rw [hf _ hj] at hi; exact hp i o' hi
  | @lin p q p' j o r l h hq hf hl ih =>
    intro x hx
    rcases List.mem_cons.1 hx with rfl | hx
    · exact hp j o h
    · refine ih (fun i o' hi => ?_) (fun i o' hm => hP i o' (List.mem_cons_of_mem _ hm)) x hx
      by_cases hj : i = j
      · subst hj; rw [hq] at hi; cases hi
      · rw [hf _ hj] at hi; exact hp i o' hi
  | @ret p q p' j o r l h hq hf hl ih =>
    refine ih (fun i o' hi => ?_) fun i o' hm => hP i o' (List.mem_cons_of_mem _ hm)
    by_cases hj : i = j
    · subst hj; rw [hq] at hi; cases hi
    · rw [hf _ hj] at hi; exact hp i o' hi

theorem only_of_visible {P : O → Prop} {l : List (Ev T O R)} (h : Only P (visible l)) : Only P l :=
  fun i o hm => h i o (call_visible hm)

end

/-! ### Counters -/

section
variable {T O R K V : Type} [DecidableEq T] [DecidableEq K]

/-- A type of numbers that are added, e.g. `uint64_t` with wrap-around: `enc n` is the number `n`, `dec` gives a
number with that value. (specification, no code) -/
structure Num (V : Type) where
  enc : Nat → V
  dec : V → Nat
  plus : V → V → V
  enc_dec : ∀ v, enc (dec v) = v
  enc_add : ∀ a b, enc (a + b) = plus (enc a) (enc b)

/-- What a call adds to which key, if anything; which results mean that it was done; what a result
shows of a looked up key. (specification, no code) -/
structure View (O R K V : Type) where
  add : O → Option (K × V)
  done : O → R → Bool
  look : O → Option K
  shown : R → Option V

/-- The amount a call is to add to `k`. (specification, no code) -/
def View.amount (N : Num V) (W : View O R K V) (k : K) (o : O) : Nat :=
  match W.add o with
  | some (k', v) => if k' = k then N.dec v else 0
  | none => 0

/-- 1 if the call is to add to `k`. (specification, no code) -/
def View.one (W : View O R K V) (k : K) (o : O) : Nat :=
  match W.add o with
  | some (k', _) => if k' = k then 1 else 0
  | none => 0

/-- The amount a call with this result has added to `k`. (specification, no code) -/
def View.amountDone (N : Num V) (W : View O R K V) (k : K) (o : O) (r : R) : Nat :=
  if W.done o r then W.amount N k o else 0

/-- 1 if the call with this result has added to `k`. (specification, no code) -/
def View.oneDone (W : View O R K V) (k : K) (o : O) (r : R) : Nat :=
  if W.done o r then W.one k o else 0

/-- Number and sum of additions as the content of a map: absent without an addition; otherwise the sum
in the arithmetic of the values. (specification, no code) -/
def tally (N : Num V) (n sum : Nat) : Option V := if n = 0 then none else some (N.enc sum)

/-- What the look-ups of `k` in a history show, if nothing but additions and look-ups is done with `k`.
(specification, no code) -/
structure Counts (N : Num V) (W : View O R K V) (k : K) (h : List (Ev T O R)) : Prop where
  /-- A look-up among additions counts those that have returned before it was called, and no more
  than those that have been called before it returned. -/
  among : ∀ h1 i o h2 r h3, h = h1 ++ .call i o :: (h2 ++ .ret i o r :: h3) → W.look o = some k →
    ∃ n sum, W.shown r = tally N n sum ∧
      retSum (W.oneDone k) h1 ≤ n ∧ n ≤ callSum (W.one k) (h1 ++ .call i o :: h2) ∧
      retSum (W.amountDone N k) h1 ≤ sum ∧ sum ≤ callSum (W.amount N k) (h1 ++ .call i o :: h2)
  /-- Look-ups after all additions have returned count each of them once. -/
  after : ∀ h1 h2, h = h1 ++ h2 → Quiet h1 → (∀ i o v, Ev.call i o ∈ h2 → W.add o ≠ some (k, v)) →
    ∀ i o r, Ev.ret i o r ∈ h2 → W.look o = some k →
      W.shown r = tally N (retSum (W.oneDone k) h1) (retSum (W.amountDone N k) h1)

/-- A sequential object that adds and looks up. (proof, no code) -/
structure Counter (N : Num V) (S : Obj O R (Dict K V)) (W : View O R K V) (k : K) (P : O → Prop) : Prop where
  init : S.init k = none
  adds : ∀ {d d' o r v}, P o → S.legal d o r d' → W.add o = some (k, v) → W.done o r = true →
    d' k = some (match d k with | none => v | some w => N.plus w v)
  keeps : ∀ {d d' o r}, P o → S.legal d o r d' → (∀ v, W.add o ≠ some (k, v)) ∨ W.done o r = false → d' k = d k
  looks : ∀ {d d' o r}, P o → S.legal d o r d' → W.look o = some k → W.shown r = d k

theorem linSum_eq (f : O → R → Nat) (l : List (Ev T O R)) :
    linSum f l = ((effects l).map fun x => f x.1 x.2).sum := by
  induction l with
  | nil => rfl
  | cons e l ih => cases e <;> simp [linSum, effects, ih]

/-- The content of a counter. -/
theorem Counter.content {N : Num V} {S : Obj O R (Dict K V)} {W : View O R K V} {k : K} {P : O → Prop}
    (C : Counter N S W k P) {l : List (O × R)} {d d' : Dict K V} {n s : Nat}
    (hl : Legal S d l d') (hP : ∀ x ∈ l, P x.1) (hd : d k = tally N n s) (hz : n = 0 → s = 0) :
    d' k = tally N (n + (l.map fun x => W.oneDone k x.1 x.2).sum)
      (s + (l.map fun x => W.amountDone N k x.1 x.2).sum) := by
  induction hl generalizing n s with
  | nil => simpa using hd
  | @cons d d1 d' o r l h hl ih =>
    have hPo := hP _ (List.mem_cons_self ..)
    have h1 : d1 k = tally N (n + W.oneDone k o r) (s + W.amountDone N k o r) ∧
        (n + W.oneDone k o r = 0 → s + W.amountDone N k o r = 0) := by
      by_cases hdn : W.done o r = true
      · by_cases ha : ∃ v, W.add o = some (k, v)
        · obtain ⟨v, ha⟩ := ha
          rw [C.adds hPo h ha hdn, hd]
          simp only [View.oneDone, View.amountDone, View.one, View.amount, ha, hdn, if_true]
          refine ⟨?_, fun h => by omega⟩
          simp only [tally]
          by_cases hn : n = 0
          · simp only [hn, if_true, Nat.zero_add, Nat.one_ne_zero, if_false, hz hn]
            rw [N.enc_dec]
          · simp only [hn, if_false, Nat.add_eq_zero_iff, Nat.one_ne_zero, and_false]
            rw [N.enc_add, N.enc_dec]
        · have ha' : ∀ v, W.add o ≠ some (k, v) := fun v hv => ha ⟨v, hv⟩
          have e : W.oneDone k o r = 0 ∧ W.amountDone N k o r = 0 := by
            simp only [View.oneDone, View.amountDone, View.one, View.amount, hdn, if_true]
            cases hb : W.add o with
            | none => exact ⟨rfl, rfl⟩
            | some kv =>
              obtain ⟨k', v⟩ := kv
              have : ¬ k' = k := fun h => ha' v (by rw [hb, h])
              simp [this]
          rw [C.keeps hPo h (.inl ha'), hd, e.1, e.2]
          exact ⟨rfl, hz⟩
      · have hdn' : W.done o r = false := by simpa using hdn
        rw [C.keeps hPo h (.inr hdn'), hd]
        simpa [View.oneDone, View.amountDone, hdn'] using hz
    have := ih (fun x hx => hP x (List.mem_cons_of_mem _ hx)) h1.1 h1.2
    simpa [Nat.add_assoc] using this

/-- The content after the effects of a history. -/
theorem Counter.after {N : Num V} {S : Obj O R (Dict K V)} {W : View O R K V} {k : K} {P : O → Prop}
    (C : Counter N S W k P) {l : List (Ev T O R)} {q : T → Phase O R} {d : Dict K V}
    (hw : WellFormed (fun _ => .idle) l q) (hl : Legal S S.init (effects l) d) (hP : Only P l) :
    d k = tally N (linSum (W.oneDone k) l) (linSum (W.amountDone N k) l) := by
  have := C.content (n := 0) (s := 0) hl
    (effects_only hw (fun _ _ h => by cases h) hP) (by rw [C.init]; simp [tally])
    (fun _ => rfl)
  rw [this, linSum_eq, linSum_eq]
  simp

theorem View.oneDone_le (W : View O R K V) (k : K) (o : O) (r : R) : W.oneDone k o r ≤ W.one k o := by
  unfold View.oneDone; split <;> omega

theorem View.amountDone_le (N : Num V) (W : View O R K V) (k : K) (o : O) (r : R) :
    W.amountDone N k o r ≤ W.amount N k o := by
  unfold View.amountDone; split <;> omega

/-- **Bounds for a look-up among additions.** -/
theorem Counter.bounds {N : Num V} {S : Obj O R (Dict K V)} {W : View O R K V} {k : K} {P : O → Prop}
    (C : Counter N S W k P) {h1 h2 h3 : List (Ev T O R)} {i : T} {o : O} {r : R}
    (hl : Linearizable S (h1 ++ .call i o :: (h2 ++ .ret i o r :: h3)))
    (hP : Only P (h1 ++ .call i o :: (h2 ++ .ret i o r :: h3)))
    (hk : W.look o = some k) :
    ∃ n s, W.shown r = tally N n s ∧
      retSum (W.oneDone k) h1 ≤ n ∧ n ≤ callSum (W.one k) (h1 ++ .call i o :: h2) ∧
      retSum (W.amountDone N k) h1 ≤ s ∧ s ≤ callSum (W.amount N k) (h1 ++ .call i o :: h2) := by
  obtain ⟨l, p, d, hv, hw, hlg⟩ := hl
  rw [← hv] at hP
  obtain ⟨a, b, rfl, ha, hb⟩ := visible_cut hv
  obtain ⟨b1, b2, rfl, hb1, hb2⟩ := visible_cut hb
  have hP' := only_of_visible hP
  have e1 : a ++ Ev.call i o :: (b1 ++ Ev.ret i o r :: b2) =
      ((a ++ Ev.call i o :: b1) ++ [Ev.ret i o r]) ++ b2 := by simp
  rw [e1] at hw hlg
  obtain ⟨m, hw1, -⟩ := WellFormed.cut hw
  obtain ⟨x, y, hxy, hy⟩ := WellFormed.lin_before_ret (fun _ _ hc => by cases hc) hw1
  -- the call precedes the effect
  have hx : ∃ z, x = a ++ Ev.call i o :: z := by
    rcases List.append_eq_append_iff.1 hxy with ⟨u, h1, h2⟩ | ⟨u, h1, h2⟩
    · cases u with
      | nil => simp at h2
      | cons e u =>
        simp only [List.cons_append, List.cons.injEq] at h2
        exact ⟨u, by rw [h1, ← h2.1]⟩
    · cases u with
      | nil => simp at h2
      | cons e u =>
        simp only [List.cons_append, List.cons.injEq] at h2
        refine absurd rfl (hy (.call i o) ?_ o)
        rw [h2.2]; simp
  obtain ⟨z, rfl⟩ := hx
  rw [hxy] at hw1 hlg
  have e2 : ((a ++ Ev.call i o :: z) ++ Ev.lin i o r :: y) ++ [Ev.ret i o r] ++ b2 =
      (a ++ Ev.call i o :: z) ++ ([Ev.lin i o r] ++ (y ++ [Ev.ret i o r] ++ b2)) := by simp
  rw [e2, effects_append (a ++ Ev.call i o :: z)] at hlg
  obtain ⟨d1, hd1, hlg⟩ := Legal.cut hlg
  obtain ⟨m1, hw2, -⟩ := WellFormed.cut (a := a ++ Ev.call i o :: z)
    (b := Ev.lin i o r :: y ++ [Ev.ret i o r]) (by simpa using hw1)
  have hPx : Only P (a ++ Ev.call i o :: z) := by
    intro j o' hm
    apply hP' j o'
    rw [e1, hxy, e2]
    exact List.mem_append.2 (.inl hm)
  have hPo : P o := hPx i o (by simp)
  have hs : W.shown r = d1 k := by
    cases hlg with
    | cons h _ => exact C.looks hPo h hk
  obtain ⟨m2, hw3, -⟩ := WellFormed.cut hw2
  have hpre : ∀ (f : O → R → Nat) (g : O → Nat), (∀ o r, f o r ≤ g o) →
      retSum f h1 ≤ linSum f (a ++ Ev.call i o :: z) ∧
        linSum f (a ++ Ev.call i o :: z) ≤ callSum g (h1 ++ .call i o :: h2) := by
    intro f g hfg
    constructor
    · rw [← ha, retSum_visible, linSum_append]
      have := ret_le_lin (f := f) hw3
      omega
    · have h4 := lin_le_call (g := g) hw2
      have h5 := linSum_mono (f := f) (f' := fun o _ => g o) hfg (a ++ Ev.call i o :: z)
      have h6 : callSum g (h1 ++ Ev.call i o :: h2) =
          callSum g (a ++ Ev.call i o :: z) + callSum g y := by
        have : callSum g (a ++ Ev.call i o :: b1) = callSum g (a ++ Ev.call i o :: z) + callSum g y := by
          rw [hxy, callSum_append]; rfl
        rw [← this, ← callSum_visible g (a ++ Ev.call i o :: b1), visible_append, ha, ← hb1]
        rfl
      omega
  have := C.after hw2 hd1 hPx
  obtain ⟨q1, q2⟩ := hpre _ _ (W.oneDone_le k)
  obtain ⟨q3, q4⟩ := hpre _ _ (W.amountDone_le N k)
  exact ⟨_, _, hs.trans this, q1, q2, q3, q4⟩

/-- Nothing is added by calls that add nothing. -/
theorem Counter.keep {N : Num V} {S : Obj O R (Dict K V)} {W : View O R K V} {k : K} {P : O → Prop}
    (C : Counter N S W k P) {l : List (O × R)} {d d' : Dict K V} (hl : Legal S d l d')
    (hP : ∀ x ∈ l, P x.1 ∧ ∀ v, W.add x.1 ≠ some (k, v)) : d' k = d k := by
  induction hl with
  | nil => rfl
  | cons h _ ih =>
    have := hP _ (List.mem_cons_self ..)
    rw [ih fun x hx => hP x (List.mem_cons_of_mem _ hx), C.keeps this.1 h (.inl this.2)]

/-- **A look-up after all additions have returned.** -/
theorem Counter.exact {N : Num V} {S : Obj O R (Dict K V)} {W : View O R K V} {k : K} {P : O → Prop}
    (C : Counter N S W k P) {h1 h2 : List (Ev T O R)} (hl : Linearizable S (h1 ++ h2))
    (hP1 : Only P h1) (hQ : Quiet h1) (hP2 : Only (fun o => P o ∧ ∀ v, W.add o ≠ some (k, v)) h2)
    {i : T} {o : O} {r : R} (hr : Ev.ret i o r ∈ h2) (hk : W.look o = some k) :
    W.shown r = tally N (retSum (W.oneDone k) h1) (retSum (W.amountDone N k) h1) := by
  obtain ⟨l, p, d, hv, hw, hlg⟩ := hl
  obtain ⟨l1, l2, rfl, hv1, hv2⟩ : ∃ l1 l2, l = l1 ++ l2 ∧ visible l1 = h1 ∧ visible l2 = h2 := by
    cases h2 with
    | nil => cases hr
    | cons e h2 =>
      obtain ⟨a, b, rfl, ha, hb⟩ := visible_cut hv
      obtain ⟨a1, b1, h⟩ : ∃ b', visible (e :: b) = e :: b' ∧ b' = h2 := by
        rw [visible_append, ha] at hv
        have := List.append_cancel_left hv
        exact ⟨h2, this, rfl⟩
      exact ⟨a, e :: b, rfl, ha, by rw [b1, h]⟩
  subst hv1 hv2
  obtain ⟨m, hw1, hw2⟩ := WellFormed.cut hw
  have hm : m = fun _ => .idle := funext fun j => hQ.idle hw1 j
  rw [effects_append] at hlg
  obtain ⟨d1, hd1, hlg⟩ := Legal.cut hlg
  have hd := C.after hw1 hd1 (only_of_visible hP1)
  rw [quiet_sums hw1 (hQ.idle hw1), quiet_sums hw1 (hQ.idle hw1)] at hd
  obtain ⟨x, y, rfl⟩ := List.append_of_mem (ret_of_visible hr)
  subst hm
  obtain ⟨m1, hw3, -⟩ := WellFormed.cut (a := x ++ [Ev.ret i o r]) (b := y) (by simpa using hw2)
  obtain ⟨u, v, rfl, -⟩ := WellFormed.lin_before_ret (fun _ _ hc => by cases hc) hw3
  have hP2' := effects_only hw2 (fun _ _ h => by cases h) (only_of_visible hP2)
  rw [show (u ++ Ev.lin i o r :: v) ++ Ev.ret i o r :: y =
    u ++ ([Ev.lin i o r] ++ (v ++ Ev.ret i o r :: y)) by simp, effects_append, effects_append] at hlg hP2'
  obtain ⟨d2, hd2, hlg2⟩ := Legal.cut hlg
  have hkp := C.keep hd2 fun x hx => hP2' x (List.mem_append.2 (.inl hx))
  rw [retSum_visible, retSum_visible, ← hd, ← hkp]
  cases hlg2 with
  | cons h _ => exact C.looks (hP2' (o, r) (by simp [effects])).1 h hk

/-- In a quiet beginning of a history calls and returns are the same. -/
theorem quiet_prefix {D : Type} {S : Obj O R D} {h1 h2 : List (Ev T O R)} (hl : Linearizable S (h1 ++ h2))
    (hQ : Quiet h1) (g : O → Nat) : callSum g h1 = retSum (fun o _ => g o) h1 := by
  obtain ⟨l, p, d, hv, hw, -⟩ := hl
  obtain ⟨l1, l2, rfl, hv1⟩ : ∃ l1 l2, l = l1 ++ l2 ∧ visible l1 = h1 := by
    cases h2 with
    | nil => exact ⟨l, [], by simp, by simpa using hv⟩
    | cons e h2 =>
      obtain ⟨a, b, rfl, ha, hb⟩ := visible_cut hv
      exact ⟨a, e :: b, rfl, ha⟩
  subst hv1
  obtain ⟨m, hw1, -⟩ := WellFormed.cut hw
  rw [callSum_visible, retSum_visible]
  exact quiet_calls hw1 (hQ.idle hw1)

theorem retSum_congr {f f' : O → R → Nat} {h : List (Ev T O R)}
    (hf : ∀ i o r, Ev.ret i o r ∈ h → f o r = f' o r) : retSum f h = retSum f' h := by
  induction h with
  | nil => rfl
  | cons e h ih =>
    have := ih fun i o r hm => hf i o r (List.mem_cons_of_mem _ hm)
    cases e with
    | ret i o r => simp only [retSum, this, hf i o r (List.mem_cons_self ..)]
    | _ => exact this

theorem retSum_add (f f' : O → R → Nat) (h : List (Ev T O R)) :
    retSum (fun o r => f o r + f' o r) h = retSum f h + retSum f' h := by
  induction h with
  | nil => rfl
  | cons e h ih => cases e <;> simp only [retSum, ih] <;> omega

theorem retSum_list {X : Type} (ks : List X) (f : X → O → R → Nat) (h : List (Ev T O R)) :
    (ks.map fun k => retSum (f k) h).sum = retSum (fun o r => (ks.map fun k => f k o r).sum) h := by
  induction ks with
  | nil =>
    simp only [List.map_nil, List.sum_nil]
    induction h with
    | nil => rfl
    | cons e h ih => cases e <;> simp [retSum, ← ih]
  | cons k ks ih => simp only [List.map_cons, List.sum_cons, ih]; rw [← retSum_add]

/-- What returns has been called. -/
theorem rets_only {P : O → Prop} {p q : T → Phase O R} {l : List (Ev T O R)}
    (h : WellFormed p l q) (hp : ∀ i o, p i = .called o → P o) (hp' : ∀ i o r, p i = .effected o r → P o)
    (hP : Only P l) : ∀ i o r, Ev.ret i o r ∈ l → P o := by
  induction h with
  | nil => intro i o r h; cases h
  | @call p q p' j o l h hq hf hl ih =>
    intro i o1 r1 hm
    refine ih (fun i o' hi => ?_) (fun i o' r hi => ?_) (fun i o' hm => hP i o' (List.mem_cons_of_mem _ hm)) i o1 r1 ?_
    · by_cases hj : i = j
      · subst hj; rw [hq] at hi; injection hi with hi; subst hi; exact hP i o (List.mem_cons_self ..)
      · rw [hf _ hj] at hi; exact hp i o' hi
    · by_cases hj : i = j
      · subst hj; rw [hq] at hi; cases hi
      · rw [hf _ hj] at hi; exact hp' i o' r hi
    · rcases List.mem_cons.1 hm with hm | hm
      · cases hm
      · exact hm
  | @lin p q p' j o r l h hq hf hl ih =>
    intro i o1 r1 hm
    refine ih (fun i o' hi => ?_) (fun i o' r hi => ?_) (fun i o' hm => hP i o' (List.mem_cons_of_mem _ hm)) i o1 r1 ?_
    · by_cases hj : i = j
      · subst hj; rw [hq] at hi; cases hi
      · rw [hf _ hj] at hi; exact hp i o' hi
    · by_cases hj : i = j
      · subst hj; rw [hq] at hi; injection hi with hi _; subst hi; exact hp i o h
      · rw [hf _ hj] at hi; exact hp' i o' r hi
    · rcases List.mem_cons.1 hm with hm | hm
      · cases hm
      · exact hm
  | @ret p q p' j o r l h hq hf hl ih =>
    intro i o1 r1 hm
    rcases List.mem_cons.1 hm with hm | hm
    · injection hm with e1 e2 e3; subst e1 e2 e3; exact hp' _ _ _ h
    refine ih (fun i o' hi => ?_) (fun i o' r hi => ?_) (fun i o' hm => hP i o' (List.mem_cons_of_mem _ hm)) i o1 r1 hm
    · by_cases hj : i = j
      · subst hj; rw [hq] at hi; cases hi
      · rw [hf _ hj] at hi; exact hp i o' hi
    · by_cases hj : i = j
      · subst hj; rw [hq] at hi; cases hi
      · rw [hf _ hj] at hi; exact hp' i o' r hi

/-- 1 if the call is an addition to any key. (specification, no code) -/
def View.isAdd (W : View O R K V) (o : O) : Nat := if (W.add o).isSome then 1 else 0

/-- 1 if an addition was refused. (specification, no code) -/
def View.failed (W : View O R K V) (o : O) (r : R) : Nat := if W.done o r then 0 else W.isAdd o

theorem sum_zero {X : Type} (ks : List X) : (ks.map fun _ => 0).sum = 0 := by
  induction ks with
  | nil => rfl
  | cons a ks ih => simp [ih]

theorem sum_none {ks : List K} {k : K} (hk : k ∉ ks) (x : Nat) :
    (ks.map fun k' => if k = k' then x else 0).sum = 0 := by
  induction ks with
  | nil => rfl
  | cons b ks ih =>
    have hb : ¬ k = b := fun h => hk (h ▸ List.mem_cons_self ..)
    simp only [List.map_cons, List.sum_cons, hb, if_false, Nat.zero_add]
    exact ih fun h => hk (List.mem_cons_of_mem _ h)

theorem sum_one {ks : List K} (hn : ks.Nodup) {k : K} (hk : k ∈ ks) (x : Nat) :
    (ks.map fun k' => if k = k' then x else 0).sum = x := by
  induction ks with
  | nil => cases hk
  | cons a ks ih =>
    obtain ⟨ha, hn⟩ := List.nodup_cons.1 hn
    simp only [List.map_cons, List.sum_cons]
    rcases List.mem_cons.1 hk with rfl | hk'
    · have := sum_none ha x
      rw [this]; simp
    · have : ¬ k = a := fun h => ha (h ▸ hk')
      rw [ih hn hk']; simp [this]

/-- The counts of all keys and the refused additions make up all additions. -/
theorem total {N : Num V} {D : Type} {S : Obj O R D} {W : View O R K V} {h1 h2 : List (Ev T O R)}
    (hl : Linearizable S (h1 ++ h2)) (hQ : Quiet h1) {ks : List K} (hn : ks.Nodup)
    (hks : ∀ i o k v, Ev.call i o ∈ h1 → W.add o = some (k, v) → k ∈ ks ∧ N.dec v = 1) :
    (ks.map fun k => retSum (W.amountDone N k) h1).sum + retSum W.failed h1 = callSum W.isAdd h1 := by
  have hP : ∀ i o r, Ev.ret i o r ∈ h1 → ∀ k v, W.add o = some (k, v) → k ∈ ks ∧ N.dec v = 1 := by
    obtain ⟨l, p, d, hv, hw, -⟩ := hl
    obtain ⟨l1, l2, rfl, hv1⟩ : ∃ l1 l2, l = l1 ++ l2 ∧ visible l1 = h1 := by
      cases h2 with
      | nil => exact ⟨l, [], by simp, by simpa using hv⟩
      | cons e h2 =>
        obtain ⟨a, b, rfl, ha, hb⟩ := visible_cut hv
        exact ⟨a, e :: b, rfl, ha⟩
    subst hv1
    obtain ⟨m, hw1, -⟩ := WellFormed.cut hw
    intro i o r hm
    exact rets_only (P := fun o => ∀ k v, W.add o = some (k, v) → k ∈ ks ∧ N.dec v = 1) hw1
      (fun _ _ h => by cases h) (fun _ _ _ h => by cases h)
      (fun i o hm k v => hks i o k v (call_visible hm)) i o r (ret_of_visible hm)
  rw [quiet_prefix hl hQ, retSum_list, ← retSum_add]
  apply retSum_congr
  intro i o r hm
  have hkv := hP i o r hm
  simp only [View.amountDone, View.failed, View.isAdd, View.amount]
  cases ha : W.add o with
  | none => cases W.done o r <;> simp [sum_zero]
  | some kv =>
    obtain ⟨k, v⟩ := kv
    obtain ⟨hk, hv⟩ := hkv k v ha
    cases W.done o r with
    | true =>
      simp only [if_true, Option.isSome_some, Nat.add_zero, hv]
      exact sum_one hn hk 1
    | false =>
      simp only [Bool.false_eq_true, if_false, Option.isSome_some, if_true]
      rw [sum_zero]

/-- Both. -/
theorem Counter.counts {N : Num V} {S : Obj O R (Dict K V)} {W : View O R K V} {k : K} {P : O → Prop}
    (C : Counter N S W k P) {h : List (Ev T O R)} (hl : Linearizable S h) (hP : Only P h) : Counts N W k h where
  among := by
    intro h1 i o h2 r h3 he hk
    subst he
    exact C.bounds hl hP hk
  after := by
    intro h1 h2 he hQ hn i o r hr hk
    subst he
    exact C.exact hl (fun i o hm => hP i o (List.mem_append.2 (.inl hm))) hQ
      (fun i o hm => ⟨hP i o (List.mem_append.2 (.inr hm)), fun v => hn i o v hm⟩) hr hk

end

end Growt.Agg
