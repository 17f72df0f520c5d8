import Verif.Sync
import Verif.SyncData

/-!
# Mapped values behind pointers

With `complex_slot` (`complex_slot.hpp`) a slot holds the address of a heap allocated element.  The
table is then a table of addresses; the mapped values are in the elements, and updates change them in
place without touching the slot (`complex_slot.hpp:531-606`).  This file composes any table of addresses
with a heap: the table is a parameter (a labelled transition system), and all that the proof uses is that
its histories are linearizable to an ideal map of addresses.

There are no removals: `atomic_delete` of `complex_slot` does not compile (`complex_slot.hpp:489-496`).
-/

set_option linter.unusedSectionVars false

namespace Growt.HeapVal

/-! ## Calls and results -/

/-- The calls on a table with heap allocated elements.  `find` reads the mapped value through the
iterator once.  `f` is the effect of `f.atomic` on the mapped value; it has to be atomic
(`complex_slot.hpp:531-548`), which makes `update_with_backoff` the same as `update`.
(`base_linear.hpp:918-1064`) -/
inductive HOp (K V : Type) where
  | find (k : K)
  | insert (k : K) (v : V)
  | update (k : K) (f : V → V)
  | insertOrUpdate (k : K) (v : V) (f : V → V)

/-- The key of a call (`base_linear.hpp:192-243`). -/
def HOp.key {K V : Type} : HOp K V → K
  | .find k | .insert k _ | .update k _ | .insertOrUpdate k _ _ => k

/-- What the caller sees: the boolean, whether the iterator refers to an element, and the value read
through it (only `find` and unsuccessful insertions read it in the model; everybody can read later,
see `HStep.ref`). (`base_linear.hpp:918-1064`) -/
structure HRes (V : Type) where
  ok : Bool
  elem : Bool
  shown : Option V

/-! ## Specification -/

/-- The ideal map of values.  `full`: insertions of absent keys may be refused.
(specification, no code) -/
def valObj {K V : Type} [DecidableEq K] (full : Bool) : Obj (HOp K V) (HRes V) (Dict K V) where
  init := fun _ => none
  legal d op x d' :=
    match op with
    | .find k => d' = d ∧ x = ⟨(d k).isSome, (d k).isSome, d k⟩
    | .insert k v =>
      match d k with
      | some w => d' = d ∧ x = ⟨false, true, some w⟩
      | none => (d' = d.put k v ∧ x = ⟨true, true, none⟩) ∨
          (full = true ∧ d' = d ∧ x = ⟨false, false, none⟩)
    | .update k f =>
      match d k with
      | some w => d' = d.put k (f w) ∧ x = ⟨true, true, none⟩
      | none => d' = d ∧ x = ⟨false, false, none⟩
    | .insertOrUpdate k v f =>
      match d k with
      | some w => d' = d.put k (f w) ∧ x = ⟨false, true, none⟩
      | none => (d' = d.put k v ∧ x = ⟨true, true, none⟩) ∨
          (full = true ∧ d' = d ∧ x = ⟨false, false, none⟩)

/-! ## The table of addresses -/

/-- What the table of addresses answers: the own element was put into the table, an element was found,
there is none, or the table is full. (`base_linear.hpp:556-640`) -/
inductive Ans (A : Type) where
  | inserted
  | found (a : A)
  | absent
  | refused

/-- The call that reaches the table of addresses: `own` is the element allocated by this call
(`complex_slot.hpp:198-259`).  Until an element is found, `insert_or_update_intern`
(`base_linear.hpp:721-775`) does the same as `insert_intern` (557-600). -/
def HOp.base {K V A : Type} : HOp K V → Option A → Option (Op K A)
  | .find k, none => some (.find k)
  | .update k _, none => some (.locate k)
  | .insert k _, some a | .insertOrUpdate k _ _, some a => some (.insert k a)
  | _, _ => none

/-- The mapped value of the element allocated by a call (`complex_slot.hpp:198-259`). -/
def HOp.value {K V : Type} : HOp K V → Option V
  | .insert _ v | .insertOrUpdate _ v _ => some v
  | _ => none

section
variable {K V A R : Type} [DecidableEq K] [DecidableEq A]

/-- The object behind the table is a map of addresses: searches show the address stored with the key,
insertions store the address if there is none. (specification, no code) -/
structure IsMap (full : Bool) (S : Obj (Op K A) R (Dict K A)) (ans : Op K A → R → Ans A) : Prop where
  init : S.init = fun _ => none
  look : ∀ {d k o r d'}, o = Op.find k ∨ o = Op.locate k → S.legal d o r d' →
    d' = d ∧ ((∃ a, d k = some a ∧ ans o r = .found a) ∨ d k = none ∧ ans o r = .absent)
  ins : ∀ {d k a r d'}, S.legal d (.insert k a) r d' →
    (d k = none ∧ d' = d.put k a ∧ ans (.insert k a) r = .inserted) ∨
    (∃ b, d k = some b ∧ d' = d ∧ ans (.insert k a) r = .found b) ∨
    (full = true ∧ d k = none ∧ d' = d ∧ ans (.insert k a) r = .refused)

end

/-! ## Composition -/

/-- What a thread is doing.  `own`: the element it has allocated and must free or give to the table.
(`base_linear.hpp:918-1064`) -/
inductive HThr (K V A : Type) where
  | idle
  | wait (op : HOp K V) (own : Option A)
  | acc (op : HOp K V) (own : Option A) (a : A)
  | fin (op : HOp K V) (x : HRes V)
  /-- access to an element that has been freed: undefined behaviour -/
  | bad

/-- The state: the table of addresses, the elements (`none`: not allocated), and the addresses that have
been shown to some caller. (`complex_slot.hpp:62-181`) -/
structure HSt (S T K V A : Type) where
  base : S
  heap : A → Option V
  refs : K → A → Prop
  thr : T → HThr K V A

/-- What a call does when the table of addresses has answered: the next state of the thread, and the
element it frees. (`base_linear.hpp:918-930` for insertion, 1010-1027 for `insert_or_update`) -/
def afterBase {K V A : Type} (op : HOp K V) (own : Option A) : Ans A → HThr K V A × Option A
  | .inserted =>
    match op with
    | .insert _ _ | .insertOrUpdate _ _ _ => (.fin op ⟨true, true, none⟩, none)
    | _ => (.bad, none)
  | .found a =>
    match op with
    | .find _ | .update _ _ => (.acc op none a, none)
    | .insert _ _ => (.acc op none a, own) -- `slot.cleanup()`, then the caller uses the iterator
    | .insertOrUpdate _ _ _ => (.acc op own a, none) -- update first, then `slot.cleanup()`
  | .absent => (.fin op ⟨false, false, none⟩, none)
  | .refused => (.fin op ⟨false, false, none⟩, own)

/-- The address that the caller gets from the iterator: the address found; after a successful
`insert_or_update` that of the own element (`base_linear.hpp:750-752`).  A successful `insert` gives an
iterator made from the empty slot (580), i.e. a null pointer. -/
def shownAddr {K V A : Type} (op : HOp K V) (own : Option A) : Ans A → Option A
  | .found a => some a
  | .inserted =>
    match op with
    | .insertOrUpdate _ _ _ => own
    | _ => none
  | _ => none

/-- The access to the element found: its new value and what the caller sees.
(`complex_slot.hpp:540-548`) -/
def accessVal {K V : Type} : HOp K V → V → V × HRes V
  | .find _, w => (w, ⟨true, true, some w⟩)
  | .insert _ _, w => (w, ⟨false, true, some w⟩)
  | .update _ f, w => (f w, ⟨true, true, none⟩)
  | .insertOrUpdate _ _ f, w => (f w, ⟨false, true, none⟩)

section
variable {S T K V A R : Type} [DecidableEq T] [DecidableEq K] [DecidableEq A]

/-- The element `own` gets the value `v` (`none`: it is freed).
(`complex_slot.hpp:198-259` allocation, 415-427 `cleanup`) -/
def setOwn (heap : A → Option V) (own : Option A) (v : Option V) : A → Option V :=
  fun x => if own = some x then v else heap x

/-- Steps of the composition; `B` are the steps of the table of addresses, with calls and returns as
labels.  Allocation and call, return and release of the own element, access and release of the own element
are one step each: nobody else knows the own element at that time.
(`base_linear.hpp:918-1064`, `complex_slot.hpp:531-606`) -/
inductive HStep (B : S → Option (Ev T (Op K A) R) → S → Prop) (ans : Op K A → R → Ans A) :
    HSt S T K V A → Option (Ev T (HOp K V) (HRes V)) → HSt S T K V A → Prop where
  /-- allocate the element, call the table (`base_linear.hpp:918-924`, 1010-1019) -/
  | call {s : HSt S T K V A} {i : T} {op : HOp K V} {own : Option A} {o : Op K A} {b : S}
      (h : s.thr i = .idle) (ho : op.base own = some o) (hf : ∀ a, own = some a → s.heap a = none)
      (hb : B s.base (some (.call i o)) b) :
      HStep B ans s (some (.call i op))
        { s with base := b, heap := setOwn s.heap own op.value, thr := setAt s.thr i (.wait op own) }
  /-- reading or updating through an iterator obtained earlier, by any thread
  (`base_linear_iterator.hpp:212-227`) -/
  | ref {s : HSt S T K V A} {i : T} {op : HOp K V} {a : A} (h : s.thr i = .idle)
      (ho : (∃ k, op = .find k) ∨ ∃ k f, op = .update k f) (hr : s.refs op.key a) :
      HStep B ans s (some (.call i op)) { s with thr := setAt s.thr i (.acc op none a) }
  /-- the table works -/
  | inner {s : HSt S T K V A} {e : Option (Ev T (Op K A) R)} {b : S}
      (he : e = none ∨ ∃ i o r, e = some (.lin i o r)) (hb : B s.base e b) :
      HStep B ans s none { s with base := b }
  /-- the table returns -/
  | bret {s : HSt S T K V A} {i : T} {op : HOp K V} {own : Option A} {o : Op K A} {r : R} {b : S}
      (h : s.thr i = .wait op own) (hb : B s.base (some (.ret i o r)) b) :
      HStep B ans s none
        { base := b, heap := setOwn s.heap (afterBase op own (ans o r)).2 none
          refs := fun k a => s.refs k a ∨ k = op.key ∧ shownAddr op own (ans o r) = some a
          thr := setAt s.thr i (afterBase op own (ans o r)).1 }
  /-- the access to the element (`complex_slot.hpp:540-548`) -/
  | access {s : HSt S T K V A} {i : T} {op : HOp K V} {own : Option A} {a : A} {w : V}
      (h : s.thr i = .acc op own a) (hw : s.heap a = some w) :
      HStep B ans s none
        { s with heap := setOwn (setAt s.heap a (some (accessVal op w).1)) own none
                 thr := setAt s.thr i (.fin op (accessVal op w).2) }
  /-- the element has been freed -/
  | wild {s : HSt S T K V A} {i : T} {op : HOp K V} {own : Option A} {a : A}
      (h : s.thr i = .acc op own a) (hw : s.heap a = none) :
      HStep B ans s none { s with thr := setAt s.thr i .bad }
  | ret {s : HSt S T K V A} {i : T} {op : HOp K V} {x : HRes V} (h : s.thr i = .fin op x) :
      HStep B ans s (some (.ret i op x)) { s with thr := setAt s.thr i .idle }

/-- No element is allocated, nobody does anything. (`base_linear.hpp:396-411`) -/
def HSt.init (b : S) : HSt S T K V A := ⟨b, fun _ => none, fun _ _ => False, fun _ => .idle⟩

end

/-! ## The ideal table as a transition system -/

section
variable {T O R D : Type} [DecidableEq T]

/-- Calls, instants of effect and returns of an ideal concurrent object. (specification, no code) -/
inductive IStep (S : Obj O R D) : D × (T → Phase O R) → Option (Ev T O R) → D × (T → Phase O R) → Prop where
  | call {d : D} {p : T → Phase O R} {i : T} {o : O} (h : p i = .idle) :
      IStep S (d, p) (some (.call i o)) (d, setAt p i (.called o))
  | lin {d d' : D} {p : T → Phase O R} {i : T} {o : O} {r : R} (h : p i = .called o)
      (hl : S.legal d o r d') : IStep S (d, p) none (d', setAt p i (.effected o r))
  | ret {d : D} {p : T → Phase O R} {i : T} {o : O} {r : R} (h : p i = .effected o r) :
      IStep S (d, p) (some (.ret i o r)) (d, setAt p i .idle)

theorem exec_head {St L : Type} {step : St → Option L → St → Prop} {s s1 s2 : St} {e : Option L} {l : List L}
    (h1 : step s e s1) (h2 : Exec step s1 l s2) : Exec step s (e.toList ++ l) s2 := by
  induction h2 with
  | init =>
    cases e with
    | none => exact .silent .init h1
    | some e => exact .vis (l := []) .init h1
  | silent _ hs ih => exact .silent ih hs
  | vis _ hs ih => rw [← List.append_assoc]; exact .vis ih hs

theorem setAt_eq {α : Type} {p q : T → α} {i : T} {a : α} (hq : q i = a) (hf : ∀ j, j ≠ i → q j = p j) :
    q = setAt p i a := by
  funext j
  by_cases h : j = i
  · subst h; rw [hq, setAt_same]
  · rw [hf j h, setAt_other h]

/-- A linearizable history is a history of the ideal object. -/
theorem ideal_exec {S : Obj O R D} {h : List (Ev T O R)} (hl : Linearizable S h) :
    ∃ x, Exec (IStep S) (S.init, fun _ => .idle) h x := by
  obtain ⟨g, p', d', rfl, hw, hg⟩ := hl
  suffices H : ∀ d, Legal S d (effects g) d' →
      ∃ x, Exec (IStep S) (d, fun _ => Phase.idle) (visible g) x from H _ hg
  clear hg
  generalize (fun _ => Phase.idle : T → Phase O R) = p at hw ⊢
  induction hw with
  | nil p => intro d _; exact ⟨_, .init⟩
  | call h hq hf _ ih =>
    intro d hg
    obtain ⟨x, hx⟩ := ih d hg
    rw [setAt_eq hq hf] at hx
    exact ⟨x, exec_head (.call h) hx⟩
  | lin h hq hf _ ih =>
    intro d hg
    cases hg with
    | cons h1 h2 =>
      obtain ⟨x, hx⟩ := ih _ h2
      rw [setAt_eq hq hf] at hx
      exact ⟨x, exec_head (.lin h h1) hx⟩
  | ret h hq hf _ ih =>
    intro d hg
    obtain ⟨x, hx⟩ := ih d hg
    rw [setAt_eq hq hf] at hx
    exact ⟨x, exec_head (.ret h) hx⟩

theorem visible_idem (l : List (Ev T O R)) : visible (visible l) = visible l := by
  induction l with
  | nil => rfl
  | cons e l ih => cases e <;> simp [visible, ih]

/-- The last visible step of an execution. -/
theorem exec_last {St : Type} {step : St → Option (Ev T O R) → St → Prop} {s0 s : St} {e : Ev T O R}
    {l m : List (Ev T O R)} (h : Exec step s0 m s) (hm : visible m = l ++ [e]) :
    ∃ l1 s1 s2 l2, Exec step s0 l1 s1 ∧ visible l1 = l ∧ step s1 (some e) s2 ∧ Exec step s2 l2 s ∧
      visible l2 = [] := by
  induction h with
  | init => cases l <;> simp [visible] at hm
  | silent _ hs ih =>
    obtain ⟨l1, s1, s2, l2, h1, h2, h3, h4, h5⟩ := ih hm
    exact ⟨l1, s1, s2, l2, h1, h2, h3, .silent h4 hs, h5⟩
  | @vis l' a b e' h hs ih =>
    rw [visible_append] at hm
    have hv : visible [e'] = [e'] → ∃ l1 s1 s2 l2, Exec step s0 l1 s1 ∧ visible l1 = l ∧ step s1 (some e) s2 ∧
        Exec step s2 l2 b ∧ visible l2 = [] := by
      intro he
      rw [he] at hm
      obtain ⟨h1, h2⟩ := List.append_inj' hm rfl
      cases h2
      exact ⟨l', a, b, [], h, h1, hs, .init, rfl⟩
    cases e' with
    | call i o => exact hv rfl
    | ret i o r => exact hv rfl
    | lin i o r =>
      obtain ⟨l1, s1, s2, l2, h1, h2, h3, h4, h5⟩ := ih (by rw [← hm]; exact (List.append_nil _).symm)
      exact ⟨l1, s1, s2, l2 ++ [_], h1, h2, h3, .vis h4 hs, by rw [visible_append, h5]; rfl⟩

end

section
variable {S S' T K V A R : Type} [DecidableEq T] [DecidableEq K] [DecidableEq A]

/-- Of the table of addresses only the visible history matters. -/
theorem replace {B : S → Option (Ev T (Op K A) R) → S → Prop} {B' : S' → Option (Ev T (Op K A) R) → S' → Prop}
    {ans : Op K A → R → Ans A} {b0 : S} {b0' : S'} {l : List (Ev T (HOp K V) (HRes V))} {s : HSt S T K V A}
    (h : Exec (HStep B ans) (HSt.init b0) l s) :
    ∃ lb, Exec B b0 lb s.base ∧ ∀ lb' x, Exec B' b0' lb' x → visible lb' = visible lb →
      Exec (HStep B' ans) (HSt.init b0') l ⟨x, s.heap, s.refs, s.thr⟩ := by
  have inner : ∀ {x y : S'} {l l2 heap refs thr},
      Exec (HStep (V := V) B' ans) (HSt.init b0') l ⟨x, heap, refs, thr⟩ →
      Exec B' x l2 y → visible l2 = [] →
      Exec (HStep B' ans) (HSt.init b0') l ⟨y, heap, refs, thr⟩ := by
    intro x y l l2 heap refs thr h1 h2
    induction h2 with
    | init => intro _; exact h1
    | silent _ hs ih => intro hv; exact .silent (ih hv) (.inner (.inl rfl) hs)
    | @vis l' _ _ e _ hs ih =>
      intro hv
      rw [visible_append] at hv
      have hv' := List.append_eq_nil_iff.1 hv
      cases e with
      | call i o => cases hv'.2
      | ret i o r => cases hv'.2
      | lin i o r => exact .silent (ih hv'.1) (.inner (.inr ⟨i, o, r, rfl⟩) hs)
  have snoc : ∀ {lb : List (Ev T (Op K A) R)} {e}, visible [e] = [e] →
      visible (lb ++ [e]) = visible lb ++ [e] := by
    intro lb e he; rw [visible_append, he]
  have lin : ∀ {lb : List (Ev T (Op K A) R)} {i o r}, visible (lb ++ [.lin i o r]) = visible lb := by
    intro lb i o r; rw [visible_append]; exact List.append_nil _
  induction h with
  | init => exact ⟨[], .init, fun lb' x hx hv => inner .init hx hv⟩
  | silent _ hs ih =>
    obtain ⟨lb, hb0, hc⟩ := ih
    cases hs with
    | inner he hb =>
      rcases he with rfl | ⟨i, o, r, rfl⟩
      · exact ⟨lb, .silent hb0 hb, hc⟩
      · exact ⟨lb ++ [_], .vis hb0 hb, fun lb' x hx hv => hc lb' x hx (by rwa [lin] at hv)⟩
    | bret h hb =>
      refine ⟨lb ++ [_], .vis hb0 hb, fun lb' x hx hv => ?_⟩
      rw [snoc rfl] at hv
      obtain ⟨l1, x1, x2, l2, h1, h2, h3, h4, h5⟩ := exec_last hx hv
      exact inner (.silent (hc l1 x1 h1 h2) (.bret h h3)) h4 h5
    | access h hw => exact ⟨lb, hb0, fun lb' x hx hv => .silent (hc lb' x hx hv) (.access h hw)⟩
    | wild h hw => exact ⟨lb, hb0, fun lb' x hx hv => .silent (hc lb' x hx hv) (.wild h hw)⟩
  | vis _ hs ih =>
    obtain ⟨lb, hb0, hc⟩ := ih
    cases hs with
    | call h ho hf hb =>
      refine ⟨lb ++ [_], .vis hb0 hb, fun lb' x hx hv => ?_⟩
      rw [snoc rfl] at hv
      obtain ⟨l1, x1, x2, l2, h1, h2, h3, h4, h5⟩ := exec_last hx hv
      exact inner (.vis (hc l1 x1 h1 h2) (.call h ho hf h3)) h4 h5
    | ref h ho hr => exact ⟨lb, hb0, fun lb' x hx hv => .vis (hc lb' x hx hv) (.ref h ho hr)⟩
    | ret h => exact ⟨lb, hb0, fun lb' x hx hv => .vis (hc lb' x hx hv) (.ret h)⟩

end

/-! ## Invariant of the composition with the ideal table -/

section
variable {T K V A R : Type} [DecidableEq T] [DecidableEq K] [DecidableEq A]

/-- The element a thread has to give away. (proof, no code) -/
def owns (ans : Op K A → R → Ans A) : HThr K V A → Phase (Op K A) R → Option A
  | .wait _ own, .effected o r =>
    match ans o r with
    | .inserted => none
    | _ => own
  | .wait _ own, _ => own
  | .acc _ own _, _ => own
  | _, _ => none

/-- The value of that element. (proof, no code) -/
def ownVal : HThr K V A → Option V
  | .wait op _ => op.value
  | .acc op _ _ => op.value
  | _ => none

/-- How far the call is, seen from outside. (proof, no code) -/
def phaseOf (ans : Op K A → R → Ans A) : HThr K V A → Phase (Op K A) R → Phase (HOp K V) (HRes V)
  | .wait op _, .effected o r =>
    match ans o r with
    | .found _ => .called op
    | .inserted => .effected op ⟨true, true, none⟩
    | _ => .effected op ⟨false, false, none⟩
  | .wait op _, _ => .called op
  | .acc op _ _, _ => .called op
  | .fin op x, _ => .effected op x
  | _, _ => .idle

/-- What the answer of the table says about the map of addresses. (proof, no code) -/
def Post (d : Dict K A) (op : HOp K V) (own : Option A) : Ans A → Prop
  | .inserted => ∃ a, own = some a ∧ d op.key = some a
  | .found a => d op.key = some a
  | .absent => own = none
  | .refused => True

/-- A thread and its call of the table. (proof, no code) -/
def ThrOK (ans : Op K A → R → Ans A) (d : Dict K A) : HThr K V A → Phase (Op K A) R → Prop
  | .idle, p => p = .idle
  | .wait op own, p => ∃ o, op.base own = some o ∧
      (p = .called o ∨ ∃ r, p = .effected o r ∧ Post d op own (ans o r))
  | .acc op _ a, p => p = .idle ∧ d op.key = some a
  | .fin _ _, p => p = .idle
  | .bad, _ => False

/-- The map of values. (specification, no code) -/
def vals (d : Dict K A) (heap : A → Option V) : Dict K V := fun k => (d k).bind heap

/-- The invariant. (proof, no code) -/
structure Inv (ans : Op K A → R → Ans A) (s : HSt (Dict K A × (T → Phase (Op K A) R)) T K V A) : Prop where
  thr : ∀ i, ThrOK ans s.base.1 (s.thr i) (s.base.2 i)
  pub : ∀ k a, s.base.1 k = some a → ∃ v, s.heap a = some v
  inj : ∀ k k' a, s.base.1 k = some a → s.base.1 k' = some a → k = k'
  own : ∀ i a, owns ans (s.thr i) (s.base.2 i) = some a →
    (∃ v, ownVal (s.thr i) = some v ∧ s.heap a = some v) ∧ ∀ k, s.base.1 k ≠ some a
  one : ∀ i j a, owns ans (s.thr i) (s.base.2 i) = some a → owns ans (s.thr j) (s.base.2 j) = some a → i = j
  refs : ∀ k a, s.refs k a → s.base.1 k = some a
  live : ∀ a v, s.heap a = some v →
    (∃ k, s.base.1 k = some a) ∨ ∃ i, owns ans (s.thr i) (s.base.2 i) = some a

theorem Post.mono {d d' : Dict K A} (h : ∀ k a, d k = some a → d' k = some a) {op : HOp K V} {own : Option A}
    {x : Ans A} (hp : Post d op own x) : Post d' op own x := by
  cases x with
  | inserted => obtain ⟨a, h1, h2⟩ := hp; exact ⟨a, h1, h _ _ h2⟩
  | found a => exact h _ _ hp
  | absent => exact hp
  | refused => exact hp

theorem ThrOK.mono {ans : Op K A → R → Ans A} {d d' : Dict K A} (h : ∀ k a, d k = some a → d' k = some a)
    {x : HThr K V A} {p : Phase (Op K A) R} (hx : ThrOK ans d x p) : ThrOK ans d' x p := by
  cases x with
  | idle => exact hx
  | wait op own =>
    obtain ⟨o, h1, h2⟩ := hx
    refine ⟨o, h1, h2.imp id ?_⟩
    rintro ⟨r, h3, h4⟩
    exact ⟨r, h3, h4.mono h⟩
  | acc op own a => exact ⟨hx.1, h _ _ hx.2⟩
  | fin op x => exact hx
  | bad => exact hx

theorem vals_congr {d : Dict K A} {heap heap' : A → Option V}
    (h : ∀ k a, d k = some a → heap' a = heap a) : vals d heap' = vals d heap := by
  funext k
  unfold vals
  cases hk : d k with
  | none => rfl
  | some a => exact h k a hk

theorem vals_put {d : Dict K A} {heap : A → Option V} {k : K} {a : A} {v : V} (h : heap a = some v) :
    vals (d.put k a) heap = (vals d heap).put k v := by
  funext x
  unfold vals Dict.put
  split
  · exact h
  · rfl

theorem vals_set {d : Dict K A} {heap heap' : A → Option V} {k : K} {a : A} {v : V} (hk : d k = some a)
    (hinj : ∀ k', d k' = some a → k' = k) (ha : heap' a = some v)
    (ho : ∀ k b, d k = some b → b ≠ a → heap' b = heap b) :
    vals d heap' = (vals d heap).put k v := by
  funext x
  unfold vals Dict.put
  split
  · rename_i e; subst e; rw [hk]; exact ha
  · rename_i e
    show (d x).bind heap' = (d x).bind heap
    cases hx : d x with
    | none => rfl
    | some b => exact ho x b hx (fun hb => e (hinj x (hb ▸ hx)))

theorem base_value {op : HOp K V} {a : A} {o : Op K A} (h : op.base (some a) = some o) :
    ∃ v, op.value = some v ∧ o = .insert op.key a := by
  cases op <;> simp [HOp.base] at h
  · exact ⟨_, rfl, h.symm⟩
  · exact ⟨_, rfl, h.symm⟩

/-- The two kinds of calls of the table. -/
theorem base_cases {op : HOp K V} {own : Option A} {o : Op K A} (h : op.base own = some o) :
    (own = none ∧ (o = .find op.key ∨ o = .locate op.key) ∧ ((∃ k, op = .find k) ∨ ∃ k f, op = .update k f)) ∨
    ∃ a v, own = some a ∧ op.value = some v ∧ o = .insert op.key a ∧
      ((∃ k, op = .insert k v) ∨ ∃ k f, op = .insertOrUpdate k v f) := by
  cases op <;> cases own <;> simp [HOp.base] at h <;> subst h
  · exact .inl ⟨rfl, .inl rfl, .inl ⟨_, rfl⟩⟩
  · exact .inr ⟨_, _, rfl, rfl, rfl, .inl ⟨_, rfl⟩⟩
  · exact .inl ⟨rfl, .inr rfl, .inr ⟨_, _, rfl⟩⟩
  · exact .inr ⟨_, _, rfl, rfl, rfl, .inr ⟨_, _, rfl⟩⟩

/-- Calls on absent keys: not found, inserted, refused. -/
theorem legal_absent {full : Bool} {D : Dict K V} {op : HOp K V} (h : D op.key = none) :
    (((∃ k, op = .find k) ∨ ∃ k f, op = .update k f) → (valObj full).legal D op ⟨false, false, none⟩ D) ∧
    ∀ v, ((∃ k, op = .insert k v) ∨ ∃ k f, op = .insertOrUpdate k v f) →
      (valObj full).legal D op ⟨true, true, none⟩ (D.put op.key v) ∧
      (full = true → (valObj full).legal D op ⟨false, false, none⟩ D) := by
  constructor
  · rintro (⟨k, rfl⟩ | ⟨k, f, rfl⟩) <;> simp only [HOp.key] at h <;> simp [valObj, h]
  · rintro v (⟨k, rfl⟩ | ⟨k, f, rfl⟩) <;> simp only [HOp.key] at h <;> simp +contextual [valObj, h, HOp.key]

/-- Calls on present keys. -/
theorem legal_present {full : Bool} {D : Dict K V} {op : HOp K V} {w : V} (h : D op.key = some w) :
    (valObj full).legal D op (accessVal op w).2 (D.put op.key (accessVal op w).1) := by
  have hp : D.put op.key w = D := by
    funext x; unfold Dict.put; split
    · rename_i e; rw [e, h]
    · rfl
  cases op <;> simp only [HOp.key] at h hp <;> simp [valObj, h, HOp.key, accessVal, hp]

/-- One event of one thread. -/
theorem wf_step {O X : Type} {p q : T → Phase O X} {i : T} (hf : ∀ j, j ≠ i → q j = p j) :
    (∀ o, p i = .idle → q i = .called o → WellFormed p [.call i o] q) ∧
    (∀ o r, p i = .called o → q i = .effected o r → WellFormed p [.lin i o r] q) ∧
    (∀ o r, p i = .effected o r → q i = .idle → WellFormed p [.ret i o r] q) ∧
    (p i = q i → WellFormed p [] q) := by
  refine ⟨fun o h1 h2 => .call h1 h2 hf (.nil _), fun o r h1 h2 => .lin h1 h2 hf (.nil _),
    fun o r h1 h2 => .ret h1 h2 hf (.nil _), fun h => ?_⟩
  have : q = p := by
    funext j
    by_cases e : j = i
    · rw [e, h]
    · exact hf j e
  rw [this]; exact .nil _

/-- Other threads are not concerned. -/
theorem phase_other {ans : Op K A → R → Ans A} {thr : T → HThr K V A} {p : T → Phase (Op K A) R} {i : T}
    {x : HThr K V A} {y : Phase (Op K A) R} (j : T) (h : j ≠ i) :
    phaseOf ans (setAt thr i x j) (setAt p i y j) = phaseOf ans (thr j) (p j) := by
  rw [setAt_other h, setAt_other h]

theorem setAt_self {α : Type} {p : T → α} {i : T} {a : α} (h : p i = a) : setAt p i a = p :=
  (setAt_eq h fun _ _ => rfl).symm

/-- One thread moves. -/
theorem Inv.move {ans : Op K A → R → Ans A} {d d' : Dict K A} {ph : T → Phase (Op K A) R}
    {heap heap' : A → Option V} {refs refs' : K → A → Prop} {thr : T → HThr K V A}
    (hI : Inv ans ⟨(d, ph), heap, refs, thr⟩) {i : T} {x : HThr K V A} {y : Phase (Op K A) R}
    (hd : ∀ k a, d k = some a → d' k = some a) (hi : ThrOK ans d' x y)
    (hpub : ∀ k a, d' k = some a → ∃ v, heap' a = some v)
    (hinj : ∀ k k' a, d' k = some a → d' k' = some a → k = k')
    (hown : ∀ a, owns ans x y = some a → (∃ v, ownVal x = some v ∧ heap' a = some v) ∧
      (∀ k, d' k ≠ some a) ∧ ∀ j, j ≠ i → owns ans (thr j) (ph j) ≠ some a)
    (hoth : ∀ j b, j ≠ i → owns ans (thr j) (ph j) = some b → heap' b = heap b ∧ ∀ k, d' k ≠ some b)
    (hrefs : ∀ k a, refs' k a → d' k = some a)
    (hlive : ∀ a v, heap' a = some v → (∃ k, d' k = some a) ∨ owns ans x y = some a ∨
      ∃ j, j ≠ i ∧ owns ans (thr j) (ph j) = some a) :
    Inv ans ⟨(d', setAt ph i y), heap', refs', setAt thr i x⟩ := by
  constructor
  · intro j
    show ThrOK ans d' (setAt thr i x j) (setAt ph i y j)
    by_cases e : j = i
    · subst e; rw [setAt_same, setAt_same]; exact hi
    · rw [setAt_other e, setAt_other e]; exact (hI.thr j).mono hd
  · exact hpub
  · exact hinj
  · intro j a
    show owns ans (setAt thr i x j) (setAt ph i y j) = some a →
      (∃ v, ownVal (setAt thr i x j) = some v ∧ heap' a = some v) ∧ ∀ k, d' k ≠ some a
    by_cases e : j = i
    · subst e; rw [setAt_same, setAt_same]
      intro h
      exact ⟨(hown a h).1, (hown a h).2.1⟩
    · rw [setAt_other e, setAt_other e]
      intro h
      obtain ⟨h1, h2⟩ := hoth j a e h
      rw [h1]
      exact ⟨(hI.own j a h).1, h2⟩
  · intro j j' a
    show owns ans (setAt thr i x j) (setAt ph i y j) = some a →
      owns ans (setAt thr i x j') (setAt ph i y j') = some a → j = j'
    by_cases e : j = i
    · subst e
      by_cases e' : j' = j
      · intro _ _; exact e'.symm
      · rw [setAt_same, setAt_same, setAt_other e', setAt_other e']
        intro h1 h2
        exact absurd h2 ((hown a h1).2.2 j' e')
    · rw [setAt_other e, setAt_other e]
      by_cases e' : j' = i
      · subst e'
        rw [setAt_same, setAt_same]
        intro h1 h2
        exact absurd h1 ((hown a h2).2.2 j e)
      · rw [setAt_other e', setAt_other e']
        exact hI.one j j' a
  · exact hrefs
  · intro a v hv
    rcases hlive a v hv with h | h | ⟨j, hj, h⟩
    · exact .inl h
    · refine .inr ⟨i, ?_⟩
      show owns ans (setAt thr i x i) (setAt ph i y i) = some a
      rw [setAt_same, setAt_same]; exact h
    · refine .inr ⟨j, ?_⟩
      show owns ans (setAt thr i x j) (setAt ph i y j) = some a
      rw [setAt_other hj, setAt_other hj]; exact h

/-- Every step preserves the invariant and is explained by at most one event of the map of values. -/
theorem istep {full : Bool} {I : Obj (Op K A) R (Dict K A)} {ans : Op K A → R → Ans A} (hm : IsMap full I ans)
    {s s' : HSt (Dict K A × (T → Phase (Op K A) R)) T K V A} {e : Option (Ev T (HOp K V) (HRes V))}
    (hI : Inv ans s) (hs : HStep (IStep I) ans s e s') :
    Inv ans s' ∧ ∃ δ, visible δ = e.toList ∧
      WellFormed (fun i => phaseOf ans (s.thr i) (s.base.2 i)) δ (fun i => phaseOf ans (s'.thr i) (s'.base.2 i)) ∧
      Legal (valObj full) (vals s.base.1 s.heap) (effects δ) (vals s'.base.1 s'.heap) := by
  obtain ⟨⟨d, ph⟩, heap, refs, thr⟩ := s
  have hT := hI.thr
  have hO := hI.own
  have hP := hI.pub
  have hJ := hI.inj
  have hR := hI.refs
  have h1 := hI.one
  have hL : ∀ i a v, heap a = some v → (∃ k, d k = some a) ∨ owns ans (thr i) (ph i) = some a ∨
      ∃ j, j ≠ i ∧ owns ans (thr j) (ph j) = some a := by
    intro i a v hv
    rcases hI.live a v hv with h | ⟨j, h⟩
    · exact .inl h
    · by_cases e : j = i
      · subst e; exact .inr (.inl h)
      · exact .inr (.inr ⟨j, e, h⟩)
  simp only at hT hO hP hJ hR h1
  cases hs with
  | @call i op own o b h ho hf hb =>
    cases hb with
    | call hp =>
      simp only at h hf hp ⊢
      have hfresh : ∀ a, own = some a → (∀ k, d k ≠ some a) ∧ ∀ j, owns ans (thr j) (ph j) ≠ some a := by
        intro a ha
        refine ⟨fun k hk => ?_, fun j hj => ?_⟩
        · obtain ⟨v, hv⟩ := hP k a hk; rw [hf a ha] at hv; cases hv
        · obtain ⟨⟨v, -, hv⟩, -⟩ := hO j a hj; rw [hf a ha] at hv; cases hv
      have hkeep : ∀ a, (∃ v, heap a = some v) → setOwn heap own op.value a = heap a := by
        rintro a ⟨v, hv⟩
        unfold setOwn
        split
        · rename_i e; rw [hf a e] at hv; cases hv
        · rfl
      refine ⟨hI.move (fun _ _ h => h) ⟨o, ho, .inl rfl⟩ (fun k a hk => ?_) hJ (fun a ha => ?_)
        (fun j b hj hb => ?_) hR (fun a v hv => ?_), [.call i op], rfl, (wf_step (i := i) fun j hj => ?_).1 op ?_ ?_, ?_⟩
      · obtain ⟨v, hv⟩ := hP k a hk
        exact ⟨v, by rw [hkeep a ⟨v, hv⟩]; exact hv⟩
      · have ha' : own = some a := ha
        subst ha'
        obtain ⟨v, hv, -⟩ := base_value ho
        exact ⟨⟨v, hv, by simp [setOwn, hv]⟩, (hfresh a rfl).1, fun j _ => (hfresh a rfl).2 j⟩
      · obtain ⟨⟨v, -, hv⟩, h2⟩ := hO j b hb
        exact ⟨hkeep b ⟨v, hv⟩, h2⟩
      · by_cases e : own = some a
        · exact .inr (.inl e)
        · simp only [setOwn, if_neg e] at hv
          rcases hL i a v hv with h3 | h3 | h3
          · exact .inl h3
          · rw [h] at h3; cases h3
          · exact .inr (.inr h3)
      · exact phase_other j hj
      · rw [h]; rfl
      · rw [setAt_same, setAt_same]; rfl
      · have hv : vals d (setOwn heap own op.value) = vals d heap :=
          vals_congr fun k a hk => hkeep a (hP k a hk)
        show Legal _ _ [] (vals d (setOwn heap own op.value))
        rw [hv]; exact .nil _
  | @ref i op a h ho hr =>
    simp only at h hr ⊢
    have hp : ph i = .idle := by have := hT i; rw [h] at this; exact this
    have e := setAt_self hp
    have hM := hI.move (i := i) (x := .acc op none a) (y := .idle) (fun _ _ h => h) ⟨rfl, hR _ _ hr⟩ hP hJ
      (fun a ha => by cases ha) (fun j b hj hb => ⟨rfl, (hO j b hb).2⟩) hR (fun a v hv => by
        rcases hL i a v hv with h3 | h3 | h3
        · exact .inl h3
        · rw [h] at h3; cases h3
        · exact .inr (.inr h3))
    rw [e] at hM
    refine ⟨hM, [.call i op], rfl, (wf_step (i := i) fun j hj => ?_).1 op ?_ ?_, .nil _⟩
    · show phaseOf ans (setAt thr i _ j) _ = _
      rw [setAt_other hj]
    · rw [h]; rfl
    · rw [setAt_same]; rfl
  | @inner e b he hb =>
    cases hb with
    | call hp => rcases he with he | ⟨_, _, _, he⟩ <;> cases he
    | ret hp => rcases he with he | ⟨_, _, _, he⟩ <;> cases he
    | @lin _ d' _ i o r hp hl =>
      simp only at hp ⊢
      have hTi := hT i
      cases hthr : thr i with
      | idle => rw [hthr, hp] at hTi; cases hTi
      | acc op own a => rw [hthr, hp] at hTi; cases hTi.1
      | fin op x => rw [hthr, hp] at hTi; cases hTi
      | bad => rw [hthr] at hTi; exact hTi.elim
      | wait op own =>
        rw [hthr, hp] at hTi
        obtain ⟨o', ho, h2⟩ := hTi
        have : o' = o := by
          rcases h2 with h2 | ⟨r, h2, -⟩ <;> cases h2
          rfl
        subst this
        clear h2
        have ethr := setAt_self hthr
        have hown : ∀ a, own = some a → owns ans (thr i) (ph i) = some a := by
          intro a ha; rw [hthr, hp]; exact ha
        have hph : ∀ (δ : List (Ev T (HOp K V) (HRes V))) (y : Phase (Op K A) R),
            WellFormed (fun j => phaseOf ans (thr j) (ph j)) δ
              (fun j => phaseOf ans (setAt thr i (.wait op own) j) (setAt ph i y j)) →
            WellFormed (fun j => phaseOf ans (thr j) (ph j)) δ
              (fun j => phaseOf ans (thr j) (setAt ph i y j)) := by
          intro δ y h; rw [ethr] at h; exact h
        have hci : phaseOf ans (thr i) (ph i) = .called op := by rw [hthr, hp]; rfl
        have hkeep : ∀ (hpost : Post d op own (ans o' r)),
            owns ans (.wait op own : HThr K V A) (.effected o' r) = own →
            Inv ans ⟨(d, setAt ph i (.effected o' r)), heap, refs, thr⟩ := by
          intro hpost how
          have hM := hI.move (i := i) (x := .wait op own) (y := .effected o' r) (fun _ _ h => h)
            ⟨o', ho, .inr ⟨r, rfl, hpost⟩⟩ hP hJ (fun a ha => by
              have h3 := hown a (how ▸ ha)
              obtain ⟨h4, h5⟩ := hO i a h3
              rw [hthr] at h4
              exact ⟨h4, h5, fun j hj hj' => hj (h1 j i a hj' h3)⟩)
            (fun j b hj hb => ⟨rfl, (hO j b hb).2⟩) hR (fun a v hv => by
              rcases hL i a v hv with h3 | h3 | h3
              · exact .inl h3
              · rw [hthr, hp] at h3
                exact .inr (.inl (how.trans h3))
              · exact .inr (.inr h3))
          rw [ethr] at hM
          exact hM
        rcases base_cases ho with ⟨rfl, ho', hop⟩ | ⟨a, v, rfl, hv, ho', hop⟩
        · obtain ⟨rfl, ⟨a, hk, ha⟩ | ⟨hk, ha⟩⟩ := hm.look ho' hl
          · refine ⟨hkeep (by rw [ha]; exact hk) (by simp only [owns, ha]), [], rfl, hph _ _ ((wf_step (i := i) fun j hj => ?_).2.2.2 ?_),
              .nil _⟩
            · exact phase_other j hj
            · show phaseOf ans (thr i) (ph i) = _
              rw [hci, setAt_same, setAt_same]; simp only [phaseOf, ha]
          · refine ⟨hkeep (by rw [ha]; exact rfl) (by simp only [owns, ha]), [.lin i op ⟨false, false, none⟩], rfl,
              hph _ _ ((wf_step (i := i) fun j hj => ?_).2.1 op _ ?_ ?_), .cons ?_ (.nil _)⟩
            · exact phase_other j hj
            · exact hci
            · rw [setAt_same, setAt_same]; simp only [phaseOf, ha]
            · exact (legal_absent (by simp [vals, hk])).1 hop
        · subst ho'
          have hoa := hown a rfl
          obtain ⟨⟨v', hv', hav⟩, hna⟩ := hO i a hoa
          rw [hthr] at hv'
          have : v' = v := by
            have h3 : op.value = some v' := hv'
            rw [hv] at h3; cases h3; rfl
          subst this
          rcases hm.ins hl with ⟨hk, rfl, ha⟩ | ⟨b, hk, rfl, ha⟩ | ⟨hfull, hk, rfl, ha⟩
          · have hput : ∀ x c, (d.put op.key a) x = some c → (x = op.key ∧ c = a) ∨ (x ≠ op.key ∧ d x = some c) := by
              intro x c hx
              unfold Dict.put at hx
              split at hx
              · rename_i e; cases hx; exact .inl ⟨e, rfl⟩
              · rename_i e; exact .inr ⟨e, hx⟩
            have hM := hI.move (i := i) (x := .wait op (some a)) (y := .effected (.insert op.key a) r)
              (d' := d.put op.key a) (heap' := heap) (refs' := refs)
              (fun x c hx => by
                unfold Dict.put; split
                · rename_i e; rw [e, hk] at hx; cases hx
                · exact hx)
              ⟨_, ho, .inr ⟨r, rfl, by rw [ha]; exact ⟨a, rfl, by simp [Dict.put]⟩⟩⟩
              (fun x c hx => by
                rcases hput x c hx with ⟨rfl, rfl⟩ | ⟨-, hx⟩
                · exact ⟨_, hav⟩
                · exact hP x c hx)
              (fun x y c hx hy => by
                rcases hput x c hx with ⟨rfl, rfl⟩ | ⟨-, hx'⟩ <;> rcases hput y _ hy with ⟨rfl, e⟩ | ⟨-, hy'⟩
                · rfl
                · exact absurd hy' (hna y)
                · subst e; exact absurd hx' (hna x)
                · exact hJ x y c hx' hy')
              (fun c hc => by simp only [owns, ha] at hc; cases hc)
              (fun j b hj hb => ⟨rfl, fun x hx => by
                rcases hput x b hx with ⟨rfl, rfl⟩ | ⟨-, hx'⟩
                · exact hj (h1 j i _ hb hoa)
                · exact (hO j b hb).2 x hx'⟩)
              (fun x c hx => by
                have h3 := hR x c hx
                unfold Dict.put; split
                · rename_i e; rw [e, hk] at h3; cases h3
                · exact h3)
              (fun c v hv => by
                rcases hL i c v hv with ⟨x, h3⟩ | h3 | h3
                · refine .inl ⟨x, ?_⟩
                  unfold Dict.put; split
                  · rename_i e; rw [e, hk] at h3; cases h3
                  · exact h3
                · rw [hoa] at h3; cases h3
                  exact .inl ⟨op.key, by simp [Dict.put]⟩
                · exact .inr (.inr h3))
            rw [ethr] at hM
            refine ⟨hM, [.lin i op ⟨true, true, none⟩], rfl,
              hph _ _ ((wf_step (i := i) fun j hj => ?_).2.1 op _ ?_ ?_), .cons ?_ (.nil _)⟩
            · exact phase_other j hj
            · exact hci
            · rw [setAt_same, setAt_same]; simp only [phaseOf, ha]
            · rw [vals_put hav]
              exact ((legal_absent (by simp [vals, hk])).2 _ hop).1
          · refine ⟨hkeep (by rw [ha]; exact hk) (by simp only [owns, ha]), [], rfl, hph _ _ ((wf_step (i := i) fun j hj => ?_).2.2.2 ?_),
              .nil _⟩
            · exact phase_other j hj
            · show phaseOf ans (thr i) (ph i) = _
              rw [hci, setAt_same, setAt_same]; simp only [phaseOf, ha]
          · refine ⟨hkeep (by rw [ha]; trivial) (by simp only [owns, ha]), [.lin i op ⟨false, false, none⟩], rfl,
              hph _ _ ((wf_step (i := i) fun j hj => ?_).2.1 op _ ?_ ?_), .cons ?_ (.nil _)⟩
            · exact phase_other j hj
            · exact hci
            · rw [setAt_same, setAt_same]; simp only [phaseOf, ha]
            · exact ((legal_absent (by simp [vals, hk])).2 _ hop).2 hfull
  | @bret i op own o r b h hb =>
    cases hb with
    | ret hp =>
      simp only at h hp ⊢
      have hTi := hT i
      rw [h, hp] at hTi
      obtain ⟨o', ho, h2⟩ := hTi
      rcases h2 with h2 | ⟨r', h2, hpost⟩ <;> cases h2
      have hoo : owns ans (thr i) (ph i) = owns ans (.wait op own : HThr K V A) (.effected o r) := by rw [h, hp]
      have hpi : phaseOf ans (thr i) (ph i) = phaseOf ans (.wait op own : HThr K V A) (.effected o r) := by
        rw [h, hp]
      have hvi : ∀ x, ownVal (thr i) = some x ↔ op.value = some x := by intro x; rw [h]; exact Iff.rfl
      -- all that is left to show, for the next state `x` of the thread and the element `fr` it frees
      have fin : ∀ (x : HThr K V A) (fr : Option A) (sh : Option A),
          (∀ a, fr = some a → owns ans (thr i) (ph i) = some a) →
          ThrOK ans d x (.idle : Phase (Op K A) R) → ownVal x = none ∨ ownVal x = op.value →
          (∀ a, owns ans x (.idle : Phase (Op K A) R) = some a →
            owns ans (thr i) (ph i) = some a ∧ fr = none ∧ ownVal x = op.value) →
          (∀ a, owns ans (thr i) (ph i) = some a → fr = some a ∨ owns ans x (.idle : Phase (Op K A) R) = some a) →
          (∀ a, sh = some a → d op.key = some a) →
          phaseOf ans x (.idle : Phase (Op K A) R) = phaseOf ans (thr i) (ph i) →
          Inv ans ⟨(d, setAt ph i .idle), setOwn heap fr none, fun k a => refs k a ∨ k = op.key ∧ sh = some a,
            setAt thr i x⟩ ∧
          ∃ δ, visible δ = (none : Option (Ev T (HOp K V) (HRes V))).toList ∧
            WellFormed (fun i => phaseOf ans (thr i) (ph i)) δ
              (fun j => phaseOf ans (setAt thr i x j) (setAt ph i .idle j)) ∧
            Legal (valObj full) (vals d heap) (effects δ) (vals d (setOwn heap fr none)) := by
        intro x fr sh hfr hok hv how hgive hsh hph
        have hother : ∀ b, (∀ a, owns ans (thr i) (ph i) = some a → b ≠ a) → setOwn heap fr none b = heap b := by
          intro b hb
          unfold setOwn
          split
          · rename_i e; exact absurd rfl (hb b (hfr b e))
          · rfl
        have hpub : ∀ k a, d k = some a → setOwn heap fr none a = heap a := by
          intro k a hk
          refine hother a fun c hc e => ?_
          subst e
          exact (hO i _ hc).2 k hk
        refine ⟨hI.move (fun _ _ h => h) hok (fun k a hk => ?_) hJ (fun a ha => ?_) (fun j b hj hb => ?_) ?_
          (fun a v hv => ?_), [], rfl, (wf_step (i := i) fun j hj => ?_).2.2.2 ?_, ?_⟩
        · rw [hpub k a hk]; exact hP k a hk
        · obtain ⟨h3, h4, h6⟩ := how a ha
          obtain ⟨⟨v, h7, h8⟩, h5⟩ := hO i a h3
          refine ⟨⟨v, ?_, ?_⟩, h5, fun j hj hj' => hj (h1 j i a hj' h3)⟩
          · rw [h6]; exact (hvi v).1 h7
          · rw [h4]; exact h8
        · refine ⟨hother b fun c hc e => ?_, (hO j b hb).2⟩
          subst e
          exact hj (h1 j i _ hb hc)
        · rintro k a (h3 | ⟨rfl, h3⟩)
          · exact hR k a h3
          · exact hsh a h3
        · by_cases e : fr = some a
          · simp only [setOwn, if_pos e] at hv; cases hv
          · simp only [setOwn, if_neg e] at hv
            rcases hL i a v hv with h3 | h3 | h3
            · exact .inl h3
            · exact .inr (.inl ((hgive a h3).resolve_left e))
            · exact .inr (.inr h3)
        · exact phase_other j hj
        · rw [setAt_same, setAt_same]; exact hph.symm
        · rw [vals_congr hpub]; exact .nil _
      cases hans : ans o r with
      | inserted =>
        rw [hans] at hpost
        obtain ⟨a, rfl, hk⟩ := hpost
        have ho0 : owns ans (thr i) (ph i) = none := by rw [hoo]; simp only [owns, hans]
        have hp0 : phaseOf ans (thr i) (ph i) = .effected op ⟨true, true, none⟩ := by
          rw [hpi]; simp only [phaseOf, hans]
        rcases base_cases ho with ⟨h, -⟩ | ⟨-, v, -, hv, -, ⟨k, rfl⟩ | ⟨k, f, rfl⟩⟩
        · cases h
        · exact fin _ _ _ nofun rfl (.inl rfl) nofun (by rw [ho0]; nofun) nofun hp0.symm
        · exact fin _ _ _ nofun rfl (.inl rfl) nofun (by rw [ho0]; nofun) (fun a ha => by cases ha; exact hk) hp0.symm
      | found a =>
        rw [hans] at hpost
        have ho0 : owns ans (thr i) (ph i) = own := by rw [hoo]; simp only [owns, hans]
        have hp0 : phaseOf ans (thr i) (ph i) = .called op := by rw [hpi]; simp only [phaseOf, hans]
        have hsh : ∀ b, shownAddr op own (.found a) = some b → d op.key = some b := by
          intro b hb; cases hb; exact hpost
        cases op with
        | find k =>
          refine fin _ _ _ nofun ⟨rfl, hpost⟩ (.inr rfl) nofun ?_ hsh hp0.symm
          rw [ho0]; cases own <;> simp [HOp.base] at ho ⊢
        | update k f =>
          refine fin _ _ _ nofun ⟨rfl, hpost⟩ (.inr rfl) nofun ?_ hsh hp0.symm
          rw [ho0]; cases own <;> simp [HOp.base] at ho ⊢
        | insert k v =>
          exact fin _ _ _ (fun b hb => by rw [ho0]; exact hb) ⟨rfl, hpost⟩ (.inr rfl) nofun
            (fun b hb => .inl (by rw [ho0] at hb; exact hb)) hsh hp0.symm
        | insertOrUpdate k v f =>
          exact fin _ _ _ nofun ⟨rfl, hpost⟩ (.inr rfl) (fun b hb => ⟨by rw [ho0]; exact hb, rfl, rfl⟩)
            (fun b hb => .inr (by rw [ho0] at hb; exact hb)) hsh hp0.symm
      | absent =>
        rw [hans] at hpost
        have hn : own = none := hpost
        have ho0 : owns ans (thr i) (ph i) = none := by rw [hoo]; simp only [owns, hans, hn]
        have hp0 : phaseOf ans (thr i) (ph i) = .effected op ⟨false, false, none⟩ := by
          rw [hpi]; simp only [phaseOf, hans]
        exact fin _ _ _ nofun rfl (.inl rfl) nofun (by rw [ho0]; nofun) nofun hp0.symm
      | refused =>
        have ho0 : owns ans (thr i) (ph i) = own := by rw [hoo]; simp only [owns, hans]
        have hp0 : phaseOf ans (thr i) (ph i) = .effected op ⟨false, false, none⟩ := by
          rw [hpi]; simp only [phaseOf, hans]
        exact fin _ _ _ (fun b hb => by rw [ho0]; exact hb) rfl (.inl rfl) nofun
          (fun b hb => .inl (by rw [ho0] at hb; exact hb)) nofun hp0.symm
  | @access i op own a w h hw =>
    simp only at h hw ⊢
    have hTi := hT i
    rw [h] at hTi
    obtain ⟨hp, hk⟩ := hTi
    have e := setAt_self hp
    have hoi : owns ans (thr i) (ph i) = own := by rw [h]; rfl
    have hna : own ≠ some a := by
      intro e; exact (hO i a (by rw [hoi]; exact e)).2 _ hk
    have hat : setOwn (setAt heap a (some (accessVal op w).1)) own none a = some (accessVal op w).1 := by
      unfold setOwn; rw [if_neg hna, setAt_same]
    have hother : ∀ b, b ≠ a → own ≠ some b →
        setOwn (setAt heap a (some (accessVal op w).1)) own none b = heap b := by
      intro b hb hb'; unfold setOwn; rw [if_neg hb', setAt_other hb]
    have hpo : ∀ k b, d k = some b → own ≠ some b := by
      intro k b hkb e; exact (hO i b (by rw [hoi]; exact e)).2 k hkb
    have hM := hI.move (i := i) (x := .fin op (accessVal op w).2) (y := .idle)
      (heap' := setOwn (setAt heap a (some (accessVal op w).1)) own none) (fun _ _ h => h) rfl
      (fun k b hkb => by
        by_cases hb : b = a
        · subst hb; exact ⟨_, hat⟩
        · rw [hother b hb (hpo k b hkb)]; exact hP k b hkb)
      hJ (fun a ha => by cases ha)
      (fun j b hj hb => ⟨hother b (fun e => by subst e; exact (hO j b hb).2 _ hk)
        (fun e => hj (h1 j i b hb (by rw [hoi]; exact e))), (hO j b hb).2⟩) hR
      (fun b v hv => by
        by_cases hb : b = a
        · subst hb; exact .inl ⟨_, hk⟩
        · by_cases e : own = some b
          · simp only [setOwn, if_pos e] at hv; cases hv
          · rw [hother b hb e] at hv
            rcases hL i b v hv with h3 | h3 | h3
            · exact .inl h3
            · rw [hoi] at h3; exact absurd h3 e
            · exact .inr (.inr h3))
    rw [e] at hM
    refine ⟨hM, [.lin i op (accessVal op w).2], rfl, (wf_step (i := i) fun j hj => ?_).2.1 op _ ?_ ?_,
      .cons ?_ (.nil _)⟩
    · show phaseOf ans (setAt thr i _ j) _ = _
      rw [setAt_other hj]
    · rw [h]; rfl
    · rw [setAt_same]; rfl
    · rw [vals_set hk (fun k' hk' => hJ _ _ _ hk' hk) hat (fun k b hkb hb => hother b hb (hpo k b hkb))]
      exact legal_present (by simp [vals, hk, hw])
  | @wild i op own a h hw =>
    simp only at h hw
    have := hT i
    rw [h] at this
    obtain ⟨v, hv⟩ := hP _ _ this.2
    rw [hw] at hv; cases hv
  | @ret i op x h =>
    simp only at h ⊢
    have hp : ph i = .idle := by have := hT i; rw [h] at this; exact this
    have e := setAt_self hp
    have hM := hI.move (i := i) (x := .idle) (y := .idle) (fun _ _ h => h) rfl hP hJ
      (fun a ha => by cases ha) (fun j b hj hb => ⟨rfl, (hO j b hb).2⟩) hR (fun a v hv => by
        rcases hL i a v hv with h3 | h3 | h3
        · exact .inl h3
        · rw [h] at h3; cases h3
        · exact .inr (.inr h3))
    rw [e] at hM
    refine ⟨hM, [.ret i op x], rfl, (wf_step (i := i) fun j hj => ?_).2.2.1 op x ?_ ?_, .nil _⟩
    · show phaseOf ans (setAt thr i _ j) _ = _
      rw [setAt_other hj]
    · rw [h]; rfl
    · rw [setAt_same]; rfl

/-- No element, no call. -/
theorem Inv.init {I : Obj (Op K A) R (Dict K A)} {full : Bool} {ans : Op K A → R → Ans A} (hm : IsMap full I ans) :
    Inv (V := V) ans (HSt.init (I.init, fun _ : T => .idle)) := by
  have hd : ∀ k, I.init k = none := by rw [hm.init]; exact fun _ => rfl
  constructor
  · intro i; exact rfl
  · intro k a h
    have h' : I.init k = some a := h
    rw [hd k] at h'; cases h'
  · intro k k' a h
    have h' : I.init k = some a := h
    rw [hd k] at h'; cases h'
  · intro i a h; cases h
  · intro i j a h; cases h
  · intro k a h; exact h.elim
  · intro a v h; cases h

theorem iexec {full : Bool} {I : Obj (Op K A) R (Dict K A)} {ans : Op K A → R → Ans A} (hm : IsMap full I ans)
    {l : List (Ev T (HOp K V) (HRes V))} {s : HSt (Dict K A × (T → Phase (Op K A) R)) T K V A}
    (h : Exec (HStep (IStep I) ans) (HSt.init (I.init, fun _ => .idle)) l s) :
    Inv ans s ∧ ∃ L, visible L = l ∧
      WellFormed (fun _ => .idle) L (fun i => phaseOf ans (s.thr i) (s.base.2 i)) ∧
      Legal (valObj full) (fun _ => none) (effects L) (vals s.base.1 s.heap) := by
  induction h with
  | init =>
    refine ⟨Inv.init hm, [], rfl, .nil _, ?_⟩
    have : vals I.init (fun _ : A => (none : Option V)) = fun _ => none := by
      rw [hm.init]; rfl
    show Legal _ _ [] (vals I.init (fun _ : A => (none : Option V)))
    rw [this]; exact .nil _
  | silent _ hs ih =>
    obtain ⟨hI, L, rfl, hw, hl⟩ := ih
    obtain ⟨hI', δ, h1, h2, h3⟩ := istep hm hI hs
    refine ⟨hI', L ++ δ, ?_, hw.append h2, ?_⟩
    · rw [visible_append, h1]; exact List.append_nil _
    · rw [effects_append]; exact hl.append h3
  | vis _ hs ih =>
    obtain ⟨hI, L, rfl, hw, hl⟩ := ih
    obtain ⟨hI', δ, h1, h2, h3⟩ := istep hm hI hs
    refine ⟨hI', L ++ δ, ?_, hw.append h2, ?_⟩
    · rw [visible_append, h1]; rfl
    · rw [effects_append]; exact hl.append h3

end

section
variable {S T K V A R : Type} [DecidableEq T] [DecidableEq K] [DecidableEq A]

/-- The composition of a linearizable table of addresses with the heap is a linearizable map of values, and
no freed element is accessed. -/
theorem compose {full : Bool} {B : S → Option (Ev T (Op K A) R) → S → Prop} {b0 : S}
    {I : Obj (Op K A) R (Dict K A)} {ans : Op K A → R → Ans A} (hm : IsMap full I ans)
    (hB : ∀ l b, Exec B b0 l b → Linearizable I (visible l)) {l : List (Ev T (HOp K V) (HRes V))}
    {s : HSt S T K V A} (h : Exec (HStep B ans) (HSt.init b0) l s) :
    ∃ L p d ph, visible L = l ∧ WellFormed (fun _ => .idle) L p ∧
      Legal (valObj full) (fun _ => none) (effects L) (vals d s.heap) ∧
      Inv ans ⟨(d, ph), s.heap, s.refs, s.thr⟩ := by
  obtain ⟨lb, hb, hc⟩ := replace (B' := IStep I) (b0' := (I.init, fun _ => .idle)) h
  obtain ⟨x, hx⟩ := ideal_exec (hB lb _ hb)
  obtain ⟨hI, L, h1, h2, h3⟩ := iexec hm (hc _ x hx (visible_idem lb))
  exact ⟨L, _, x.1, x.2, h1, h2, h3, hI⟩

end

end Growt.HeapVal
