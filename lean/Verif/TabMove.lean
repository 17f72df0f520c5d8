import Verif.Mapper

/-!
# Moving table objects

Constructors, move constructor, move assignment and destructor of the tables without handles:
`base_linear` (also as the base class of `seq_linear`, whose move operations are the implicit ones) and
`TSXCircular`.  The state has the objects, the arrays obtained from the allocator, and the heap blocks of
elements.  Null pointers, wrong sizes and double releases show as the outcome `bad`.

The specification `specRun` says who has which elements; it knows neither pointers nor memory.
-/

set_option linter.unusedSectionVars false

namespace Growt
namespace TabMove

/-- Contents of the slots: for heap slots the address of the block of the element, else its value
(`base_linear.hpp:248`, `tsx_circular.hpp:139`). -/
abbrev Slots := Nat → Option Nat

/-- An array obtained from the allocator, with the size asked for (`base_linear.hpp:402-403`,
`tsx_circular.hpp:257-265`). -/
structure Arr where
  size : Nat
  slots : Slots

/-- A table object: `_table`, what `_mapper.total_slots()` yields, `_version` (`base_linear.hpp:248-254`);
resp. `t`, `capacity`, `version` (`tsx_circular.hpp:114-139`).  The allocator and the hash function are
taken to be without state (they are not moved, `base_linear.hpp:454-456`); nobody migrates, so
`_current_copy_block` is 0. -/
structure Obj where
  table : Option Nat
  total : Nat
  version : Nat

/-- What differs between the classes: whether the destructor calls `slot_cleanup` (`base_linear.hpp:52,
444`), the number of slots a moved-from object believes to have, and whether move assignment swaps the
arrays (`tsx_circular.hpp:302-320`) instead of destroying its target first (`base_linear.hpp:464-471`). -/
structure Cfg where
  clean : Bool
  rest : Nat
  swaps : Bool

/-- `mapper_type()` (`base_linear.hpp:79`); `_grow_helper` is not initialised (`g`). -/
def defaultMapper (cm cp : Bool) (g : Nat) : Mapper := ⟨cm, cp, 0, 0, g⟩

/-- `base_linear` and `seq_linear` (`base_linear.hpp:440-471`; `seq_linear.hpp:149-263` declares no
destructor and no move operations, so the implicit ones do the same to the base class and copy the two
counters). -/
def base (cm cp clean : Bool) (g : Nat) : Cfg := ⟨clean, (defaultMapper cm cp g).total, false⟩

/-- `TSXCircular` (`tsx_circular.hpp:279-323`). -/
def tsx : Cfg := ⟨false, 0, true⟩

/-- Objects, arrays and blocks. (no code: the memory of the program) -/
structure St where
  objs : Nat → Option Obj
  arrs : Nat → Option Arr
  blocks : Nat → Bool

/-- The start of a program. (no code) -/
def St.init : St := ⟨fun _ => none, fun _ => none, fun _ => false⟩

/-- What a program does with its table objects: construct one with `n` slots, in which the allocator
returns the array `a` (`base_linear.hpp:396-411`, `tsx_circular.hpp:257-276`); insert an element into slot
`p` (`base_linear.hpp:556-602`); `j(std::move(i))`; `j = std::move(i)`; destroy `i`. -/
inductive Act where
  | make (i n a : Nat)
  | put (i p b : Nat)
  | construct (i j : Nat)
  | assign (i j : Nat)
  | destroy (i : Nat)

/-- Outcome: a state, undefined behaviour, or not a program (an object that does not exist or exists
already, memory that was not free). (no code) -/
inductive Out where
  | ok (s : St)
  | bad
  | illegal

/-- Changing a function in one place. (no code) -/
def set {X : Type} (f : Nat → X) (i : Nat) (x : X) : Nat → X := fun j => if j = i then x else f j

/-- The loop of `slot_cleanup` (`base_linear.hpp:353-358`): frees the blocks. -/
def cleanup (sl : Slots) : List Nat → (Nat → Bool) → Option (Nat → Bool)
  | [], h => some h
  | p :: ps, h =>
    match sl p with
    | none => cleanup sl ps h
    | some b => if h b then cleanup sl ps (set h b false) else none

/-- `slot_cleanup` of an object (`base_linear.hpp:353-358`): the first iteration already reads
`_table[0]`. -/
def slotCleanup (s : St) (o : Obj) : Option (Nat → Bool) :=
  if o.total = 0 then some s.blocks
  else
    match o.table with
    | none => none
    | some a =>
      match s.arrs a with
      | none => none
      | some A => if o.total ≤ A.size then cleanup A.slots (List.range o.total) s.blocks else none

/-- The destructor (`base_linear.hpp:440-450`, `tsx_circular.hpp:279-283`; releasing a null pointer does
nothing).  Releasing with another size than the allocated one is undefined. -/
def dtor (c : Cfg) (s : St) (o : Obj) : Option St :=
  match (if c.clean then slotCleanup s o else some s.blocks) with
  | none => none
  | some h =>
    match o.table with
    | none => some { s with blocks := h }
    | some a =>
      match s.arrs a with
      | none => none
      | some A => if A.size = o.total then some { s with arrs := set s.arrs a none, blocks := h } else none

/-- What the move constructor leaves behind (`base_linear.hpp:460-461`, `tsx_circular.hpp:294-297`). -/
def left (c : Cfg) (o : Obj) : Obj := ⟨none, c.rest, o.version⟩

/-- Move assignment `j = std::move(i)`: `base_linear.hpp:464-471` destroys the target and constructs it
anew; `tsx_circular.hpp:302-320` copies the sizes and swaps the arrays, also when `i = j`. -/
def moveAssign (c : Cfg) (s : St) (i j : Nat) (o q : Obj) : Option St :=
  if c.swaps then
    if i = j then some { s with objs := set s.objs i (some ⟨o.table, 0, o.version⟩) }
    else some { s with objs := set (set s.objs j (some ⟨o.table, o.total, o.version⟩)) i
                                (some ⟨q.table, 0, o.version⟩) }
  else
    if i = j then some s
    else
      match dtor c s q with
      | none => none
      | some s' => some { s' with objs := set (set s'.objs j (some o)) i (some (left c o)) }

/-- One action of the program (`base_linear.hpp:396-471`, `tsx_circular.hpp:257-320`). -/
def step (c : Cfg) (s : St) : Act → Out
  | .make i n a =>
    match s.objs i, s.arrs a with
    | none, none => .ok ⟨set s.objs i (some ⟨some a, n, 0⟩), set s.arrs a (some ⟨n, fun _ => none⟩), s.blocks⟩
    | _, _ => .illegal
  | .put i p b =>
    match s.objs i with
    | none => .illegal
    | some o =>
      match o.table with
      | none => .bad
      | some a =>
        match s.arrs a with
        | none => .bad
        | some A =>
          if p < A.size then
            if A.slots p = none ∧ (c.clean = true → s.blocks b = false) then
              .ok ⟨s.objs, set s.arrs a (some ⟨A.size, set A.slots p (some b)⟩),
                if c.clean then set s.blocks b true else s.blocks⟩
            else .illegal
          else .bad
  | .construct i j =>
    match s.objs i, s.objs j with
    | some o, none => .ok { s with objs := set (set s.objs j (some o)) i (some (left c o)) }
    | _, _ => .illegal
  | .assign i j =>
    match s.objs i, s.objs j with
    | some o, some q =>
      match moveAssign c s i j o q with
      | none => .bad
      | some s' => .ok s'
    | _, _ => .illegal
  | .destroy i =>
    match s.objs i with
    | none => .illegal
    | some o =>
      match dtor c s o with
      | none => .bad
      | some s' => .ok { s' with objs := set s'.objs i none }

/-- A program. (no code) -/
def run (c : Cfg) : St → List Act → Out
  | s, [] => .ok s
  | s, x :: l =>
    match step c s x with
    | .ok s' => run c s' l
    | .bad => .bad
    | .illegal => .illegal

/-! ## Specification -/

/-- What an object has: `none` after it has been moved from, else its number of slots and its elements
(specification of `_table`, `_mapper`, `base_linear.hpp:248-250`). -/
abbrev Has := Option (Nat × Slots)

/-- The objects that exist and what they have (specification of the objects of `base_linear.hpp:32-388`
and `tsx_circular.hpp:37-250`). -/
abbrev World := Nat → Option Has

/-- The meaning of an action; `none`: the program must not do this (specification of `base_linear.hpp:396-471`
and `tsx_circular.hpp:257-320`). -/
def spec (w : World) : Act → Option World
  | .make i n _ => if (w i).isNone then some (set w i (some (some (n, fun _ => none)))) else none
  | .put i p b =>
    match w i with
    | some (some (n, sl)) =>
      if p < n ∧ sl p = none then some (set w i (some (some (n, set sl p (some b))))) else none
    | _ => none
  | .construct i j =>
    match w i, w j with
    | some x, none => some (set (set w j (some x)) i (some none))
    | _, _ => none
  | .assign i j =>
    match w i, w j with
    | some x, some _ => if i = j then some w else some (set (set w j (some x)) i (some none))
    | _, _ => none
  | .destroy i => if (w i).isSome then some (set w i none) else none

/-- The meaning of a program (specification, see `spec`: `base_linear.hpp:396-471`). -/
def specRun : World → List Act → Option World
  | w, [] => some w
  | w, x :: l =>
    match spec w x with
    | some w' => specRun w' l
    | none => none

/-- What an object has in the memory: the members `_table`, `_mapper` (`base_linear.hpp:248-250`). -/
def view (s : St) (i : Nat) : Option Has :=
  (s.objs i).map fun o => o.table.bind fun a => (s.arrs a).map fun A => (o.total, A.slots)

/-! ## Invariant -/

theorem set_same {X : Type} (f : Nat → X) (i : Nat) (x : X) : set f i x i = x := if_pos rfl

theorem set_other {X : Type} (f : Nat → X) {i j : Nat} (x : X) (h : j ≠ i) : set f i x j = f j := if_neg h

/-- The arrays are owned by exactly one object, their sizes are right; objects without an array have the
size of a moved-from object (`base_linear.hpp:79, 440-471`). -/
structure Own (c : Cfg) (s : St) : Prop where
  have_ : ∀ i o a, s.objs i = some o → o.table = some a → ∃ A, s.arrs a = some A ∧ A.size = o.total
  rest : ∀ i o, s.objs i = some o → o.table = none → o.total = c.rest
  inj : ∀ i j o q a, s.objs i = some o → s.objs j = some q → o.table = some a → q.table = some a → i = j
  all : ∀ a A, s.arrs a = some A → ∃ i o, s.objs i = some o ∧ o.table = some a

/-- The blocks are those in the slots, each in one slot (invariant of `slot_cleanup`,
`base_linear.hpp:353-358`). -/
structure Blk (s : St) : Prop where
  have_ : ∀ a A p b, s.arrs a = some A → A.slots p = some b → p < A.size ∧ s.blocks b = true
  inj : ∀ a A p a' A' p' b, s.arrs a = some A → A.slots p = some b → s.arrs a' = some A' →
    A'.slots p' = some b → a = a' ∧ p = p'
  all : ∀ b, s.blocks b = true → ∃ a A p, s.arrs a = some A ∧ A.slots p = some b

theorem cleanup_ok (sl : Slots) : ∀ (ps : List Nat) (h : Nat → Bool), ps.Nodup →
    (∀ p b, p ∈ ps → sl p = some b → h b = true) →
    (∀ p q b, p ∈ ps → q ∈ ps → sl p = some b → sl q = some b → p = q) →
    ∃ h', cleanup sl ps h = some h' ∧
      ∀ b, h' b = true ↔ h b = true ∧ ¬ ∃ p, p ∈ ps ∧ sl p = some b
  | [], h, _, _, _ => ⟨h, rfl, fun b => by simp⟩
  | p :: ps, h, hn, hh, hi => by
    have hn' := List.nodup_cons.mp hn
    cases hp : sl p with
    | none =>
      obtain ⟨h', e, hb⟩ := cleanup_ok sl ps h hn'.2 (fun q b hq => hh q b (List.mem_cons_of_mem _ hq))
        (fun q r b hq hr => hi q r b (List.mem_cons_of_mem _ hq) (List.mem_cons_of_mem _ hr))
      refine ⟨h', by simp [cleanup, hp, e], fun b => ?_⟩
      rw [hb]
      constructor
      · rintro ⟨h1, h2⟩
        refine ⟨h1, ?_⟩
        rintro ⟨q, hq, e⟩
        cases List.mem_cons.mp hq with
        | inl hq => rw [hq, hp] at e; cases e
        | inr hq => exact h2 ⟨q, hq, e⟩
      · rintro ⟨h1, h2⟩
        exact ⟨h1, fun ⟨q, hq, e⟩ => h2 ⟨q, List.mem_cons_of_mem _ hq, e⟩⟩
    | some b₀ =>
      have hb₀ := hh p b₀ (List.mem_cons_self ..) hp
      obtain ⟨h', e, hb⟩ := cleanup_ok sl ps (set h b₀ false) hn'.2
        (fun q b hq hs => by
          have hne : b ≠ b₀ := by
            rintro rfl
            exact hn'.1 (hi p q b (List.mem_cons_self ..) (List.mem_cons_of_mem _ hq) hp hs ▸ hq)
          rw [set_other _ _ hne]
          exact hh q b (List.mem_cons_of_mem _ hq) hs)
        (fun q r b hq hr => hi q r b (List.mem_cons_of_mem _ hq) (List.mem_cons_of_mem _ hr))
      refine ⟨h', by simp [cleanup, hp, hb₀, e], fun b => ?_⟩
      rw [hb]
      by_cases hbb : b = b₀
      · subst hbb
        rw [set_same]
        constructor
        · rintro ⟨h1, _⟩; cases h1
        · rintro ⟨_, h2⟩; exact absurd ⟨p, List.mem_cons_self .., hp⟩ h2
      · rw [set_other _ _ hbb]
        constructor
        · rintro ⟨h1, h2⟩
          refine ⟨h1, ?_⟩
          rintro ⟨q, hq, e⟩
          cases List.mem_cons.mp hq with
          | inl hq => rw [hq, hp] at e; cases e; exact hbb rfl
          | inr hq => exact h2 ⟨q, hq, e⟩
        · rintro ⟨h1, h2⟩
          exact ⟨h1, fun ⟨q, hq, e⟩ => h2 ⟨q, List.mem_cons_of_mem _ hq, e⟩⟩

/-- The destructor of an object that has an array frees it and its blocks. -/
theorem dtor_own {c : Cfg} {s : St} {i : Nat} {o : Obj} {a : Nat} {A : Arr} (ho : Own c s)
    (hb : c.clean = true → Blk s) (hi : s.objs i = some o) (ha : o.table = some a) (hA : s.arrs a = some A) :
    ∃ h', dtor c s o = some ⟨s.objs, set s.arrs a none, h'⟩ ∧
      (c.clean = false → h' = s.blocks) ∧
      (c.clean = true → ∀ b, h' b = true ↔ s.blocks b = true ∧ ¬ ∃ p, A.slots p = some b) := by
  obtain ⟨A', hA', hs⟩ := ho.have_ i o a hi ha
  rw [hA] at hA'
  cases hA'
  cases hc : c.clean with
  | false => exact ⟨s.blocks, by simp [dtor, hc, ha, hA, hs], fun _ => rfl, fun h => by cases h⟩
  | true =>
    have hb := hb hc
    obtain ⟨h', e, hh⟩ := cleanup_ok A.slots (List.range o.total) s.blocks List.nodup_range
      (fun p b _ h => (hb.have_ a A p b hA h).2) (fun p q b _ _ h h' => (hb.inj a A p a A q b hA h hA h').2)
    have key : ∀ b, (∃ p, p ∈ List.range o.total ∧ A.slots p = some b) ↔ ∃ p, A.slots p = some b := by
      intro b
      constructor
      · rintro ⟨p, _, h⟩; exact ⟨p, h⟩
      · rintro ⟨p, h⟩
        exact ⟨p, List.mem_range.mpr (hs ▸ (hb.have_ a A p b hA h).1), h⟩
    by_cases h0 : o.total = 0
    · refine ⟨s.blocks, by simp [dtor, hc, slotCleanup, h0, ha, hA, hs], (fun h => by cases h), fun _ b => ?_⟩
      constructor
      · intro h
        refine ⟨h, ?_⟩
        rintro ⟨p, hp⟩
        have := (hb.have_ a A p b hA hp).1
        omega
      · exact fun h => h.1
    · refine ⟨h', by simp [dtor, hc, slotCleanup, h0, ha, hA, hs, e], (fun h => by cases h), fun _ b => ?_⟩
      rw [hh, key]

/-- The destructor of a moved-from object that believes to have no slots, or does not clean up, does
nothing. -/
theorem dtor_moved {c : Cfg} {s : St} {i : Nat} {o : Obj} (ho : Own c s) (hi : s.objs i = some o)
    (ht : o.table = none) (hc : c.clean = false ∨ c.rest = 0) : dtor c s o = some s := by
  cases hc with
  | inl hc => simp [dtor, hc, ht]
  | inr hr =>
    have := ho.rest i o hi ht
    cases hcl : c.clean <;> simp [dtor, hcl, slotCleanup, this, hr, ht]

theorem set_set {X : Type} (f : Nat → X) (i : Nat) (x y : X) : set (set f i x) i y = set f i y := by
  funext j
  by_cases h : j = i
  · subst h; rw [set_same, set_same]
  · rw [set_other _ _ h, set_other _ _ h, set_other _ _ h]

/-- An object without an array disappears. -/
theorem Own.drop_moved {c : Cfg} {s : St} {j : Nat} {q : Obj} (ho : Own c s) (hj : s.objs j = some q)
    (ht : q.table = none) : Own c { s with objs := set s.objs j none } := by
  have old : ∀ i o, set s.objs j none i = some o → s.objs i = some o := by
    intro i o h
    by_cases e : i = j
    · rw [e, set_same] at h; cases h
    · rwa [set_other _ _ e] at h
  refine ⟨fun i o a hi ha => ho.have_ i o a (old i o hi) ha, fun i o hi ha => ho.rest i o (old i o hi) ha,
    fun i i' o o' a hi hi' ha ha' => ho.inj i i' o o' a (old _ _ hi) (old _ _ hi') ha ha', fun a A hA => ?_⟩
  obtain ⟨i, o, hi, ha⟩ := ho.all a A hA
  refine ⟨i, o, ?_, ha⟩
  show set s.objs j none i = some o
  rw [set_other _ _ ?_]
  · exact hi
  · rintro rfl
    rw [hj] at hi
    cases hi
    rw [ht] at ha
    cases ha

/-- An object disappears together with its array. -/
theorem Own.drop {c : Cfg} {s : St} {j a₀ : Nat} {q : Obj} (ho : Own c s) (hj : s.objs j = some q)
    (ht : q.table = some a₀) (h : Nat → Bool) : Own c ⟨set s.objs j none, set s.arrs a₀ none, h⟩ := by
  have old : ∀ i o, set s.objs j none i = some o → i ≠ j ∧ s.objs i = some o := by
    intro i o h
    by_cases e : i = j
    · rw [e, set_same] at h; cases h
    · rw [set_other _ _ e] at h; exact ⟨e, h⟩
  refine ⟨fun i o a hi ha => ?_, fun i o hi ha => ho.rest i o (old i o hi).2 ha,
    fun i i' o o' a hi hi' ha ha' => ho.inj i i' o o' a (old _ _ hi).2 (old _ _ hi').2 ha ha', fun a A hA => ?_⟩
  · obtain ⟨hne, hi'⟩ := old i o hi
    obtain ⟨A, hA, hs⟩ := ho.have_ i o a hi' ha
    refine ⟨A, ?_, hs⟩
    show set s.arrs a₀ none a = some A
    rw [set_other _ _ ?_]
    · exact hA
    · rintro rfl
      exact hne (ho.inj i j o q a hi' hj ha ht)
  · have hA : set s.arrs a₀ none a = some A := hA
    by_cases e : a = a₀
    · rw [e, set_same] at hA; cases hA
    · rw [set_other _ _ e] at hA
      obtain ⟨i, o, hi, ha⟩ := ho.all a A hA
      refine ⟨i, o, ?_, ha⟩
      show set s.objs j none i = some o
      rw [set_other _ _ ?_]
      · exact hi
      · rintro rfl
        rw [hj] at hi
        cases hi
        rw [ht] at ha
        cases ha
        exact e rfl

/-- The move constructor. -/
theorem Own.move {c : Cfg} {s : St} {i j : Nat} {o : Obj} (ho : Own c s) (hi : s.objs i = some o)
    (hj : s.objs j = none) : Own c { s with objs := set (set s.objs j (some o)) i (some (left c o)) } := by
  have hij : j ≠ i := by rintro rfl; rw [hi] at hj; cases hj
  have cases_ : ∀ x y, set (set s.objs j (some o)) i (some (left c o)) x = some y →
      (x = i ∧ y = left c o) ∨ (x = j ∧ y = o) ∨ (x ≠ i ∧ x ≠ j ∧ s.objs x = some y) := by
    intro x y h
    by_cases e : x = i
    · rw [e, set_same] at h; cases h; exact Or.inl ⟨e, rfl⟩
    · rw [set_other _ _ e] at h
      by_cases e' : x = j
      · rw [e', set_same] at h; cases h; exact Or.inr (Or.inl ⟨e', rfl⟩)
      · rw [set_other _ _ e'] at h; exact Or.inr (Or.inr ⟨e, e', h⟩)
  -- where the array of an object was before
  have old : ∀ x y a, set (set s.objs j (some o)) i (some (left c o)) x = some y → y.table = some a →
      (x = j ∧ y = o) ∨ (x ≠ i ∧ x ≠ j ∧ s.objs x = some y) := by
    intro x y a h ha
    rcases cases_ x y h with ⟨_, e⟩ | h | h
    · rw [e] at ha; cases ha
    · exact Or.inl h
    · exact Or.inr h
  refine ⟨fun x y a hx ha => ?_, fun x y hx ha => ?_, fun x x' y y' a hx hx' ha ha' => ?_, fun a A hA => ?_⟩
  · rcases old x y a hx ha with ⟨_, rfl⟩ | ⟨_, _, h⟩
    · exact ho.have_ i y a hi ha
    · exact ho.have_ x y a h ha
  · rcases cases_ x y hx with ⟨_, rfl⟩ | ⟨_, rfl⟩ | ⟨_, _, h⟩
    · rfl
    · exact ho.rest i y hi ha
    · exact ho.rest x y h ha
  · rcases old x y a hx ha with ⟨rfl, rfl⟩ | ⟨h1, h2, h⟩ <;> rcases old x' y' a hx' ha' with ⟨rfl, rfl⟩ | ⟨h1', h2', h'⟩
    · rfl
    · exact absurd (ho.inj i x' y y' a hi h' ha ha').symm h1'
    · exact absurd (ho.inj x i y y' a h hi ha ha') h1
    · exact ho.inj x x' y y' a h h' ha ha'
  · obtain ⟨x, y, hx, ha⟩ := ho.all a A hA
    by_cases e : x = i
    · subst e
      rw [hi] at hx
      cases hx
      refine ⟨j, o, ?_, ha⟩
      show set (set s.objs j (some o)) x (some (left c o)) j = some o
      rw [set_other _ _ hij, set_same]
    · refine ⟨x, y, ?_, ha⟩
      show set (set s.objs j (some o)) i (some (left c o)) x = some y
      rw [set_other _ _ e, set_other _ _ ?_]
      · exact hx
      · rintro rfl; rw [hj] at hx; cases hx

/-- Blocks do not depend on the objects. -/
theorem Blk.objs {s : St} (h : Blk s) (f : Nat → Option Obj) : Blk { s with objs := f } := ⟨h.have_, h.inj, h.all⟩

theorem Blk.drop {s : St} (hb : Blk s) {a₀ : Nat} {A₀ : Arr} (hA₀ : s.arrs a₀ = some A₀) {h : Nat → Bool}
    (hh : ∀ b, h b = true ↔ s.blocks b = true ∧ ¬ ∃ p, A₀.slots p = some b) (f : Nat → Option Obj) :
    Blk ⟨f, set s.arrs a₀ none, h⟩ := by
  have old : ∀ a A, set s.arrs a₀ none a = some A → a ≠ a₀ ∧ s.arrs a = some A := by
    intro a A h
    by_cases e : a = a₀
    · rw [e, set_same] at h; cases h
    · rw [set_other _ _ e] at h; exact ⟨e, h⟩
  refine ⟨fun a A p b hA hp => ?_, fun a A p a' A' p' b hA hp hA' hp' =>
    hb.inj a A p a' A' p' b (old _ _ hA).2 hp (old _ _ hA').2 hp', fun b hb' => ?_⟩
  · obtain ⟨hne, hA⟩ := old a A hA
    have := hb.have_ a A p b hA hp
    refine ⟨this.1, (hh b).mpr ⟨this.2, ?_⟩⟩
    rintro ⟨q, hq⟩
    exact hne (hb.inj a A p a₀ A₀ q b hA hp hA₀ hq).1
  · obtain ⟨h1, h2⟩ := (hh b).mp hb'
    obtain ⟨a, A, p, hA, hp⟩ := hb.all b h1
    refine ⟨a, A, p, ?_, hp⟩
    show set s.arrs a₀ none a = some A
    rw [set_other _ _ ?_]
    · exact hA
    · rintro rfl
      rw [hA₀] at hA
      cases hA
      exact h2 ⟨p, hp⟩

/-- A new array without elements. -/
theorem Blk.make {s : St} (hb : Blk s) {a₀ n : Nat} (hA₀ : s.arrs a₀ = none) (f : Nat → Option Obj) :
    Blk ⟨f, set s.arrs a₀ (some ⟨n, fun _ => none⟩), s.blocks⟩ := by
  have old : ∀ a A p b, set s.arrs a₀ (some ⟨n, fun _ => none⟩) a = some A → A.slots p = some b →
      s.arrs a = some A := by
    intro a A p b h hp
    by_cases e : a = a₀
    · rw [e, set_same] at h; cases h; cases hp
    · rwa [set_other _ _ e] at h
  refine ⟨fun a A p b hA hp => hb.have_ a A p b (old _ _ _ _ hA hp) hp, fun a A p a' A' p' b hA hp hA' hp' =>
    hb.inj a A p a' A' p' b (old _ _ _ _ hA hp) hp (old _ _ _ _ hA' hp') hp', fun b hb' => ?_⟩
  obtain ⟨a, A, p, hA, hp⟩ := hb.all b hb'
  refine ⟨a, A, p, ?_, hp⟩
  show set s.arrs a₀ _ a = some A
  rw [set_other _ _ ?_]
  · exact hA
  · rintro rfl; rw [hA₀] at hA; cases hA

/-- A new element. -/
theorem Blk.put {s : St} (hb : Blk s) {a₀ p₀ b₀ : Nat} {A₀ : Arr} (hA₀ : s.arrs a₀ = some A₀)
    (hp₀ : p₀ < A₀.size) (hs : A₀.slots p₀ = none) (hb₀ : s.blocks b₀ = false) :
    Blk ⟨s.objs, set s.arrs a₀ (some ⟨A₀.size, set A₀.slots p₀ (some b₀)⟩), set s.blocks b₀ true⟩ := by
  have old : ∀ a A p b, set s.arrs a₀ (some ⟨A₀.size, set A₀.slots p₀ (some b₀)⟩) a = some A →
      A.slots p = some b →
      (a = a₀ ∧ p = p₀ ∧ b = b₀ ∧ A.size = A₀.size) ∨
      (b ≠ b₀ ∧ s.blocks b = true ∧ ∃ B, s.arrs a = some B ∧ B.slots p = some b ∧ B.size = A.size) := by
    intro a A p b h hp
    have fin : ∀ B, s.arrs a = some B → B.slots p = some b → B.size = A.size →
        b ≠ b₀ ∧ s.blocks b = true ∧ ∃ B, s.arrs a = some B ∧ B.slots p = some b ∧ B.size = A.size := by
      intro B hB hBp hBs
      have := (hb.have_ a B p b hB hBp).2
      refine ⟨?_, this, B, hB, hBp, hBs⟩
      rintro rfl
      rw [hb₀] at this
      cases this
    by_cases e : a = a₀
    · subst e
      rw [set_same] at h
      cases h
      have hp : set A₀.slots p₀ (some b₀) p = some b := hp
      by_cases e' : p = p₀
      · subst e'
        rw [set_same] at hp
        cases hp
        exact Or.inl ⟨rfl, rfl, rfl, rfl⟩
      · rw [set_other _ _ e'] at hp
        exact Or.inr (fin A₀ hA₀ hp rfl)
    · rw [set_other _ _ e] at h
      exact Or.inr (fin A h hp rfl)
  refine ⟨fun a A p b hA hp => ?_, fun a A p a' A' p' b hA hp hA' hp' => ?_, fun b hb' => ?_⟩
  · rcases old a A p b hA hp with ⟨rfl, rfl, rfl, e⟩ | ⟨hne, hbt, B, hB, hBp, e⟩
    · exact ⟨e ▸ hp₀, set_same ..⟩
    · refine ⟨e ▸ (hb.have_ a B p b hB hBp).1, ?_⟩
      show set s.blocks b₀ true b = true
      rw [set_other _ _ hne]
      exact hbt
  · rcases old a A p b hA hp with ⟨rfl, rfl, rfl, e⟩ | ⟨hne, hbt, B, hB, hBp, e⟩ <;>
      rcases old a' A' p' b hA' hp' with ⟨rfl, rfl, h, e'⟩ | ⟨hne', hbt', B', hB', hBp', e'⟩
    · exact ⟨rfl, rfl⟩
    · exact absurd rfl hne'
    · exact absurd h hne
    · exact hb.inj a B p a' B' p' b hB hBp hB' hBp'
  · by_cases e : b = b₀
    · refine ⟨a₀, _, p₀, set_same .., ?_⟩
      show set A₀.slots p₀ (some b₀) p₀ = some b
      rw [set_same, e]
    · have hb' : set s.blocks b₀ true b = true := hb'
      rw [set_other _ _ e] at hb'
      obtain ⟨a, A, p, hA, hp⟩ := hb.all b hb'
      by_cases e' : a = a₀
      · subst e'
        rw [hA₀] at hA
        cases hA
        refine ⟨a, _, p, set_same .., ?_⟩
        show set A₀.slots p₀ (some b₀) p = some b
        rw [set_other _ _ ?_]
        · exact hp
        · rintro rfl; rw [hs] at hp; cases hp
      · refine ⟨a, A, p, ?_, hp⟩
        show set s.arrs a₀ _ a = some A
        rw [set_other _ _ e']
        exact hA

/-! ## What the objects have -/

theorem view_none {s : St} {i : Nat} : view s i = none ↔ s.objs i = none := by
  cases h : s.objs i <;> simp [view, h]

theorem view_moved {c : Cfg} {s : St} (ho : Own c s) {i : Nat} {o : Obj} (hi : s.objs i = some o) :
    view s i = some none ↔ o.table = none := by
  cases ht : o.table with
  | none => simp [view, hi, ht]
  | some a =>
    obtain ⟨A, hA, _⟩ := ho.have_ i o a hi ht
    simp [view, hi, ht, hA]

theorem view_has {s : St} {i a : Nat} {o : Obj} {A : Arr} (hi : s.objs i = some o) (ht : o.table = some a)
    (hA : s.arrs a = some A) : view s i = some (some (o.total, A.slots)) := by
  simp [view, hi, ht, hA]

theorem view_drop_moved {s : St} {j : Nat} : view { s with objs := set s.objs j none } = set (view s) j none := by
  funext i
  by_cases e : i = j
  · subst e; rw [set_same, view_none]; exact set_same ..
  · rw [set_other _ _ e]
    show (set s.objs j none i).map _ = _
    rw [set_other _ _ e]
    rfl

theorem view_drop {c : Cfg} {s : St} {j a₀ : Nat} {q : Obj} (ho : Own c s) (hj : s.objs j = some q)
    (ht : q.table = some a₀) (h : Nat → Bool) :
    view ⟨set s.objs j none, set s.arrs a₀ none, h⟩ = set (view s) j none := by
  funext i
  by_cases e : i = j
  · subst e; rw [set_same, view_none]; exact set_same ..
  · rw [set_other _ _ e]
    show (set s.objs j none i).map _ = (s.objs i).map _
    rw [set_other _ _ e]
    cases hi : s.objs i with
    | none => rfl
    | some o =>
      cases ha : o.table with
      | none => simp [ha]
      | some a =>
        have : a ≠ a₀ := by rintro rfl; exact e (ho.inj i j o q a hi hj ha ht)
        simp [ha, set_other _ _ this]

theorem view_move {c : Cfg} {s : St} {i j : Nat} {o : Obj} (hi : s.objs i = some o) (hij : j ≠ i) :
    view { s with objs := set (set s.objs j (some o)) i (some (left c o)) } =
      set (set (view s) j (view s i)) i (some none) := by
  funext x
  by_cases e : x = i
  · subst e
    rw [set_same]
    show (set (set s.objs j (some o)) x (some (left c o)) x).map _ = _
    rw [set_same]
    rfl
  · rw [set_other _ _ e]
    show (set (set s.objs j (some o)) i (some (left c o)) x).map _ = _
    rw [set_other _ _ e]
    by_cases e' : x = j
    · subst e'
      rw [set_same, set_same, ← hi]
      rfl
    · rw [set_other _ _ e', set_other _ _ e']
      rfl

/-- An action that the code does right: not the end of a moved-from object whose destructor reads slots;
not an assignment that swaps, except to a moved-from object (`base_linear.hpp:440-471`,
`tsx_circular.hpp:300-320`). -/
def Allowed (c : Cfg) (w : World) : Act → Prop
  | .destroy i => w i = some none → c.clean = false ∨ c.rest = 0
  | .assign i j =>
    if c.swaps then w j = some none ∧ c.rest = 0
    else i ≠ j → w j = some none → c.clean = false ∨ c.rest = 0
  | _ => True

/-- The invariant of a program (`base_linear.hpp:396-471`, `tsx_circular.hpp:257-320`). -/
structure Good (c : Cfg) (s : St) (w : World) : Prop where
  own : Own c s
  blk : c.clean = true → Blk s
  view : view s = w

theorem Good.init (c : Cfg) : Good c St.init (fun _ => none) :=
  ⟨⟨fun _ _ _ h => by (cases h), fun _ _ h => by (cases h), fun _ _ _ _ _ h => by (cases h), fun _ _ h => by (cases h)⟩,
    fun _ => ⟨fun _ _ _ _ h => by (cases h), fun _ _ _ _ _ _ _ h => by (cases h), fun _ h => by (cases h)⟩, rfl⟩

/-- The end of an object. -/
theorem Good.drop {c : Cfg} {s : St} {w : World} (g : Good c s w) {j : Nat} {q : Obj} (hj : s.objs j = some q)
    (hm : w j = some none → c.clean = false ∨ c.rest = 0) :
    ∃ s', dtor c s q = some s' ∧ s'.objs = s.objs ∧
      Good c { s' with objs := set s.objs j none } (set w j none) := by
  cases ht : q.table with
  | none =>
    have hv : w j = some none := by rw [← g.view]; exact (view_moved g.own hj).mpr ht
    exact ⟨s, dtor_moved g.own hj ht (hm hv), rfl, g.own.drop_moved hj ht, fun hc => (g.blk hc).objs _, by
      rw [view_drop_moved, g.view]⟩
  | some a =>
    obtain ⟨A, hA, _⟩ := g.own.have_ j q a hj ht
    obtain ⟨h', e, h1, h2⟩ := dtor_own g.own g.blk hj ht hA
    refine ⟨_, e, rfl, g.own.drop hj ht h', fun hc => (g.blk hc).drop hA (h2 hc) _, ?_⟩
    show TabMove.view ⟨set s.objs j none, set s.arrs a none, h'⟩ = _
    rw [view_drop g.own hj ht, g.view]

theorem Good.move {c : Cfg} {s : St} {w : World} (g : Good c s w) {i j : Nat} {o : Obj} (hi : s.objs i = some o)
    (hj : s.objs j = none) :
    Good c { s with objs := set (set s.objs j (some o)) i (some (left c o)) } (set (set w j (w i)) i (some none)) := by
  have hij : j ≠ i := by rintro rfl; rw [hi] at hj; cases hj
  exact ⟨g.own.move hi hj, fun hc => (g.blk hc).objs _, by rw [view_move hi hij, g.view]⟩

/-- One action. -/
theorem Good.step {c : Cfg} {s : St} {w w' : World} (g : Good c s w) {x : Act} (hx : spec w x = some w')
    (ha : Allowed c w x) : step c s x = .illegal ∨ ∃ s', step c s x = .ok s' ∧ Good c s' w' := by
  cases x with
  | make i n a =>
    cases hi : s.objs i with
    | some o => exact Or.inl (by simp [TabMove.step, hi])
    | none =>
      cases hA : s.arrs a with
      | some A => exact Or.inl (by simp [TabMove.step, hi, hA])
      | none =>
        refine Or.inr ⟨⟨set s.objs i (some ⟨some a, n, 0⟩), set s.arrs a (some ⟨n, fun _ => none⟩), s.blocks⟩,
          by simp [TabMove.step, hi, hA], ?_, fun hc => (g.blk hc).make hA _, ?_⟩
        · have old : ∀ x y, set s.objs i (some ⟨some a, n, 0⟩) x = some y →
              (x = i ∧ y = ⟨some a, n, 0⟩) ∨ (x ≠ i ∧ s.objs x = some y) := by
            intro x y h
            by_cases e : x = i
            · rw [e, set_same] at h; cases h; exact Or.inl ⟨e, rfl⟩
            · rw [set_other _ _ e] at h; exact Or.inr ⟨e, h⟩
          have new : ∀ x y b, s.objs x = some y → y.table = some b → b ≠ a := by
            rintro x y b hx' hb rfl
            obtain ⟨B, hB, _⟩ := g.own.have_ x y b hx' hb
            rw [hA] at hB
            cases hB
          refine ⟨fun x y b hx hb => ?_, fun x y hx hb => ?_, fun x x' y y' b hx hx' hb hb' => ?_, fun b B hB => ?_⟩
          · rcases old x y hx with ⟨rfl, rfl⟩ | ⟨_, h⟩
            · cases hb
              exact ⟨_, set_same .., rfl⟩
            · obtain ⟨B, hB, hs⟩ := g.own.have_ x y b h hb
              refine ⟨B, ?_, hs⟩
              show set s.arrs a _ b = _
              rw [set_other _ _ (new x y b h hb)]
              exact hB
          · rcases old x y hx with ⟨rfl, rfl⟩ | ⟨_, h⟩
            · cases hb
            · exact g.own.rest x y h hb
          · rcases old x y hx with ⟨rfl, rfl⟩ | ⟨_, h⟩ <;> rcases old x' y' hx' with ⟨rfl, rfl⟩ | ⟨_, h'⟩
            · rfl
            · cases hb; exact absurd rfl (new _ _ _ h' hb')
            · cases hb'; exact absurd rfl (new _ _ _ h hb)
            · exact g.own.inj x x' y y' b h h' hb hb'
          · have hB : set s.arrs a (some ⟨n, fun _ => none⟩) b = some B := hB
            by_cases e : b = a
            · exact ⟨i, _, set_same .., e ▸ rfl⟩
            · rw [set_other _ _ e] at hB
              obtain ⟨x, y, hx', hb⟩ := g.own.all b B hB
              refine ⟨x, y, ?_, hb⟩
              show set s.objs i _ x = some y
              rw [set_other _ _ ?_]
              · exact hx'
              · rintro rfl; rw [hi] at hx'; cases hx'
        · have hw : w i = none := by rw [← g.view]; exact view_none.mpr hi
          simp only [spec, hw] at hx
          cases hx
          funext x
          by_cases e : x = i
          · subst e
            rw [set_same]
            exact view_has (s := ⟨set s.objs x (some ⟨some a, n, 0⟩), set s.arrs a (some ⟨n, fun _ => none⟩), _⟩)
              (set_same s.objs x _) rfl (set_same s.arrs a _)
          · rw [set_other _ _ e, ← g.view]
            show (set s.objs i _ x).map _ = (s.objs x).map _
            rw [set_other _ _ e]
            cases hy : s.objs x with
            | none => rfl
            | some y =>
              cases hb : y.table with
              | none => simp [hb]
              | some b =>
                obtain ⟨B, hB, _⟩ := g.own.have_ x y b hy hb
                have : b ≠ a := by rintro rfl; rw [hA] at hB; cases hB
                simp [hb, set_other _ _ this]
  | put i p b =>
    cases hi : s.objs i with
    | none => exact Or.inl (by simp [TabMove.step, hi])
    | some o =>
      cases ht : o.table with
      | none =>
        have hw : w i = some none := by rw [← g.view]; exact (view_moved g.own hi).mpr ht
        simp [spec, hw] at hx
      | some a =>
        obtain ⟨A, hA, hs⟩ := g.own.have_ i o a hi ht
        have hw : w i = some (some (o.total, A.slots)) := by rw [← g.view]; exact view_has hi ht hA
        simp only [spec, hw] at hx
        split at hx
        · rename_i hp
          cases hx
          by_cases hf : A.slots p = none ∧ (c.clean = true → s.blocks b = false)
          · refine Or.inr ⟨⟨s.objs, set s.arrs a (some ⟨A.size, set A.slots p (some b)⟩),
              if c.clean then set s.blocks b true else s.blocks⟩, ?_, ?_, fun hc => ?_, ?_⟩
            · have hpA : p < A.size := hs ▸ hp.1
              simp only [TabMove.step, hi, ht, hA, if_pos hpA, if_pos hf]
            · refine ⟨fun x y b' hx hb => ?_, g.own.rest, g.own.inj, fun b' B hB => ?_⟩
              · by_cases e : b' = a
                · subst e
                  refine ⟨_, set_same .., ?_⟩
                  have := g.own.inj x i y o b' hx hi hb ht
                  subst this
                  have hx : s.objs x = some y := hx
                  rw [hi] at hx
                  cases hx
                  exact hs
                · obtain ⟨B, hB, h⟩ := g.own.have_ x y b' hx hb
                  refine ⟨B, ?_, h⟩
                  show set s.arrs a _ b' = _
                  rw [set_other _ _ e]
                  exact hB
              · have hB : set s.arrs a (some ⟨A.size, set A.slots p (some b)⟩) b' = some B := hB
                by_cases e : b' = a
                · exact ⟨i, o, hi, e ▸ ht⟩
                · rw [set_other _ _ e] at hB
                  exact g.own.all b' B hB
            · have := (g.blk hc).put hA (hs ▸ hp.1) hf.1 (hf.2 hc)
              simpa only [hc, if_true] using this
            · funext x
              by_cases e : x = i
              · subst e
                rw [set_same]
                exact view_has (s := ⟨s.objs, set s.arrs a (some ⟨A.size, set A.slots p (some b)⟩), _⟩) hi ht
                  (set_same s.arrs a _)
              · rw [set_other _ _ e, ← g.view]
                show (s.objs x).map _ = (s.objs x).map _
                cases hy : s.objs x with
                | none => rfl
                | some y =>
                  cases hb : y.table with
                  | none => simp [hb]
                  | some b' =>
                    have : b' ≠ a := by rintro rfl; exact e (g.own.inj x i y o b' hy hi hb ht)
                    simp [hb, set_other _ _ this]
          · refine Or.inl ?_
            have hpA : p < A.size := hs ▸ hp.1
            simp only [TabMove.step, hi, ht, hA, if_pos hpA, if_neg hf]
        · cases hx
  | construct i j =>
    cases hi : s.objs i with
    | none => exact Or.inl (by simp [TabMove.step, hi])
    | some o =>
      cases hj : s.objs j with
      | some q => exact Or.inl (by simp [TabMove.step, hi, hj])
      | none =>
        have hwj : w j = none := by rw [← g.view]; exact view_none.mpr hj
        refine Or.inr ⟨{ s with objs := set (set s.objs j (some o)) i (some (left c o)) },
          by simp [TabMove.step, hi, hj], ?_⟩
        cases hwi : w i with
        | none => simp [spec, hwi] at hx
        | some v =>
          simp only [spec, hwi, hwj] at hx
          cases hx
          exact hwi ▸ g.move hi hj
  | assign i j =>
    cases hi : s.objs i with
    | none => exact Or.inl (by simp [TabMove.step, hi])
    | some o =>
      cases hj : s.objs j with
      | none => exact Or.inl (by simp [TabMove.step, hi, hj])
      | some q =>
        cases hwi : w i with
        | none => simp [spec, hwi] at hx
        | some v =>
          cases hwj : w j with
          | none => simp [spec, hwi, hwj] at hx
          | some u =>
            simp only [spec, hwi, hwj] at hx
            refine Or.inr ?_
            cases hsw : c.swaps with
            | false =>
              simp only [Allowed, hsw, Bool.false_eq_true, if_false] at ha
              by_cases e : i = j
              · rw [if_pos e] at hx
                cases hx
                exact ⟨s, by simp [TabMove.step, hj, moveAssign, hsw, e], g⟩
              · rw [if_neg e] at hx
                cases hx
                obtain ⟨s', hd, ho, g'⟩ := g.drop hj (ha e)
                have hi' : set s.objs j none i = some o := (set_other _ _ e).trans hi
                have := g'.move (i := i) (j := j) hi' (set_same ..)
                refine ⟨{ s' with objs := set (set s'.objs j (some o)) i (some (left c o)) },
                  by simp [TabMove.step, hi, hj, moveAssign, hsw, e, hd], ?_⟩
                have e1 : set (set w j none) j (set w j none i) = set w j (some v) := by
                  rw [set_set, set_other _ _ e, hwi]
                rw [e1] at this
                have e2 : set (set s.objs j none) j (some o) = set s'.objs j (some o) := by rw [set_set, ho]
                show Good c ⟨set (set s'.objs j (some o)) i (some (left c o)), s'.arrs, s'.blocks⟩ _
                rw [← e2]
                exact this
            | true =>
              simp only [Allowed, hsw, if_true] at ha
              have hq : q.table = none := by
                have := ha.1
                rw [← g.view] at this
                exact (view_moved g.own hj).mp this
              by_cases e : i = j
              · subst e
                rw [if_pos rfl] at hx
                cases hx
                rw [hi] at hj
                cases hj
                refine ⟨{ s with objs := set s.objs i (some ⟨o.table, 0, o.version⟩) },
                  by simp [TabMove.step, hi, moveAssign, hsw], ?_⟩
                have : o = ⟨o.table, 0, o.version⟩ := by
                  have := g.own.rest i o hi hq
                  rw [ha.2] at this
                  cases o
                  simp_all
                rw [← this]
                have e2 : set s.objs i (some o) = s.objs := by
                  funext x
                  by_cases e : x = i
                  · rw [e, set_same, hi]
                  · rw [set_other _ _ e]
                show Good c ⟨set s.objs i (some o), s.arrs, s.blocks⟩ w
                rw [e2]
                exact g
              · rw [if_neg e] at hx
                cases hx
                have g' : Good c { s with objs := set s.objs j none } (set w j none) :=
                  ⟨g.own.drop_moved hj hq, fun hc => (g.blk hc).objs _, by rw [view_drop_moved, g.view]⟩
                have hi' : set s.objs j none i = some o := (set_other _ _ e).trans hi
                have := g'.move (i := i) (j := j) hi' (set_same ..)
                have e1 : set (set w j none) j (set w j none i) = set w j (some v) := by
                  rw [set_set, set_other _ _ e, hwi]
                have e2 : set (set s.objs j none) j (some o) = set s.objs j (some o) := by rw [set_set]
                have e3 : left c o = ⟨q.table, 0, o.version⟩ := by rw [left, hq, ha.2]
                have this : Good c ⟨set (set (set s.objs j none) j (some o)) i (some (left c o)), s.arrs, s.blocks⟩ _ := this
                rw [e1, e2, e3] at this
                exact ⟨_, by simp [TabMove.step, hi, hj, moveAssign, hsw, e], this⟩
  | destroy i =>
    cases hi : s.objs i with
    | none => exact Or.inl (by simp [TabMove.step, hi])
    | some o =>
      obtain ⟨s', hd, ho, g'⟩ := g.drop hi ha
      have hw : (w i).isSome := by
        cases h : w i with
        | none => simp [spec, h] at hx
        | some _ => rfl
      simp only [spec, if_pos hw] at hx
      cases hx
      refine Or.inr ⟨{ s' with objs := set s'.objs i none }, by simp [TabMove.step, hi, hd], ?_⟩
      rw [ho]
      exact g'

/-- All actions of a program are such that the code does them right (`base_linear.hpp:440-471`,
`tsx_circular.hpp:300-320`). -/
def AllAllowed (c : Cfg) : World → List Act → Prop
  | _, [] => True
  | w, x :: l => Allowed c w x ∧ ∀ w', spec w x = some w' → AllAllowed c w' l

theorem Good.run {c : Cfg} : ∀ {l : List Act} {s : St} {w w' : World}, Good c s w → specRun w l = some w' →
    AllAllowed c w l → run c s l = .illegal ∨ ∃ s', run c s l = .ok s' ∧ Good c s' w'
  | [], s, w, w', g, h, _ => by
    cases h
    exact Or.inr ⟨s, rfl, g⟩
  | x :: l, s, w, w', g, h, ha => by
    cases hs : spec w x with
    | none => simp [specRun, hs] at h
    | some w₁ =>
      simp only [specRun, hs] at h
      rcases g.step hs ha.1 with e | ⟨s₁, e, g₁⟩
      · exact Or.inl (by simp [TabMove.run, e])
      · simp only [TabMove.run, e]
        exact g₁.run h (ha.2 w₁ hs)

end TabMove
end Growt
