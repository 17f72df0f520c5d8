import Verif.Spec

/-!
# Slots, abstractly

`Cell` is the content of one slot as the table code sees it through `is_empty`, `is_deleted`,
`is_marked`, `compare_key`, `get_mapped`.  The bit level modules (`SlotBits`) prove that the
concrete layouts behave like this for legal keys.
-/

namespace Growt

/-- Content of a slot: the empty pair, an element, or the tombstone pair
(`get_empty` / `get_deleted`, `data-structures/element_types/simple_slot.hpp:127-134`,
`single_word_slot.hpp:127-134`, `complex_slot.hpp:161-170`).  A tombstone still has a mapped
half (initially `mapped_type()`), which half-word updates may change. -/
inductive Content (K V : Type) where
  | empty
  | live (k : K) (v : V)
  | deleted (v : V)
  deriving DecidableEq, Repr

/-- A slot: mark bit and content (`simple_slot.hpp:53-57` with `marked_bit` of line 35). -/
structure Cell (K V : Type) where
  marked : Bool
  c : Content K V
  deriving DecidableEq, Repr

/-- An update functor (`f(mapped&, args...)`, e.g. `example/update_fcts.hpp:16-49`):
`upd` is its effect on the mapped value, `ret` the value it returns, and `atomic` - if the
functor has a member `atomic` - that member's effect and returned value. -/
structure UpdFn (V : Type) where
  upd : V → V
  ret : V → V
  atomic : Option (V → V × V)

namespace Cell
variable {K V : Type}

/-- `get_empty()` (`simple_slot.hpp:127-130`) -/
def emptyCell : Cell K V := ⟨false, .empty⟩

/-- `get_deleted()`; the mapped half is `mapped_type()`. (`simple_slot.hpp:131-134`) -/
def deletedCell [Inhabited V] : Cell K V := ⟨false, .deleted default⟩

/-- A freshly built slot `slot_type(k, d, hash)`. (`simple_slot.hpp:143-149`) -/
def liveCell (k : K) (d : V) : Cell K V := ⟨false, .live k d⟩

/-- `is_empty`, `simple_slot.hpp:222`: ignores the mark. -/
def isEmpty (x : Cell K V) : Bool := match x.c with | .empty => true | _ => false

/-- `is_deleted`, `simple_slot.hpp:228`: compares the complete key word, so a *marked* tombstone is
not recognised. -/
def isDeleted (x : Cell K V) : Bool :=
  match x.c with | .deleted _ => !x.marked | _ => false

/-- `compare_key`, `simple_slot.hpp:241`, for a legal key: ignores the mark. -/
def hasKey [DecidableEq K] (x : Cell K V) (k : K) : Bool :=
  match x.c with | .live k' _ => decide (k' = k) | _ => false

/-- `get_mapped`, `simple_slot.hpp:204`; `get_empty` holds `mapped_type()`. -/
def mapped [Inhabited V] (x : Cell K V) : V :=
  match x.c with | .empty => default | .live _ v => v | .deleted v => v

/-- Write the mapped half of a slot (half-word access of `simple_slot.hpp:396-397, 414-420`).
Writing it in an empty slot leaves `is_empty` true; the model keeps the canonical empty
content, this case is proved unreachable where it matters. -/
def setMapped (x : Cell K V) (v : V) : Cell K V :=
  match x.c with
  | .empty => x
  | .live k _ => ⟨x.marked, .live k v⟩
  | .deleted _ => ⟨x.marked, .deleted v⟩

/-- `atomic_mark` succeeding: set the mark (`simple_slot.hpp:355-362`). -/
def mark (x : Cell K V) : Cell K V := ⟨true, x.c⟩

/-- The pair shown when an iterator copy is dereferenced (`operator value_type`,
`simple_slot.hpp:252`): `none` if the copy is not an element. -/
def val? (x : Cell K V) : Option V :=
  match x.c with | .live _ v => some v | _ => none

/-- Does the slot hold the element `(k,v)`? (specification, no code) -/
def holds (x : Cell K V) (k : K) (v : V) : Prop := x.c = .live k v

end Cell

/-- `atomic_update(expected, f)`, `simple_slot.hpp:431-449` (also `single_word_slot.hpp:437-458`).
Arguments: markable?, content of the slot at the instant of the access, expected copy, functor.
Result: new content of the slot, returned slot, success.
* markable: whole-slot CAS of `expected` to the updated copy (lines 435-440);
* not markable, functor with `atomic`: the member is applied to the mapped half of whatever is
  in the slot, always "successful" (lines 387-400);
* not markable otherwise: CAS of the mapped half only (lines 403-423). -/
def atomicUpdate {K V : Type} [DecidableEq K] [DecidableEq V] [Inhabited V]
    (m : Bool) (k : K) (cell expected : Cell K V) (f : UpdFn V) :
    Cell K V × Cell K V × Bool :=
  if m then
    let temp := expected.setMapped (f.upd expected.mapped)
    if cell = expected then (temp, temp, true) else (cell, temp, false)
  else
    match f.atomic with
    | some g =>
      let r := g cell.mapped
      (cell.setMapped r.1, Cell.liveCell k r.2, true)
    | none =>
      if cell.mapped = expected.mapped then
        let nv := f.upd expected.mapped
        (cell.setMapped nv, Cell.liveCell k nv, true)
      else (cell, Cell.liveCell k cell.mapped, false)

/-- `non_atomic_update(f)`, `simple_slot.hpp:454-465`: the functor works directly on the mapped
half; the returned slot carries the functor's return value.  (Unsynchronised; modelled as one
step, only used for statements without concurrency.) -/
def nonAtomicUpdate {K V : Type} [Inhabited V] (k : K) (cell : Cell K V) (f : UpdFn V) :
    Cell K V × Cell K V :=
  (cell.setMapped (f.upd cell.mapped), Cell.liveCell k (f.ret cell.mapped))

/-- What an update functor does when used through `atomic_update`: new value and shown value.
(`simple_slot.hpp:431-449`) -/
def UpdFn.eff {V : Type} (m : Bool) (f : UpdFn V) (w : V) : V × V :=
  if m then (f.upd w, f.upd w) else
    match f.atomic with
    | some g => g w
    | none => (f.upd w, f.upd w)

/-- What an update functor does when used through `non_atomic_update`. (`simple_slot.hpp:454-465`) -/
def UpdFn.effUnsafe {V : Type} (f : UpdFn V) (w : V) : V × V := (f.upd w, f.ret w)

end Growt
