import Verif.Conc

/-!
# The table with hardware transactions (`data-structures/tsx_circular.hpp`)

`TSXCircular` probes circularly.  `insert`, `update` and `insertOrUpdate` first run a plain, unsynchronised
version of their loop inside a hardware transaction; if the transaction aborts (for whatever reason) they run
the version with compare-and-swap.  `find` and `erase` never use a transaction.

Assumptions about things that are not in the repository:
* the element type `E` (the class `MarkableElement` of an older version) is taken to behave like `Cell` with mark
  bit: loads and `CAS` access the whole element, `atomicUpdate(curr, f)` compares the whole element,
  `non_atomic_update(f)` applies the functor to the mapped value and gives its return value;
* a transaction that commits takes effect at one instant (strong isolation, as the processor's manual promises),
  a transaction that aborts has no effect.

`update_unsafe` and `insertOrUpdate_unsafe` are not modelled: they cannot be instantiated (`q return` in line 562,
a missing argument in lines 773 and 778).
-/

set_option linter.unusedSectionVars false

namespace Growt.Tsx

/-- What is fixed during the life of a table: `capacity = 2^k` and the hash function (`tsx_circular.hpp:114, 136`). -/
structure Tab (K : Type) where
  k : Nat
  h : K → Nat

/-- `h(k)`: `hash(k) >> right_shift` with `right_shift = significant_digits - log(capacity)`
(`tsx_circular.hpp:139, 245-251`); the loop of `compute_right_shift` is the one of `base_linear.hpp:65-70`;
`significant_digits` is 64. -/
def Tab.home {K : Type} (T : Tab K) (key : K) : Nat := T.h key >>> computeRightShift (2 ^ T.k)

/-- `i & bitmask` with `bitmask = capacity - 1` (`tsx_circular.hpp:259, 378`). -/
def Tab.pos {K : Type} (T : Tab K) (i : Nat) : Nat := i &&& (2 ^ T.k - 1)

/-- Calls (`tsx_circular.hpp:91-105`). -/
inductive Call (K V : Type) where
  | find (k : K)
  | insert (k : K) (d : V)
  | update (k : K) (f : UpdFn V)
  | insertOrUpdate (k : K) (d : V) (f : UpdFn V)
  | erase (k : K)

/-- The key of a call (`tsx_circular.hpp:91-105`). -/
def Call.key {K V : Type} : Call K V → K
  | .find k | .insert k _ | .update k _ | .insertOrUpdate k _ _ | .erase k => k

/-- Does the call begin with `_xbegin()`? (`tsx_circular.hpp:427, 525, 699`; not in 801-890) -/
def Call.transactional {K V : Type} : Call K V → Bool
  | .insert _ _ | .update _ _ | .insertOrUpdate _ _ _ => true
  | .find _ | .erase _ => false

/-- Result: code (`none` for `find`) and iterator - slot and the copied pair (`makeIterator`,
`tsx_circular.hpp:68, 197-213`); `none` is `end()`. -/
structure Ret (K V : Type) where
  code : Option ReturnCode
  it : Option (Nat × K × V)

/-- Where a call is (`tsx_circular.hpp:395-438, 485-534, 653-710, 801-877`): before `_xbegin()`, about to load the
element at index `i`, about to change it with the copy `curr`. -/
inductive PC (K V : Type) where
  | begin
  | load (i : Nat)
  | act (i : Nat) (curr : Cell K V)

/-- Outcome of a step of the version without transaction (`tsx_circular.hpp:395-418, 485-514, 653-687, 801-877`). -/
inductive Out (K V : Type) where
  | cont (pc : PC K V)
  | done (r : Ret K V)

section
variable {T K V : Type} [DecidableEq T] [DecidableEq K] [DecidableEq V] [Inhabited V]

/-- First step of a call (`tsx_circular.hpp:425-427, 523-525, 697-699, 805-806, 855-856`). -/
def start (Q : Tab K) (op : Call K V) : PC K V :=
  if op.transactional then .begin else .load (Q.home op.key)

/-- The loop inside the transaction: `non_atomic_insert`, `non_atomic_update`, `non_atomic_insertOrUpdate`,
`tsx_circular.hpp:372-393, 456-483, 621-651`.  `n` bounds the number of rounds; `none` means that the loop has
not ended within them.  (`find` and `erase` have no such version.) -/
def body (Q : Tab K) (op : Call K V) : Nat → Nat → Tbl K V → Option (Tbl K V × Ret K V)
  | 0, _, _ => none
  | n + 1, i, t =>
    let p := Q.pos i
    let curr := t p
    match op with
    | .insert k d =>
      if curr.marked then some (t, ⟨some .TSX_UNSUCCESS_INVALID, none⟩)
      else if curr.hasKey k then some (t, ⟨some .TSX_UNSUCCESS_ALREADY_USED, some (p, k, curr.mapped)⟩)
      else if curr.isEmpty then
        some (t.set p (Cell.liveCell k d), ⟨some .TSX_SUCCESS_IN, some (p, k, d)⟩)
      else body Q op n (i + 1) t
    | .update k f =>
      if curr.marked then some (t, ⟨some .TSX_UNSUCCESS_INVALID, none⟩)
      else if curr.hasKey k then
        some (t.set p (nonAtomicUpdate k curr f).1,
          ⟨some .TSX_SUCCESS_UP, some (p, k, (nonAtomicUpdate k curr f).2.mapped)⟩)
      else if curr.isEmpty then some (t, ⟨some .TSX_UNSUCCESS_NOT_FOUND, none⟩)
      else body Q op n (i + 1) t
    | .insertOrUpdate k d f =>
      if curr.marked then some (t, ⟨some .TSX_UNSUCCESS_INVALID, none⟩)
      else if curr.hasKey k then
        some (t.set p (nonAtomicUpdate k curr f).1,
          ⟨some .TSX_SUCCESS_UP, some (p, k, (nonAtomicUpdate k curr f).2.mapped)⟩)
      else if curr.isEmpty then
        some (t.set p (Cell.liveCell k d), ⟨some .TSX_SUCCESS_IN, some (p, k, d)⟩)
      else body Q op n (i + 1) t
    | .find _ | .erase _ => none

/-- After the load of the element at index `i` in the versions without transaction: `atomic_insert`,
`atomic_update`, `atomic_insertOrUpdate`, `base_find`, `atomic_erase`
(`tsx_circular.hpp:400-411, 491-512, 661-679, 806-812, 856-874`). -/
def afterLoad (op : Call K V) (i p : Nat) (curr : Cell K V) : Out K V :=
  match op with
  | .find k =>
    if curr.hasKey k then .done ⟨none, some (p, k, curr.mapped)⟩
    else if curr.isEmpty then .done ⟨none, none⟩
    else .cont (.load (i + 1))
  | .insert k _ =>
    if curr.marked then .done ⟨some .UNSUCCESS_INVALID, none⟩
    else if curr.hasKey k then .done ⟨some .UNSUCCESS_ALREADY_USED, some (p, k, curr.mapped)⟩
    else if curr.isEmpty then .cont (.act i curr)
    else .cont (.load (i + 1))
  | .update k _ =>
    if curr.marked then .done ⟨some .UNSUCCESS_INVALID, none⟩
    else if curr.hasKey k then .cont (.act i curr)
    else if curr.isEmpty then .done ⟨some .UNSUCCESS_NOT_FOUND, none⟩
    else .cont (.load (i + 1))
  | .insertOrUpdate k _ _ =>
    if curr.marked then .done ⟨some .UNSUCCESS_INVALID, none⟩
    else if curr.hasKey k then .cont (.act i curr)
    else if curr.isEmpty then .cont (.act i curr)
    else .cont (.load (i + 1))
  | .erase k =>
    if curr.marked then .done ⟨some .UNSUCCESS_INVALID, none⟩
    else if curr.hasKey k then .cont (.act i curr)
    else if curr.isEmpty then .done ⟨some .UNSUCCESS_NOT_FOUND, none⟩
    else .cont (.load (i + 1))

/-- `CAS(curr, new)` on slot `p`; if it fails the slot is loaded again (`--i`)
(`tsx_circular.hpp:412-415, 681-684, 863-864`). -/
def cas (t : Tbl K V) (i p : Nat) (curr new : Cell K V) (r : Ret K V) : Tbl K V × Out K V :=
  if t p = curr then (t.set p new, .done r) else (t, .cont (.load i))

/-- The access that changes slot `p` (`tsx_circular.hpp:410-416, 499-508, 669-685, 861-865`). -/
def change (op : Call K V) (i p : Nat) (curr : Cell K V) (t : Tbl K V) : Tbl K V × Out K V :=
  let upd (k : K) (f : UpdFn V) : Tbl K V × Out K V :=
    let r := atomicUpdate true k (t p) curr f
    (t.set p r.1, if r.2.2 then .done ⟨some .SUCCESS_UP, some (p, k, r.2.1.mapped)⟩ else .cont (.load i))
  match op with
  | .insert k d => cas t i p curr (Cell.liveCell k d) ⟨some .SUCCESS_IN, some (p, k, d)⟩
  | .update k f => upd k f
  | .insertOrUpdate k d f =>
    if curr.hasKey k then upd k f
    else cas t i p curr (Cell.liveCell k d) ⟨some .SUCCESS_IN, some (p, k, d)⟩
  | .erase _ => cas t i p curr Cell.deletedCell ⟨some .SUCCESS_DEL, none⟩
  | .find _ => (t, .cont (.load i)) -- no such program point

/-- One access of a call outside of a transaction; an abort at `begin` leads to the loop of the version with
compare-and-swap (`tsx_circular.hpp:437, 533, 709`). -/
def step (Q : Tab K) (op : Call K V) (pc : PC K V) (t : Tbl K V) : Tbl K V × Out K V :=
  match pc with
  | .begin => (t, .cont (.load (Q.home op.key)))
  | .load i => (t, afterLoad op i (Q.pos i) (t (Q.pos i)))
  | .act i curr => change op i (Q.pos i) curr t

/-- The boolean or 0/1 result of the public functions (`tsx_circular.hpp:448, 545, 723-724, 889`; `find(k) != end()`). -/
def Ret.ok (op : Call K V) (r : Ret K V) : Bool :=
  match op with
  | .find _ => r.it.isSome
  | .insertOrUpdate _ _ _ => decide (r.code = some .TSX_SUCCESS_IN) || decide (r.code = some .SUCCESS_IN)
  | _ => match r.code with | some c => c.successful | none => false

/-- The value of the iterator (`tsx_circular.hpp:200`). -/
def Ret.shown (r : Ret K V) : Option V := r.it.map (·.2.2)

/-- A thread. (calls of `tsx_circular.hpp:91-105`) -/
inductive Thr (K V : Type) where
  | idle
  | busy (op : Call K V) (pc : PC K V)
  | fin (op : Call K V) (r : Ret K V)

/-- The table `t` (`tsx_circular.hpp:138`) and the threads. -/
structure St (T K V : Type) where
  tbl : Tbl K V
  thr : T → Thr K V

/-- Events. (specification, no code) -/
abbrev TEv (T K V : Type) := Ev T (Call K V) (Ret K V)

/-- One step of the system (`tsx_circular.hpp:368-890`): a call begins, a transaction commits, an access outside of
transactions (or an abort, which may happen at any time and for no reason), a return. -/
inductive Step (Q : Tab K) : St T K V → Option (TEv T K V) → St T K V → Prop where
  | call {s : St T K V} {i : T} {op : Call K V} (h : s.thr i = .idle) :
      Step Q s (some (.call i op)) ⟨s.tbl, setAt s.thr i (.busy op (start Q op))⟩
  | commit {s : St T K V} {i : T} {op : Call K V} {n : Nat} {t' : Tbl K V} {r : Ret K V}
      (h : s.thr i = .busy op .begin) (hb : body Q op n (Q.home op.key) s.tbl = some (t', r)) :
      Step Q s (some (.lin i op r)) ⟨t', setAt s.thr i (.fin op r)⟩
  | cont {s : St T K V} {i : T} {op : Call K V} {pc pc' : PC K V} {t' : Tbl K V}
      (h : s.thr i = .busy op pc) (hs : step Q op pc s.tbl = (t', .cont pc')) :
      Step Q s none ⟨t', setAt s.thr i (.busy op pc')⟩
  | done {s : St T K V} {i : T} {op : Call K V} {pc : PC K V} {t' : Tbl K V} {r : Ret K V}
      (h : s.thr i = .busy op pc) (hs : step Q op pc s.tbl = (t', .done r)) :
      Step Q s (some (.lin i op r)) ⟨t', setAt s.thr i (.fin op r)⟩
  | ret {s : St T K V} {i : T} {op : Call K V} {r : Ret K V} (h : s.thr i = .fin op r) :
      Step Q s (some (.ret i op r)) ⟨s.tbl, setAt s.thr i .idle⟩

/-- A new table: all elements empty (`tsx_circular.hpp:257-265`), no call active. -/
def St.init : St T K V := ⟨emptyTbl, fun _ => .idle⟩

end
end Growt.Tsx
