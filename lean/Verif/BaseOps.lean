import Verif.Cell
import Verif.Mapper
import Verif.ReturnCode

/-!
# The operations of `base_linear` as step machines

One step is one atomic access to a slot.  The same machine is run alone (`run`) and interleaved
with other threads (`Conc`).
-/

namespace Growt

/-- API calls of `base_linear` (`data-structures/base_linear.hpp:192-243`), with the update
functors already applied to their extra arguments. -/
inductive Op (K V : Type) where
  | find (k : K)
  | insert (k : K) (d : V)
  | update (k : K) (f : UpdFn V)
  /-- `b n` = answer of the backoff callback to its `n`-th call within this operation -/
  | updateBackoff (k : K) (f : UpdFn V) (b : Nat → Bool)
  | updateUnsafe (k : K) (f : UpdFn V)
  | insertOrUpdate (k : K) (d : V) (f : UpdFn V)
  | insertOrUpdateUnsafe (k : K) (d : V) (f : UpdFn V)
  | erase (k : K)
  | eraseIf (k : K) (d : V)
  /-- `update` on slots that point to their element (`complex_slot`): `atomic_update` works on the element and leaves
  the slot alone (`complex_slot.hpp:531-606`); this is the part of `update_intern` before that access.  The value `V`
  is the address of the element. -/
  | locate (k : K)

/-- The key of a call (`base_linear.hpp:192-243`). -/
def Op.key {K V : Type} : Op K V → K
  | .find k | .insert k _ | .update k _ | .updateBackoff k _ _ | .updateUnsafe k _
  | .insertOrUpdate k _ _ | .insertOrUpdateUnsafe k _ _ | .erase k | .eraseIf k _ | .locate k => k

/-- What is fixed during the life of one base table: geometry (`_mapper`), hash function (`_hash`, `base_linear.hpp:249-253`; values below
`2^64`), and whether its slots are markable. -/
structure Env (K : Type) where
  M : Mapper
  h : K → Nat
  m : Bool

/-- Table contents by slot index. (`_table`, `base_linear.hpp:248`) -/
abbrev Tbl (K V : Type) := Nat → Cell K V

/-- Overwrite one slot. (model bookkeeping, no code) -/
def Tbl.set {K V : Type} (t : Tbl K V) (i : Nat) (x : Cell K V) : Tbl K V :=
  fun j => if j = i then x else t j

/-- Program counter inside a probe loop: about to load slot `remap i`, or about to perform the
CAS/update on it with the loaded copy `curr`.  `att` counts calls of the backoff callback.
(`base_linear.hpp:556-916`) -/
inductive PC (K V : Type) where
  | load (i att : Nat)
  | act (i att : Nat) (curr : Cell K V)

/-- Result of an operation: the `ReturnCode` (`none` for `find`, which returns only an iterator)
and the iterator as slot index and copied slot (`none` = `end()`).
(`insert_return_intern`, `base_linear.hpp:167`) -/
structure Ret (K V : Type) where
  code : Option ReturnCode
  it : Option (Nat × Cell K V)

/-- Outcome of a step: continue, finished, or out-of-bounds access (undefined behaviour).
(`base_linear.hpp:556-916`) -/
inductive Out (K V : Type) where
  | cont (pc : PC K V)
  | done (r : Ret K V)
  | oob

section
variable {K V : Type} [DecidableEq K] [DecidableEq V] [Inhabited V]

/-- Starting point of every probe loop: `i = _mapper.map(hash)`
(e.g. `base_linear.hpp:562`). -/
def start (E : Env K) (op : Op K V) : PC K V := .load (E.M.map (E.h op.key)) 0

/-- Return without iterator. (`make_insert_ret(end(), code)`, `base_linear.hpp:569`) -/
def retEnd (c : ReturnCode) : Out K V := .done ⟨some c, none⟩

/-- `if constexpr (!cyclic_probing) if (temp > addressable_slots() + 300)`,
`base_linear.hpp:573-577, 744-748, 795-799`. -/
def tooFar (E : Env K) (pos : Nat) : Bool := !E.M.cp && decide (pos > E.M.addr + 300)

/-- Processing of a freshly loaded slot `curr` at index `i` (position `pos`), up to the next atomic
access.  Per operation:
`find` 887-899, `insert_intern` 562-600, `update_intern` 611-638 (also `locate`),
`update_with_backoff_intern` 652-681, `update_unsafe_intern` 692-719,
`insert_or_update_intern` 734-771, `insert_or_update_unsafe_intern` 785-821,
`erase_intern` 830-848, `erase_if_intern` 858-876 (all in `base_linear.hpp`).
`i` is not reduced modulo `2^64`; this is immaterial because with circular probing the mask is
applied to it and otherwise it stays below the table size (theorem C11). -/
def afterLoad (E : Env K) (op : Op K V) (i att pos : Nat) (curr : Cell K V) : Out K V :=
  match op with
  | .find k =>
    if curr.isEmpty then .done ⟨none, none⟩
    else if curr.hasKey k then .done ⟨none, some (pos, curr)⟩
    else .cont (.load (i + 1) att)
  | .insert k _ =>
    if curr.marked then retEnd .UNSUCCESS_INVALID
    else if curr.isEmpty then
      if tooFar E pos then retEnd .UNSUCCESS_FULL else .cont (.act i att curr)
    else if curr.hasKey k then .done ⟨some .UNSUCCESS_ALREADY_USED, some (pos, curr)⟩
    else .cont (.load (i + 1) att)
  | .insertOrUpdate k _ _ | .insertOrUpdateUnsafe k _ _ =>
    if curr.marked then retEnd .UNSUCCESS_INVALID
    else if curr.isEmpty then
      if tooFar E pos then retEnd .UNSUCCESS_FULL else .cont (.act i att curr)
    else if curr.hasKey k then .cont (.act i att curr)
    else .cont (.load (i + 1) att)
  | .update k _ | .updateBackoff k _ _ | .updateUnsafe k _ | .erase k =>
    if curr.marked then retEnd .UNSUCCESS_INVALID
    else if curr.isEmpty then retEnd .UNSUCCESS_NOT_FOUND
    else if curr.hasKey k then .cont (.act i att curr)
    else .cont (.load (i + 1) att)
  | .eraseIf k d =>
    if curr.marked then retEnd .UNSUCCESS_INVALID
    else if curr.isEmpty then retEnd .UNSUCCESS_NOT_FOUND
    else if curr.hasKey k then
      if curr.mapped ≠ d then retEnd .UNSUCCESS_NOT_FOUND else .cont (.act i att curr)
    else .cont (.load (i + 1) att)
  | .locate k =>
    if curr.marked then retEnd .UNSUCCESS_INVALID
    else if curr.isEmpty then retEnd .UNSUCCESS_NOT_FOUND
    else if curr.hasKey k then .done ⟨some .SUCCESS_UP, some (pos, curr)⟩
    else .cont (.load (i + 1) att)

/-- CAS of slot `pos` from `curr` to `new` (`cas`, `simple_slot.hpp:333`); on success finish with
`r`, on failure re-load the same slot (`--i`). -/
def casStep (t : Tbl K V) (i att pos : Nat) (curr new : Cell K V) (r : Ret K V) :
    Tbl K V × Out K V :=
  if t pos = curr then (t.set pos new, .done r) else (t, .cont (.load i att))

/-- The modifying access of an operation on slot `pos` after `curr` was loaded from it
(`base_linear.hpp:578-584, 625-632, 666-675, 706-713, 749-754, 758-765, 800-804, 808-815,
838-842, 866-870`). -/
def actStep (E : Env K) (op : Op K V) (i att pos : Nat) (curr : Cell K V) (t : Tbl K V) :
    Tbl K V × Out K V :=
  let upd (k : K) (f : UpdFn V) (fail : Out K V) : Tbl K V × Out K V :=
    let (nc, data, succ) := atomicUpdate E.m k (t pos) curr f
    (t.set pos nc, if succ then .done ⟨some .SUCCESS_UP, some (pos, data)⟩ else fail)
  let updUnsafe (k : K) (f : UpdFn V) : Tbl K V × Out K V :=
    let (nc, data) := nonAtomicUpdate k (t pos) f
    (t.set pos nc, .done ⟨some .SUCCESS_UP, some (pos, data)⟩)
  match op with
  | .find _ | .locate _ => (t, .oob) -- no such program point
  | .insert k d =>
    -- the iterator is made from `curr`, the *empty* slot that was read (line 580)
    casStep t i att pos curr (Cell.liveCell k d) ⟨some .SUCCESS_IN, some (pos, curr)⟩
  | .update k f => upd k f (.cont (.load i att))
  | .updateBackoff k f b =>
    upd k f (if b att then .cont (.load i (att + 1)) else retEnd .UNSUCCESS_BACKOFF)
  | .updateUnsafe k f => updUnsafe k f
  | .insertOrUpdate k d f =>
    if curr.isEmpty then
      casStep t i att pos curr (Cell.liveCell k d)
        ⟨some .SUCCESS_IN, some (pos, Cell.liveCell k d)⟩
    else upd k f (.cont (.load i att))
  | .insertOrUpdateUnsafe k d f =>
    if curr.isEmpty then
      casStep t i att pos curr (Cell.liveCell k d)
        ⟨some .SUCCESS_IN, some (pos, Cell.liveCell k d)⟩
    else updUnsafe k f
  | .erase _ | .eraseIf _ _ =>
    casStep t i att pos curr Cell.deletedCell ⟨some .SUCCESS_DEL, none⟩

/-- One atomic step of an operation.  An index outside the allocation is undefined behaviour.
(`base_linear.hpp:556-916`) -/
def step (E : Env K) (op : Op K V) (pc : PC K V) (t : Tbl K V) : Tbl K V × Out K V :=
  match pc with
  | .load i att =>
    let pos := E.M.remap i
    if pos < E.M.total then (t, afterLoad E op i att pos (t pos)) else (t, .oob)
  | .act i att curr =>
    let pos := E.M.remap i
    if pos < E.M.total then actStep E op i att pos curr t else (t, .oob)

/-- Result of running an operation alone. (model bookkeeping, no code) -/
inductive RunRes (K V : Type) where
  | done (t : Tbl K V) (r : Ret K V)
  | oob
  | timeout

/-- Run an operation alone for at most `fuel` steps. (`base_linear.hpp:556-916` without other threads) -/
def run (E : Env K) (op : Op K V) : Nat → PC K V → Tbl K V → RunRes K V
  | 0, _, _ => .timeout
  | fuel + 1, pc, t =>
    match step E op pc t with
    | (t', .cont pc') => run E op fuel pc' t'
    | (t', .done r) => .done t' r
    | (_, .oob) => .oob

/-- The boolean / size result given to the caller: `find(k) != end()`;
`successful(rcode)` (`base_linear.hpp:929, 967, 975, 984, 997, 1007`);
`rcode == SUCCESS_IN` for insert_or_update (1026, 1064). -/
def Ret.ok (op : Op K V) (r : Ret K V) : Bool :=
  match op with
  | .find _ => r.it.isSome
  | .insertOrUpdate _ _ _ | .insertOrUpdateUnsafe _ _ _ => decide (r.code = some .SUCCESS_IN)
  | _ => match r.code with | some c => c.successful | none => false

/-- The value seen when the returned iterator is dereferenced (`base_linear_iterator.hpp:252`). -/
def Ret.shown (r : Ret K V) : Option V := r.it.bind fun p => p.2.val?

/-- The call as the specification sees it. (specification, no code) -/
def Op.toSpec (m : Bool) : Op K V → SOp K V
  | .find k | .locate k => .find k
  | .insert k d => .insert k d
  | .update k f | .updateBackoff k f _ => .modify k (f.eff m)
  | .updateUnsafe k f => .modify k f.effUnsafe
  | .insertOrUpdate k d f => .insertOrModify k d (f.eff m)
  | .insertOrUpdateUnsafe k d f => .insertOrModify k d f.effUnsafe
  | .erase k => .erase k
  | .eraseIf k d => .eraseIf k d

/-- The result of a call agrees with the specification: same boolean and same visible value.  The
one exemption is the iterator of a successful plain `insert`, which the code builds from the
empty slot (see property C09). (specification, no code) -/
def Agrees (op : Op K V) (r : Ret K V) (s : SRes V) : Prop :=
  r.ok op = s.ok ∧
    ((∃ k d, op = .insert k d) ∧ r.ok op = true ∨ r.shown = s.shown)

/-- The calls that may be refused without effect, and the code they then return: insertions with
`UNSUCCESS_FULL`, updates with backoff with `UNSUCCESS_BACKOFF`. (specification, no code) -/
def Op.mayRefuse (op : Op K V) (c : ReturnCode) : Prop :=
  match op with
  | .insert _ _ | .insertOrUpdate _ _ _ | .insertOrUpdateUnsafe _ _ _ => c = .UNSUCCESS_FULL
  | .updateBackoff _ _ b => c = .UNSUCCESS_BACKOFF ∧ ∃ n, b n = false
  | _ => False

/-- The table stores exactly the dictionary `d`: every element of `d` is in some slot of the
allocation and every element in a slot is in `d`. (specification, no code) -/
def Stores (E : Env K) (t : Tbl K V) (d : Dict K V) : Prop :=
  ∀ k v, d k = some v ↔ ∃ i, i < E.M.total ∧ (t i).c = .live k v

end
end Growt
