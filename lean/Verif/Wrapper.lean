import Verif.Spec
import Verif.Lin
import Verif.Mapper

/-!
# The wrappers around other tables (`wrapper/`)

They give the tables of other libraries the calls of the tables here.  The libraries themselves are not in
`/repo`; what is used of them is specified: each of their functions is one atomic step on a map.  Running out
of memory (or of space, folly) is not modelled.
-/

set_option linter.unusedSectionVars false

namespace Growt
namespace Wrap
variable {T K V : Type} [DecidableEq T] [DecidableEq K]

/-- The calls that the wrappers offer: no conditional erase (`wrapper/folly_wrapper.hpp:78-97`). -/
def offered : SOp K V → Bool
  | .eraseIf _ _ => false
  | _ => true

/-! ## `folly_wrapper`, `tbb_um_wrapper`: references to elements -/

/-- What the caller of these two wrappers sees at once: the boolean (or number), and whether the iterator is
`end()` (`wrapper/folly_wrapper.hpp:41-43`).  The value is read through the iterator later.
(specification, no code) -/
structure Seen where
  ok : Bool
  there : Bool
  deriving DecidableEq

/-- The same for the ideal map. (specification, no code) -/
def seen (r : SRes V) : Seen := ⟨r.ok, r.shown.isSome⟩

/-- Where a thread is in a call of `folly_wrapper` or `tbb_um_wrapper` (`wrapper/folly_wrapper.hpp:138-209`,
`wrapper/tbb_um_wrapper.hpp:120-218`). -/
inductive RPC (K V : Type) where
  | idle
  | begun (o : SOp K V)
  /-- has a reference to the element `e` and is about to call `f.atomic` (line 166 or 181) -/
  | refd (o : SOp K V) (e : Nat) (ok : Bool) (g : V → V × V)
  | done (o : SOp K V) (r : Seen)

/-- The library's table: which element belongs to a key, and the mapped values of the elements, which
stay where they are (`folly::AtomicHashMap`, `tbb::concurrent_unordered_map`, not in `/repo`), and the
threads. (specification, no code) -/
structure RSt (T K V : Type) where
  idx : K → Option Nat
  val : Nat → V
  size : Nat
  pc : T → RPC K V

/-- The thread `i` goes to `p`. (model bookkeeping, no code) -/
def RSt.at (s : RSt T K V) (i : T) (p : RPC K V) : RSt T K V := { s with pc := setAt s.pc i p }

/-- The library makes an element. (specification, no code) -/
def RSt.make (s : RSt T K V) (k : K) (d : V) : RSt T K V :=
  { s with idx := setAt s.idx k (some s.size), val := setAt s.val s.size d, size := s.size + 1 }

/-- One atomic access.  `er`: `erase` is implemented (`wrapper/folly_wrapper.hpp:205-209`), otherwise
it returns 0 (`wrapper/tbb_um_wrapper.hpp:187-192`).  `adm`: which calls are made.
`update_unsafe` and `insert_or_update_unsafe` call the others (`wrapper/folly_wrapper.hpp:186-203`), as do
`emplace` and `emplace_or_update` in effect (`wrapper/tbb_um_wrapper.hpp:195-218`).  The member `atomic` of an update
function is one access of the mapped value (`example/update_fcts.hpp:22-25`). -/
inductive RStep (er : Bool) (adm : SOp K V → Prop) :
    RSt T K V → Option (Ev T (SOp K V) Seen) → RSt T K V → Prop where
  | call {s : RSt T K V} {i : T} {o : SOp K V} (hp : s.pc i = .idle) (ho : adm o) (hf : offered o = true) :
      RStep er adm s (some (.call i o)) (s.at i (.begun o))
  /-- `wrapper/folly_wrapper.hpp:142` -/
  | find {s : RSt T K V} {i : T} {k : K} (hp : s.pc i = .begun (.find k)) :
      RStep er adm s none (s.at i (.done (.find k) ⟨(s.idx k).isSome, (s.idx k).isSome⟩))
  /-- `wrapper/folly_wrapper.hpp:152` -/
  | insNew {s : RSt T K V} {i : T} {k : K} {d : V} (hp : s.pc i = .begun (.insert k d)) (hk : s.idx k = none) :
      RStep er adm s none ((s.make k d).at i (.done (.insert k d) ⟨true, true⟩))
  | insOld {s : RSt T K V} {i : T} {k : K} {d : V} {e : Nat} (hp : s.pc i = .begun (.insert k d))
      (hk : s.idx k = some e) : RStep er adm s none (s.at i (.done (.insert k d) ⟨false, true⟩))
  /-- `wrapper/folly_wrapper.hpp:163-164` -/
  | updFound {s : RSt T K V} {i : T} {k : K} {g : V → V × V} {e : Nat} (hp : s.pc i = .begun (.modify k g))
      (hk : s.idx k = some e) : RStep er adm s none (s.at i (.refd (.modify k g) e true g))
  | updMiss {s : RSt T K V} {i : T} {k : K} {g : V → V × V} (hp : s.pc i = .begun (.modify k g))
      (hk : s.idx k = none) : RStep er adm s none (s.at i (.done (.modify k g) ⟨false, false⟩))
  /-- `wrapper/folly_wrapper.hpp:178-183` -/
  | iouNew {s : RSt T K V} {i : T} {k : K} {d : V} {g : V → V × V}
      (hp : s.pc i = .begun (.insertOrModify k d g)) (hk : s.idx k = none) :
      RStep er adm s none ((s.make k d).at i (.done (.insertOrModify k d g) ⟨true, true⟩))
  | iouFound {s : RSt T K V} {i : T} {k : K} {d : V} {g : V → V × V} {e : Nat}
      (hp : s.pc i = .begun (.insertOrModify k d g)) (hk : s.idx k = some e) :
      RStep er adm s none (s.at i (.refd (.insertOrModify k d g) e false g))
  /-- `f.atomic` on the element, `wrapper/folly_wrapper.hpp:166, 181` -/
  | apply {s : RSt T K V} {i : T} {o : SOp K V} {e : Nat} {ok : Bool} {g : V → V × V}
      (hp : s.pc i = .refd o e ok g) :
      RStep er adm s none ({ s with val := setAt s.val e (g (s.val e)).1 }.at i (.done o ⟨ok, true⟩))
  /-- `wrapper/folly_wrapper.hpp:208` -/
  | erase {s : RSt T K V} {i : T} {k : K} {e : Nat} (her : er = true) (hp : s.pc i = .begun (.erase k))
      (hk : s.idx k = some e) :
      RStep er adm s none ({ s with idx := setAt s.idx k none }.at i (.done (.erase k) ⟨true, false⟩))
  | eraseMiss {s : RSt T K V} {i : T} {k : K} (her : er = true) (hp : s.pc i = .begun (.erase k))
      (hk : s.idx k = none) : RStep er adm s none (s.at i (.done (.erase k) ⟨false, false⟩))
  /-- `wrapper/tbb_um_wrapper.hpp:191` -/
  | eraseNot {s : RSt T K V} {i : T} {k : K} (her : er = false) (hp : s.pc i = .begun (.erase k)) :
      RStep er adm s none (s.at i (.done (.erase k) ⟨false, false⟩))
  | ret {s : RSt T K V} {i : T} {o : SOp K V} {r : Seen} (hp : s.pc i = .done o r) :
      RStep er adm s (some (.ret i o r)) (s.at i .idle)

/-- An empty table (`wrapper/folly_wrapper.hpp:53-56`). -/
def RSt.init (v : V) : RSt T K V := ⟨fun _ => none, fun _ => v, 0, fun _ => .idle⟩

/-! ## `tbb_hm_wrapper`: locked elements -/

/-- What the caller sees of a `StupidIterator`: `end()` has the default key, and iterators are compared by key
(`wrapper/stupid_iterator.hpp:29-43`). -/
def shown (k0 k : K) (v : V) : Option V := if k = k0 then none else some v

/-- Where a thread is in a call of `tbb_hm_wrapper` (`wrapper/tbb_hm_wrapper.hpp:131-257`). -/
inductive HPC (K V : Type) where
  | idle
  | begun (o : SOp K V)
  /-- the accessor holds the element; `made`: this call has made it -/
  | held (o : SOp K V) (made : Bool)
  | done (o : SOp K V) (r : SRes V)

/-- The library's table with the locks of its elements (`tbb::concurrent_hash_map`, not in `/repo`), and the
threads. (specification, no code) -/
structure HSt (T K V : Type) where
  map : K → Option V
  lock : K → Option T
  pc : T → HPC K V

/-- The thread `i` goes to `p`. (model bookkeeping, no code) -/
def HSt.at (s : HSt T K V) (i : T) (p : HPC K V) : HSt T K V := { s with pc := setAt s.pc i p }

/-- What a call does while its accessor holds the element: the new mapped value, and the result
(`wrapper/tbb_hm_wrapper.hpp:136, 145-153, 178-182, 195-204`). -/
def hmBody (k0 : K) : SOp K V → Bool → V → V × SRes V
  | .find k, _, v => (v, ⟨(shown k0 k v).isSome, shown k0 k v⟩)
  | .insert k d, true, _ => (d, ⟨true, shown k0 k d⟩)
  | .insert k _, false, v => (v, ⟨false, shown k0 k v⟩)
  | .modify k g, _, v => ((g v).1, ⟨true, shown k0 k (g v).2⟩)
  | .insertOrModify k d _, true, _ => (d, ⟨true, shown k0 k d⟩)
  | .insertOrModify k _ g, false, v => ((g v).1, ⟨false, shown k0 k (g v).2⟩)
  | _, _, v => (v, ⟨false, none⟩)

/-- Calls that use an accessor: all but `erase` (`wrapper/tbb_hm_wrapper.hpp:246-250`). -/
def accesses : SOp K V → Bool
  | .erase _ | .eraseIf _ _ => false
  | _ => true

/-- One step: an access of the library, or the code between acquiring an element and the end of the
accessor, during which no other thread can get hold of the element (`wrapper/tbb_hm_wrapper.hpp:131-257`).
`v0` is the mapped value of an element made by `hash.insert(a, k)`. -/
inductive HStep (k0 : K) (v0 : V) (adm : SOp K V → Prop) :
    HSt T K V → Option (Ev T (SOp K V) (SRes V)) → HSt T K V → Prop where
  | call {s : HSt T K V} {i : T} {o : SOp K V} (hp : s.pc i = .idle) (ho : adm o) (hf : offered o = true) :
      HStep k0 v0 adm s (some (.call i o)) (s.at i (.begun o))
  /-- `hash.find(a, k)`, `hash.insert(a, k)`: the element exists; they wait for its lock
  (`wrapper/tbb_hm_wrapper.hpp:136, 145, 178, 195`) -/
  | found {s : HSt T K V} {i : T} {o : SOp K V} {v : V} (hp : s.pc i = .begun o) (ha : accesses o = true)
      (hk : s.map o.key = some v) (hl : s.lock o.key = none) :
      HStep k0 v0 adm s none ({ s with lock := setAt s.lock o.key (some i) }.at i (.held o false))
  /-- `hash.insert(a, k)`: a new element (`wrapper/tbb_hm_wrapper.hpp:145, 195`) -/
  | made {s : HSt T K V} {i : T} {o : SOp K V} (hp : s.pc i = .begun o) (ha : o.inserts = true)
      (hk : s.map o.key = none) :
      HStep k0 v0 adm s none ({ s with
        map := setAt s.map o.key (some v0)
        lock := setAt s.lock o.key (some i) }.at i (.held o true))
  /-- `hash.find(a, k)`: no such element (`wrapper/tbb_hm_wrapper.hpp:137, 184`) -/
  | missed {s : HSt T K V} {i : T} {o : SOp K V} (hp : s.pc i = .begun o) (ha : accesses o = true)
      (hn : o.inserts = false) (hk : s.map o.key = none) :
      HStep k0 v0 adm s none (s.at i (.done o ⟨false, none⟩))
  | body {s : HSt T K V} {i : T} {o : SOp K V} {m : Bool} {v : V} (hp : s.pc i = .held o m)
      (hk : s.map o.key = some v) :
      HStep k0 v0 adm s none ({ s with
        map := setAt s.map o.key (some (hmBody k0 o m v).1)
        lock := setAt s.lock o.key none }.at i (.done o (hmBody k0 o m v).2))
  /-- `hash.erase(k)` waits for the lock, too (`wrapper/tbb_hm_wrapper.hpp:249`) -/
  | erase {s : HSt T K V} {i : T} {k : K} {v : V} (hp : s.pc i = .begun (.erase k)) (hk : s.map k = some v)
      (hl : s.lock k = none) :
      HStep k0 v0 adm s none ({ s with map := setAt s.map k none }.at i (.done (.erase k) ⟨true, none⟩))
  | eraseMiss {s : HSt T K V} {i : T} {k : K} (hp : s.pc i = .begun (.erase k)) (hk : s.map k = none) :
      HStep k0 v0 adm s none (s.at i (.done (.erase k) ⟨false, none⟩))
  | ret {s : HSt T K V} {i : T} {o : SOp K V} {r : SRes V} (hp : s.pc i = .done o r) :
      HStep k0 v0 adm s (some (.ret i o r)) (s.at i .idle)

/-- An empty table (`wrapper/tbb_hm_wrapper.hpp:66-67`). -/
def HSt.init : HSt T K V := ⟨fun _ => none, fun _ => none, fun _ => .idle⟩

/-! ## `cuckoo_wrapper`: one call of the library each -/

/-- The calls of `cuckoo_wrapper` (`wrapper/cuckoo_wrapper.hpp:125-229`).  Keys and mapped values are
numbers (`: 0` and `size_t` in lines 129-131); the library's functions are atomic. -/
def cuckoo : SOp Nat Nat → Dict Nat Nat → Dict Nat Nat × SRes Nat
  | .find k, m =>
    -- 129-131: `temp` stays 0 if the key is absent
    let temp := (m k).getD 0
    let it := shown 0 (if temp ≠ 0 then k else 0) temp
    (m, ⟨it.isSome, it⟩)
  | .insert k d, m =>
    -- 140-141
    match m k with
    | none => (m.put k d, ⟨true, shown 0 k d⟩)
    | some _ => (m, ⟨false, shown 0 k d⟩)
  | .modify k g, m =>
    -- 162-165: the iterator carries `mapped_type()`
    match m k with
    | none => (m, ⟨false, shown 0 k 0⟩)
    | some w => (m.put k (g w).1, ⟨true, shown 0 k 0⟩)
  | .insertOrModify k d g, m =>
    -- 177-181: always true
    match m k with
    | none => (m.put k d, ⟨true, shown 0 k d⟩)
    | some w => (m.put k (g w).1, ⟨true, shown 0 k d⟩)
  | .erase k, m =>
    -- 221
    match m k with
    | none => (m, ⟨false, none⟩)
    | some _ => (m.del k, ⟨true, none⟩)
  | .eraseIf _ _, m => (m, ⟨false, none⟩)

/-! ## `junction_handle`: mutators -/

/-- Where a thread is in a call of `junction_handle` (`wrapper/junction_wrapper.hpp:202-351`).  The counter for
the reclamation of the library (`++count`) is left out. -/
inductive JPC where
  | idle
  | begun (o : SOp Nat Nat)
  /-- has read `temp` through the mutator and is about to call `exchangeValue` -/
  | read (o : SOp Nat Nat) (temp : Nat)
  | done (o : SOp Nat Nat) (r : SRes Nat)

/-- The library's table; 0 is the value of an absent key (`ValueTraits::NullValue`,
`wrapper/junction_wrapper.hpp:38-45`), and the threads. -/
structure JSt (T : Type) where
  map : Nat → Nat
  pc : T → JPC

/-- The thread `i` goes to `p`. (model bookkeeping, no code) -/
def JSt.at (s : JSt T) (i : T) (p : JPC) : JSt T := { s with pc := setAt s.pc i p }

/-- After `getValue`: the call is over, or `exchangeValue` follows
(`wrapper/junction_wrapper.hpp:208-218, 230-232, 261-262, 274, 293-294`). -/
def jRead : SOp Nat Nat → Nat → JPC
  | .find k, temp =>
    .done (.find k) ⟨(if temp ≠ 0 then shown 0 k temp else none).isSome, if temp ≠ 0 then shown 0 k temp else none⟩
  | .insert k d, temp =>
    if temp = 0 then .read (.insert k d) temp else .done (.insert k d) ⟨false, shown 0 k temp⟩
  | .modify k g, temp =>
    if temp ≠ 0 then .read (.modify k g) temp else .done (.modify k g) ⟨false, shown 0 0 temp⟩
  | .insertOrModify k d g, temp => .read (.insertOrModify k d g) temp
  | o, _ => .done o ⟨false, none⟩

/-- The value given to `exchangeValue`, and the result (`wrapper/junction_wrapper.hpp:234-244, 264-274,
296-311`). -/
def jWrite : SOp Nat Nat → Nat → Nat × SRes Nat
  | .insert k d, _ => (d, ⟨true, shown 0 k d⟩)
  | .modify k g, temp => ((g temp).1, ⟨true, shown 0 k (g temp).1⟩)
  | .insertOrModify k d g, temp =>
    if temp ≠ 0 then ((g temp).1, ⟨false, shown 0 k (g temp).1⟩) else (d, ⟨true, shown 0 k d⟩)
  | _, temp => (temp, ⟨false, none⟩)

/-- The call may change the mapped value of its key (`wrapper/junction_wrapper.hpp:221-345`). -/
def writes : SOp Nat Nat → Bool
  | .find _ => false
  | _ => true

/-- Calls with an update function that is not `junction_compatible` return at once
(`wrapper/junction_wrapper.hpp:254-255, 286-287`); `comp` tells which functions are. -/
def jSkip (comp : (Nat → Nat × Nat) → Bool) : SOp Nat Nat → Bool
  | .modify _ g | .insertOrModify _ _ g => !comp g
  | _ => false

/-- One access of the library.  `solo`: no two threads are in changing calls of the same key at a time (a
condition on the program, not checked by the code; `wrapper/junction_wrapper.hpp:202-345`). -/
inductive JStep (solo : Bool) (comp : (Nat → Nat × Nat) → Bool) (adm : SOp Nat Nat → Prop) :
    JSt T → Option (Ev T (SOp Nat Nat) (SRes Nat)) → JSt T → Prop where
  | call {s : JSt T} {i : T} {o : SOp Nat Nat} (hp : s.pc i = .idle) (ho : adm o) (hf : offered o = true)
      (hs : solo = true → writes o = true → ∀ j o', (s.pc j = .begun o' ∨ ∃ t, s.pc j = .read o' t) →
        writes o' = true → o'.key ≠ o.key) :
      JStep solo comp adm s (some (.call i o)) (s.at i (.begun o))
  /-- `wrapper/junction_wrapper.hpp:254-255, 286-287` -/
  | skip {s : JSt T} {i : T} {o : SOp Nat Nat} (hp : s.pc i = .begun o) (hc : jSkip comp o = true) :
      JStep solo comp adm s none (s.at i (.done o ⟨false, none⟩))
  /-- `getValue` (`wrapper/junction_wrapper.hpp:208, 230, 261, 293`) -/
  | get {s : JSt T} {i : T} {o : SOp Nat Nat} (hp : s.pc i = .begun o) (hc : jSkip comp o = false)
      (hk : ∀ k, o ≠ .erase k) : JStep solo comp adm s none (s.at i (jRead o (s.map o.key)))
  /-- `exchangeValue` (`wrapper/junction_wrapper.hpp:234, 265, 297, 301`) -/
  | exch {s : JSt T} {i : T} {o : SOp Nat Nat} {t : Nat} (hp : s.pc i = .read o t) :
      JStep solo comp adm s none ({ s with map := setAt s.map o.key (jWrite o t).1 }.at i (.done o (jWrite o t).2))
  /-- `eraseValue`, `wrapper/junction_wrapper.hpp:332-345` -/
  | erase {s : JSt T} {i : T} {k : Nat} (hp : s.pc i = .begun (.erase k)) :
      JStep solo comp adm s none ({ s with map := setAt s.map k 0 }.at i (.done (.erase k) ⟨s.map k ≠ 0, none⟩))
  | ret {s : JSt T} {i : T} {o : SOp Nat Nat} {r : SRes Nat} (hp : s.pc i = .done o r) :
      JStep solo comp adm s (some (.ret i o r)) (s.at i .idle)

/-- An empty table (`wrapper/junction_wrapper.hpp:125-128`). -/
def JSt.init : JSt T := ⟨fun _ => 0, fun _ => .idle⟩

/-! ## Sizes and moving -/

/-- `nextPowerOf2` (`wrapper/junction_wrapper.hpp:31-36`): `temp` has 32 bits. -/
def nextPowerOf2 (fuel n : Nat) : Option Nat := capLoop n fuel 1

/-- The loop of `next_cap` with a 64 bit `curr` (`wrapper/folly_wrapper.hpp:47-48`). -/
def nextCapLoop (i : Nat) : Nat → Nat → Option Nat
  | 0, _ => none
  | fuel + 1, curr => if curr < i then nextCapLoop i fuel ((curr <<< 1) % 2 ^ 64) else some curr

/-- `next_cap` (`wrapper/folly_wrapper.hpp:45-50`). -/
def nextCap (fuel i : Nat) : Option Nat := (nextCapLoop i fuel 4096).map fun c => (c <<< 1) % 2 ^ 64

/-- The contents of a moved `folly_wrapper` or `cuckoo_wrapper`: a new table of the same capacity
(`wrapper/folly_wrapper.hpp:59-73`, `wrapper/cuckoo_wrapper.hpp:53-65`). -/
def moved (_ : Dict K V) : Dict K V := fun _ => none

end Wrap
end Growt
