/-!
# Handles that are moved: who refers to whom

The objects of the handles of a growing table and the references between them.  A handle consists of
`_local_worker` and `_local_exclusion` (`migration_table.hpp:301-302`); `_local_exclusion` has a reference
`_worker_strat` to a `_local_worker` (`estrat_async.hpp:172`, `estrat_sync.hpp:161`).  With the thread pool
(`wstrat_pool.hpp`), a handle has a thread (`_grow_thread`) and owns a flag (`_finished`); the thread has
references to a `_local_exclusion` and to a flag (`wstrat_pool.hpp:162-172`).

Simplifications.  Only existence and initialisation of these objects are modelled.  An object never comes into
being twice (a new object at the address of a destroyed one is another object).  The counters of a handle are in
`Count.lean`, the flags of the synchronised protocol in `Sync.lean`.
-/

namespace Growt
namespace Moves

/-- What `_finished` of a handle is (`wstrat_pool.hpp:81`): null, or the flag with this number. -/
abbrev Flag := Option Nat

/-- A handle (`migration_table.hpp:301-302`). -/
structure Hdl where
  /-- `_local_exclusion._worker_strat`: refers to `_local_worker` of this handle -/
  ref : Nat
  /-- `_local_worker._grow_thread`: the thread, if joinable -/
  thread : Option Nat
  /-- `_local_worker._finished` -/
  fin : Flag
  /-- ghost: the handle has been moved from -/
  moved : Bool
  deriving DecidableEq

/-- A thread of the pool: the handle whose `_local_exclusion` it has a reference to, and the flag
(`wstrat_pool.hpp:167-171`). -/
structure Thr where
  estrat : Nat
  flag : Nat
  deriving DecidableEq

/-- An object: not yet there, there, or destroyed. (model bookkeeping, no code) -/
inductive Life (X : Type) where
  | unborn
  | alive (x : X)
  | dead
  deriving DecidableEq

/-- All handles, threads and flags (each handle, and its thread and flag, has a number).
(`migration_table.hpp:301-302`, `wstrat_pool.hpp:78-81`) -/
structure St where
  hdl : Nat → Life Hdl
  thr : Nat → Life Thr
  flag : Nat → Life Unit

/-- No handles yet. (model bookkeeping, no code) -/
def St.init : St := ⟨fun _ => .unborn, fun _ => .unborn, fun _ => .unborn⟩

/-- What the program does. (`migration_table.hpp:467-538`) -/
inductive Act where
  /-- a new handle `i` -/
  | create (i : Nat)
  /-- a new handle `j` is made from handle `i`, which is left moved-from -/
  | move (i j : Nat)
  /-- handle `i` is destroyed -/
  | destroy (i : Nat)
  /-- an operation of handle `i` calls `grow` or `help_grow` -/
  | grow (i : Nat)
  /-- thread `p` of the pool goes through its loop once -/
  | work (p : Nat)
  deriving DecidableEq

/-- The outcome of a step: a state; undefined behaviour (an object is accessed that is destroyed or not
initialised); or the program is not allowed to do this (use a handle that does not exist, or that has been
moved from). (model bookkeeping, no code) -/
inductive Out where
  | ok (s : St)
  | ub
  | illegal

/-- Functions changed at one place. (model bookkeeping, no code) -/
def set {X : Type} (f : Nat → X) (i : Nat) (x : X) : Nat → X := fun j => if j = i then x else f j

/-- Constructor (`migration_table.hpp:467-478`): `_worker_strat` refers to the new handle's own worker
(`estrat_async.hpp:152-157`, `estrat_sync.hpp:229-235`); with the pool a flag is allocated
(`wstrat_pool.hpp:133-137`) and a thread is started (`wstrat_pool.hpp:162-172`). -/
def create (pool : Bool) (s : St) (i : Nat) : Out :=
  match s.hdl i with
  | .unborn =>
    if pool then
      .ok ⟨set s.hdl i (.alive ⟨i, some i, some i, false⟩), set s.thr i (.alive ⟨i, i⟩), set s.flag i (.alive ())⟩
    else .ok { s with hdl := set s.hdl i (.alive ⟨i, none, none, false⟩) }
  | _ => .illegal

/-- Move constructor (`migration_table.hpp:495-506`).  `_worker_strat` is copied: the default move constructor in
`estrat_async.hpp:162`, and `estrat_sync.hpp:240`.  `_grow_thread` is moved.  `_finished` is moved from itself
(`wstrat_pool.hpp:144`: `_finished(std::move(_finished))`), which reads a pointer that is not initialised.
`typo = false` is the constructor with `rhs._finished` instead. -/
def move (pool typo : Bool) (s : St) (i j : Nat) : Out :=
  match s.hdl i, s.hdl j with
  | .alive h, .unborn =>
    if h.moved || i == j then .illegal
    else if pool && typo then .ub
    else .ok { s with
      hdl := set (set s.hdl i (.alive ⟨h.ref, none, none, true⟩)) j (.alive ⟨h.ref, h.thread, h.fin, false⟩) }
  | _, _ => .illegal

/-- Destructor (`migration_table.hpp:522-538`): `deinit` of the worker (`wstrat_pool.hpp:178-189`) stores to the
flag and waits for the thread if there is one, which accesses its flag (`wstrat_pool.hpp:121, 129`); then the
members are destroyed, the flag too (`unique_ptr`, line 81). -/
def destroy (s : St) (i : Nat) : Out :=
  match s.hdl i with
  | .alive h =>
    match h.thread with
    | none => .ok { s with
        hdl := set s.hdl i .dead
        flag := match h.fin with
          | some f => set s.flag f .dead
          | none => s.flag }
    | some p =>
      match h.fin, s.thr p with
      | some f, .alive w =>
        if s.flag f = .alive () ∧ s.flag w.flag = .alive () then
          .ok ⟨set s.hdl i .dead, set s.thr p .dead, set s.flag f .dead⟩
        else .ub
      | _, _ => .ub
  | _ => .illegal

/-- `execute_migration` is called for the worker that `_worker_strat` refers to (`estrat_async.hpp:235, 243`,
`estrat_sync.hpp:349, 379`). -/
def grow (s : St) (i : Nat) : Out :=
  match s.hdl i with
  | .alive h =>
    if h.moved then .illegal
    else match s.hdl h.ref with
      | .alive _ => .ok s
      | _ => .ub
  | _ => .illegal

/-- The loop of a thread of the pool (`wstrat_pool.hpp:118-128`): it reads its flag and calls `migrate` of the
`_local_exclusion` that it has a reference to. -/
def work (s : St) (p : Nat) : Out :=
  match s.thr p with
  | .alive w =>
    match s.flag w.flag, s.hdl w.estrat with
    | .alive _, .alive _ => .ok s
    | _, _ => .ub
  | _ => .illegal

/-- A step. (`migration_table.hpp:467-538`, `wstrat_pool.hpp:109-201`) -/
def step (pool typo : Bool) (s : St) : Act → Out
  | .create i => create pool s i
  | .move i j => move pool typo s i j
  | .destroy i => destroy s i
  | .grow i => grow s i
  | .work p => work s p

/-- A program: the steps one after another; it ends with undefined behaviour or an illegal call.
(model bookkeeping, no code) -/
def run (pool typo : Bool) : St → List Act → Out
  | s, [] => .ok s
  | s, a :: l =>
    match step pool typo s a with
    | .ok s' => run pool typo s' l
    | o => o

end Moves
end Growt
