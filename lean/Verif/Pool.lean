/-
The thread pool worker strategy (data-structures/strategies/wstrat_pool.hpp, counting_wait.hpp) together with
asynchronous growth (estrat_async.hpp).

Every handle has a thread of its own in the pool.  A schedule is a list of actions, one atomic access or one
system call each; `act` computes what an action does, `none` if the thread cannot do it.

Simplifications.  A table is identified by its version: a table has one successor, whose version is larger by
one, and only it can replace the table (proved in Props/Async.lean: `C25_one_successor`,
`C25_successor_fixed`).  The contents of tables are reduced to "block `k` of table `v` has been migrated";
reclamation is left out (Props/Async.lean, C27); so is the waiting in `init` and `load` for `_epoch`
(C26).  `counting_wait` holds an `int`, versions are `size_t`, the local epoch a `uint`: versions are taken to
stay below `2^31`.  A call of FUTEX_WAKE wakes all sleepers (at most 9999 in the code).
-/

set_option linter.unusedSectionVars false

namespace Growt
namespace Pool

/-- Where the thread of a user is.
(`estrat_async.hpp:207-350`, `wstrat_pool.hpp:178-201`; the lines are at the constructors) -/
inductive UPC where
  /-- no handle yet -/
  | fresh
  /-- between operations; the version of the table of the handle -/
  | idle (v : Nat)
  /-- `grow`, estrat_async.hpp 222-229: about to attach a successor -/
  | gr (v : Nat)
  /-- `execute_migration(v)`, wstrat_pool.hpp 198: about to call `_grow_wait.inc_if(v)` -/
  | ex1 (v : Nat)
  /-- 198: about to call `_grow_wait.wake()` -/
  | ex2 (v : Nat)
  /-- 200: about to call `_user_wait.wait_if(v)` -/
  | ex3 (v : Nat)
  /-- asleep in this call -/
  | asleep (v : Nat)
  /-- `end_grow`, estrat_async.hpp 325: waiting for `_n_helper == 0` -/
  | eg1 (v : Nat)
  /-- 330-346: about to replace the table -/
  | eg2 (v : Nat)
  /-- 349: about to load the table -/
  | ld
  /-- `deinit`, wstrat_pool.hpp 184-187 -/
  | join
  /-- the handle is destroyed -/
  | gone
deriving DecidableEq, Repr

/-- Where the pool thread of a handle is (`grow_thread_loop`, wstrat_pool.hpp 109-130); `e` is its local
variable `epoch`. -/
inductive PPC where
  /-- not started -/
  | none
  /-- 118: about to call `_grow_wait.wait_if(e)` -/
  | wait (e : Nat)
  /-- asleep in this call -/
  | asleep (e : Nat)
  /-- 119: about to read `finished` -/
  | chk (e : Nat)
  /-- `migrate`, estrat_async.hpp 251: about to increment `_n_helper` -/
  | m0 (e : Nat)
  /-- 256: about to read the current table -/
  | m1 (e : Nat)
  /-- 263: about to read the successor of the table with version `w` -/
  | m2 (e w : Nat)
  /-- `blockwise_migrate`, 298 and 305: about to get a block -/
  | m4 (e w : Nat)
  /-- 301: migrating block `k` -/
  | m5 (e w k : Nat)
  /-- 265, 280: about to decrement `_n_helper`; `r` will be returned -/
  | m6 (e r : Nat)
  /-- wstrat_pool.hpp 123: about to call `_user_wait.inc_if(e)` -/
  | inc (e r : Nat)
  /-- 124: about to call `_user_wait.wake()` -/
  | wk (e r : Nat)
  /-- 128: ended -/
  | ended
deriving DecidableEq, Repr

/-- The shared state. (`estrat_async.hpp:136-139`, `wstrat_pool.hpp:53-60`) -/
structure St (T : Type) where
  /-- version of `_global._table` (estrat_async.hpp 137) -/
  glob : Nat
  /-- the table has a successor (`next_table`, estrat_async.hpp 89) -/
  att : Nat → Bool
  /-- number of blocks given out (`_current_copy_block`) -/
  claimed : Nat → Nat
  /-- ghost: the block of the table has been migrated completely -/
  fin : Nat → Nat → Bool
  /-- `_n_helper` (estrat_async.hpp 139) -/
  helpers : Nat
  /-- `_grow_wait` (wstrat_pool.hpp 59) -/
  gw : Nat
  /-- `_user_wait` (wstrat_pool.hpp 60) -/
  uw : Nat
  user : T → UPC
  pool : T → PPC
  /-- `_finished` of the handle is 1 (wstrat_pool.hpp 182) -/
  stop : T → Bool

/-- What may happen. (the lines are at the constructors; `migration_table.hpp:467-538`) -/
inductive Act (T : Type) where
  /-- the constructor of a handle, migration_table.hpp 467-478: the pool thread is started -/
  | create (t : T)
  /-- an operation of the handle calls `grow` (migration_table.hpp 612-614) -/
  | grow (t : T)
  /-- an operation of the handle meets a marked slot and calls `help_grow` (migration_table.hpp 622-624) -/
  | help (t : T)
  /-- the next step of the user's thread -/
  | user (t : T)
  /-- the next step of the pool thread -/
  | pool (t : T)
  /-- the handle is destroyed, migration_table.hpp 536 -/
  | destroy (t : T)
  /-- FUTEX_WAIT of the user's thread returns without a reason -/
  | spurU (t : T)
  /-- FUTEX_WAIT of the pool thread returns without a reason -/
  | spurP (t : T)

variable {T : Type} [DecidableEq T]

/-- Update at one place (bookkeeping). (model bookkeeping, no code) -/
def put {I X : Type} [DecidableEq I] (f : I → X) (i : I) (x : X) : I → X :=
  fun j => if j = i then x else f j

@[simp] theorem put_same {I X : Type} [DecidableEq I] (f : I → X) (i : I) (x : X) : put f i x i = x := by
  simp [put]

theorem put_other {I X : Type} [DecidableEq I] (f : I → X) {i j : I} (x : X) (h : j ≠ i) :
    put f i x j = f j := by simp [put, h]

/-- `_grow_wait.wake()` for one pool thread (counting_wait.hpp 63-66): FUTEX_WAIT returns and `wait_if`
with it; the counter is not read again. -/
def wakeP : PPC → PPC
  | .asleep e => .chk e
  | p => p

/-- `_user_wait.wake()` for one user's thread. (`counting_wait.hpp:63-66`) -/
def wakeU : UPC → UPC
  | .asleep v => .eg1 v
  | p => p

/-- A step of the user's thread. (`estrat_async.hpp:207-350`, `wstrat_pool.hpp:178-201`) -/
def userStep (s : St T) (t : T) : Option (St T) :=
  match s.user t with
  | .fresh => none
  | .idle v =>
    -- `get_table`, estrat_async.hpp 207-214
    if v < s.glob then some { s with user := put s.user t (.idle s.glob) } else none
  | .gr v =>
    -- 222-233; a second successor is thrown away
    some { s with att := put s.att v true, user := put s.user t (.ex1 v) }
  | .ex1 v =>
    -- `inc_if`, counting_wait.hpp 47-53
    if s.gw = v then some { s with gw := v + 1, user := put s.user t (.ex2 v) }
    else some { s with user := put s.user t (.ex3 v) }
  | .ex2 v => some { s with pool := fun p => wakeP (s.pool p), user := put s.user t (.ex3 v) }
  | .ex3 v =>
    -- `wait_if`, counting_wait.hpp 55-61
    if s.uw = v then some { s with user := put s.user t (.asleep v) }
    else some { s with user := put s.user t (.eg1 v) }
  | .asleep _ => none
  | .eg1 v => if s.helpers = 0 then some { s with user := put s.user t (.eg2 v) } else some s
  | .eg2 v =>
    if s.glob = v then some { s with glob := v + 1, user := put s.user t .ld }
    else some { s with user := put s.user t .ld }
  | .ld => some { s with user := put s.user t (.idle s.glob) }
  | .join =>
    if s.pool t = .ended then some { s with user := put s.user t .gone }
    else some { s with pool := fun p => wakeP (s.pool p) }
  | .gone => none

/-- A step of the pool thread of handle `t`; `blocks v` is the number of blocks of the table with version
`v`. (`wstrat_pool.hpp:109-130`, `estrat_async.hpp:247-308`) -/
def poolStep (blocks : Nat → Nat) (s : St T) (t : T) : Option (St T) :=
  match s.pool t with
  | .none => none
  | .wait e =>
    if s.gw = e then some { s with pool := put s.pool t (.asleep e) }
    else some { s with pool := put s.pool t (.chk e) }
  | .asleep _ => none
  | .chk e =>
    if s.stop t then some { s with pool := put s.pool t .ended }
    else some { s with pool := put s.pool t (.m0 e) }
  | .m0 e => some { s with helpers := s.helpers + 1, pool := put s.pool t (.m1 e) }
  | .m1 e => some { s with pool := put s.pool t (.m2 e s.glob) }
  | .m2 e w =>
    if s.att w then some { s with pool := put s.pool t (.m4 e w) }
    else some { s with pool := put s.pool t (.m6 e w) }
  | .m4 e w =>
    if s.claimed w < blocks w then
      some { s with claimed := put s.claimed w (s.claimed w + 1), pool := put s.pool t (.m5 e w (s.claimed w)) }
    else
      some { s with claimed := put s.claimed w (s.claimed w + 1), pool := put s.pool t (.m6 e (w + 1)) }
  | .m5 e w k => some { s with fin := put s.fin w (put (s.fin w) k true), pool := put s.pool t (.m4 e w) }
  | .m6 e r => some { s with helpers := s.helpers - 1, pool := put s.pool t (.inc e r) }
  | .inc e r =>
    if s.uw = e then some { s with uw := e + 1, pool := put s.pool t (.wk e r) }
    else some { s with pool := put s.pool t (.wk e r) }
  | .wk _ r => some { s with user := fun u => wakeU (s.user u), pool := put s.pool t (.wait r) }
  | .ended => none

/-- What an action does. (`migration_table.hpp:467-538`) -/
def act (blocks : Nat → Nat) (s : St T) : Act T → Option (St T)
  | .create t =>
    if s.user t = .fresh then
      some { s with user := put s.user t (.idle s.glob), pool := put s.pool t (.wait 0) }
    else none
  | .grow t =>
    match s.user t with
    | .idle v => some { s with user := put s.user t (.gr v) }
    | _ => none
  | .help t =>
    match s.user t with
    | .idle v => if s.att v then some { s with user := put s.user t (.ex1 v) } else none
    | _ => none
  | .user t => userStep s t
  | .pool t => poolStep blocks s t
  | .destroy t =>
    match s.user t with
    | .idle _ => some { s with stop := put s.stop t true, user := put s.user t .join }
    | _ => none
  | .spurU t =>
    match s.user t with
    | .asleep v => some { s with user := put s.user t (.eg1 v) }
    | _ => none
  | .spurP t =>
    match s.pool t with
    | .asleep e => some { s with pool := put s.pool t (.chk e) }
    | _ => none

/-- A schedule. (model bookkeeping, no code) -/
def run (blocks : Nat → Nat) (s : St T) : List (Act T) → Option (St T)
  | [] => some s
  | a :: l => (act blocks s a).bind fun s' => run blocks s' l

/-- The state after the table has been constructed (estrat_async.hpp 109-115, wstrat_pool.hpp 53). -/
def St.init : St T :=
  ⟨0, fun _ => false, fun _ => 0, fun _ _ => false, 0, 0, 0, fun _ => .fresh, fun _ => .none, fun _ => false⟩

/-- The action is a spurious wake-up. (`counting_wait.hpp:55-61`) -/
def Act.spurious : Act T → Bool
  | .spurU _ => true
  | .spurP _ => true
  | _ => false

theorem run_append (blocks : Nat → Nat) (s : St T) (l l' : List (Act T)) :
    run blocks s (l ++ l') = (run blocks s l).bind fun s' => run blocks s' l' := by
  induction l generalizing s with
  | nil => rfl
  | cons a l ih =>
    simp only [List.cons_append, run]
    cases act blocks s a with
    | none => rfl
    | some s' => exact ih s'

end Pool
end Growt
