/-!
# Synchronised growth with the thread pool

`data-structures/strategies/estrat_sync.hpp` with the worker strategy `wstrat_pool.hpp` (and
`counting_wait.hpp`): a thread that grows the table, or meets a growing table, does not copy elements itself
but wakes the threads of the pool and sleeps.  Every handle has a thread in the pool, which uses the flag
`mig_protect` of the handle; the thread of the user uses `ops_protect`.

A schedule is a list of actions, one atomic access or one system call each; `act` computes what an action
does, `none` if the thread cannot do it.

Simplifications.  A table is identified by its version (a table has one successor, whose version is larger
by one: only the thread that has set `_epoch` creates it; an address that is used again is another table).
The contents of tables are reduced to "block `k` of table `v` has been migrated".  Handles are numbered in
the order of their creation, the number is the index of the flags (`register_handle` is in `SyncReg.lean`;
handles are not moved, and flags are not used again).  Versions stay below `2^31`.  A call of FUTEX_WAKE
wakes all sleepers (at most 9999 in the code).  Operations do not call `help_grow` themselves (slots are
never marked).  All accesses are sequentially consistent (C54).
-/

set_option linter.unusedSectionVars false

namespace Growt
namespace SyncPool

/-- Value of `_global._table` (`estrat_sync.hpp:136`): null, or the version of the table, with the growing
flag or without. -/
inductive Cur where
  | null
  | clear (v : Nat)
  | mark (v : Nat)
deriving DecidableEq, Repr

/-- Where the thread of a user is.
(`estrat_sync.hpp:265-388`, `wstrat_pool.hpp:178-201`; the lines are at the constructors) -/
inductive UPC where
  /-- no handle yet -/
  | fresh
  /-- between operations -/
  | idle
  /-- `get_table`, `estrat_sync.hpp:269, 271`: about to load `_table` -/
  | gt1
  /-- 284: about to store `ops_protect` -/
  | gt2 (v : Nat)
  /-- 286: about to load `_table` again -/
  | gt3 (v : Nat)
  /-- 291: about to clear `ops_protect` -/
  | gt4
  /-- in an operation on the table with version `v` -/
  | op (v : Nat)
  /-- `grow(v)`, 305: about to load `_epoch` -/
  | gr1 (v : Nat)
  /-- 307: about to exchange `_epoch`, which was `e` -/
  | gr2 (v e : Nat)
  /-- 316, 326: about to load and mark `_table` -/
  | gr3 (v : Nat)
  /-- 333, 473: about to create the new table and load `_last_handle_id` -/
  | gr6 (v : Nat)
  /-- 474-486: about to load `ops_protect` of flags `j` of `n` -/
  | gr7 (v n j : Nat)
  /-- 342: about to store `_next_table` -/
  | gr8 (v : Nat)
  /-- `help_grow`, 379-380: about to load `_epoch` -/
  | he
  /-- `execute_migration(v)`, `wstrat_pool.hpp:198`: about to call `_grow_wait.inc_if(v)`; `g`: called by
  `grow`, not by `help_grow` -/
  | ex1 (g : Bool) (v : Nat)
  /-- 198: about to call `_grow_wait.wake()` -/
  | ex2 (g : Bool) (v : Nat)
  /-- 200: about to call `_user_wait.wait_if(v)` -/
  | ex3 (g : Bool) (v : Nat)
  /-- asleep in this call -/
  | asleep (g : Bool) (v : Nat)
  /-- `estrat_sync.hpp:358`: about to set `_table` to null -/
  | gr10 (v : Nat)
  /-- 491: about to load `_last_handle_id` -/
  | gr11 (v : Nat)
  /-- 492-504: about to load `mig_protect` of flags `j` of `n` -/
  | gr12 (v n j : Nat)
  /-- 364: about to set `_table` to the new table -/
  | gr13 (v : Nat)
  /-- 369: about to delete the old table -/
  | gr14 (v : Nat)
  /-- `help_grow`, 383-387: waiting for the new table -/
  | hg
  /-- `deinit`, `wstrat_pool.hpp:184-187` -/
  | join
  /-- the handle is destroyed -/
  | gone
deriving DecidableEq, Repr

/-- Where the pool thread of a handle is (`grow_thread_loop`, `wstrat_pool.hpp:109-130`); `e` is its local
variable `epoch`. -/
inductive PPC where
  /-- not started -/
  | none
  /-- 118: about to call `_grow_wait.wait_if(e)` -/
  | wait (e : Nat)
  /-- asleep in this call -/
  | asleep (e : Nat)
  /-- 119: about to read `finished` -/
  | chk (e : Nat)
  /-- `migrate`, `estrat_sync.hpp:400`: about to load `_table` -/
  | m1 (e : Nat)
  /-- 403: about to load `_epoch`, `_epoch + 1` will be returned -/
  | m1r (e : Nat)
  /-- 407: about to store `mig_protect` -/
  | m2 (e v : Nat)
  /-- 418, 419: about to load `_next_table` -/
  | m3 (e v : Nat)
  /-- `blockwise_migrate`, 439, 445: about to get a block -/
  | m4 (e v : Nat)
  /-- 442: migrating block `k` -/
  | m5 (e v k : Nat)
  /-- 423, 424: about to read the version of the new table and to clear `mig_protect` -/
  | m6 (e v : Nat)
  /-- `wstrat_pool.hpp:123`: about to call `_user_wait.inc_if(e)`; `migrate` has returned `r` -/
  | inc (e r : Nat)
  /-- 124: about to call `_user_wait.wake()` -/
  | wk (e r : Nat)
  /-- 129: ended -/
  | ended
deriving DecidableEq, Repr

/-- The shared state (`estrat_sync.hpp:134-137`, `wstrat_pool.hpp:53-60`). -/
structure St where
  /-- `_global._table` -/
  cur : Cur
  /-- `_global._epoch + 1` (the epoch begins at -1) -/
  ep : Nat
  /-- `_next_table` of the table has been set -/
  next : Nat → Bool
  /-- number of blocks given out (`_current_copy_block`) -/
  claimed : Nat → Nat
  /-- ghost: the block of the table has been migrated completely -/
  fin : Nat → Nat → Bool
  /-- the table has been deleted -/
  freed : Nat → Bool
  /-- `_grow_wait` -/
  gw : Nat
  /-- `_user_wait` -/
  uw : Nat
  /-- `_last_handle_id` -/
  last : Nat
  /-- `ops_protect` of the flags -/
  ops : Nat → Option Nat
  /-- `mig_protect` of the flags -/
  mig : Nat → Option Nat
  user : Nat → UPC
  pool : Nat → PPC
  /-- `_finished` of the handle is 1 (`wstrat_pool.hpp:182`) -/
  stop : Nat → Bool
  /-- undefined behaviour: a deleted table has been accessed; nothing happens any more -/
  ub : Bool

/-- What may happen. (the lines are at the constructors; `migration_table.hpp:467-538`) -/
inductive Act where
  /-- the constructor of a handle, `migration_table.hpp:467-478`: the pool thread is started -/
  | create (t : Nat)
  /-- an operation begins (`get_table`) -/
  | call (t : Nat)
  /-- the operation ends, and calls `grow` (`migration_table.hpp:612-614, 1103-1116`) or not -/
  | exit (t : Nat) (g : Bool)
  /-- the next step of the user's thread -/
  | user (t : Nat)
  /-- the next step of the pool thread -/
  | pool (t : Nat)
  /-- the handle is destroyed, `migration_table.hpp:536` -/
  | destroy (t : Nat)
  /-- FUTEX_WAIT of the user's thread returns without a reason -/
  | spurU (t : Nat)
  /-- FUTEX_WAIT of the pool thread returns without a reason -/
  | spurP (t : Nat)
deriving DecidableEq, Repr

/-- Update at one place (bookkeeping). (model bookkeeping, no code) -/
def put {X : Type} (f : Nat → X) (i : Nat) (x : X) : Nat → X := fun j => if j = i then x else f j

@[simp] theorem put_same {X : Type} (f : Nat → X) (i : Nat) (x : X) : put f i x i = x := by simp [put]

theorem put_other {X : Type} (f : Nat → X) {i j : Nat} (x : X) (h : j ≠ i) : put f i x j = f j := by
  simp [put, h]

/-- `_grow_wait.wake()` for one pool thread (`counting_wait.hpp:63-66`): FUTEX_WAIT returns and `wait_if`
with it; the counter is not read again. -/
def wakeP : PPC → PPC
  | .asleep e => .chk e
  | p => p

/-- What follows `execute_migration`: the rest of `grow` or of `help_grow`.
(`estrat_sync.hpp:349-370, 379-388`) -/
def after (g : Bool) (v : Nat) : UPC := if g then .gr10 v else .hg

/-- `_user_wait.wake()` for one user's thread. (`counting_wait.hpp:63-66`) -/
def wakeU : UPC → UPC
  | .asleep g v => after g v
  | p => p

/-- The state with the user's thread of handle `t` at `p`. (model bookkeeping, no code) -/
def St.u (s : St) (t : Nat) (p : UPC) : St := { s with user := put s.user t p }

/-- The state with the pool thread of handle `t` at `p`. (model bookkeeping, no code) -/
def St.p (s : St) (t : Nat) (p : PPC) : St := { s with pool := put s.pool t p }

/-- A step of the user's thread. (`estrat_sync.hpp:265-388`, `wstrat_pool.hpp:178-201`) -/
def userStep (s : St) (t : Nat) : Option St :=
  match s.user t with
  | .fresh => none
  | .idle => none
  | .gt1 =>
    match s.cur with
    | .null => some s
    | .mark _ => some (s.u t .he)
    | .clear v => some (s.u t (.gt2 v))
  | .gt2 v => some { s.u t (.gt3 v) with ops := put s.ops t (some v) }
  | .gt3 v => if s.cur = .clear v then some (s.u t (.op v)) else some (s.u t .gt4)
  | .gt4 => some { s.u t .gt1 with ops := put s.ops t none }
  | .op v => if s.freed v then some { s with ub := true } else some s
  | .gr1 v => some (s.u t (.gr2 v s.ep))
  | .gr2 v e =>
    -- `epoch >= version`, i.e. `e - 1 ≥ v`
    if v < e ∨ s.ep ≠ e then some (s.u t .idle) else some { s.u t (.gr3 v) with ep := v + 1 }
  | .gr3 _ =>
    match s.cur with
    | .clear v => some { s.u t (.gr6 v) with cur := .mark v }
    | _ => some (s.u t .idle)
  | .gr6 v => some (s.u t (.gr7 v s.last 0))
  | .gr7 v n j =>
    if j < n then
      if s.ops j = some v then some s else some (s.u t (.gr7 v n (j + 1)))
    else some (s.u t (.gr8 v))
  | .gr8 v => some { s.u t (.ex1 true v) with next := put s.next v true }
  | .he => some (s.u t (.ex1 false (s.ep - 1)))
  | .ex1 g v =>
    -- `inc_if`, `counting_wait.hpp:47-53`
    if s.gw = v then some { s.u t (.ex2 g v) with gw := v + 1 } else some (s.u t (.ex3 g v))
  | .ex2 g v => some { s.u t (.ex3 g v) with pool := fun p => wakeP (s.pool p) }
  | .ex3 g v =>
    -- `wait_if`, `counting_wait.hpp:55-61`
    if s.uw = v then some (s.u t (.asleep g v)) else some (s.u t (after g v))
  | .asleep _ _ => none
  | .gr10 v => some { s.u t (.gr11 v) with cur := .null }
  | .gr11 v => some (s.u t (.gr12 v s.last 0))
  | .gr12 v n j =>
    if j < n then
      if s.mig j = none then some (s.u t (.gr12 v n (j + 1))) else some s
    else some (s.u t (.gr13 v))
  | .gr13 v => some { s.u t (.gr14 v) with cur := .clear (v + 1) }
  | .gr14 v => some { s.u t .idle with freed := put s.freed v true }
  | .hg =>
    match s.cur with
    | .clear _ => some (s.u t .gt1)
    | _ => some s
  | .join =>
    if s.pool t = .ended then some (s.u t .gone)
    else some { s with pool := fun p => wakeP (s.pool p) }
  | .gone => none

/-- A step of the pool thread of handle `t`; `blocks v` is the number of blocks of the table with version
`v`. (`wstrat_pool.hpp:109-130`, `estrat_sync.hpp:390-448`) -/
def poolStep (blocks : Nat → Nat) (s : St) (t : Nat) : Option St :=
  match s.pool t with
  | .none => none
  | .wait e => if s.gw = e then some (s.p t (.asleep e)) else some (s.p t (.chk e))
  | .asleep _ => none
  | .chk e => if s.stop t then some (s.p t .ended) else some (s.p t (.m1 e))
  | .m1 e =>
    match s.cur with
    | .mark v => some (s.p t (.m2 e v))
    | _ => some (s.p t (.m1r e))
  | .m1r e => some (s.p t (.inc e s.ep))
  | .m2 e v => some { s.p t (.m3 e v) with mig := put s.mig t (some v) }
  | .m3 e v =>
    if s.freed v then some { s with ub := true }
    else if s.next v then some (s.p t (.m4 e v)) else some s
  | .m4 e v =>
    if s.freed v then some { s with ub := true }
    else if s.claimed v < blocks v then
      some { s.p t (.m5 e v (s.claimed v)) with claimed := put s.claimed v (s.claimed v + 1) }
    else some { s.p t (.m6 e v) with claimed := put s.claimed v (s.claimed v + 1) }
  | .m5 e v k =>
    if s.freed v || s.freed (v + 1) then some { s with ub := true }
    else some { s.p t (.m4 e v) with fin := put s.fin v (put (s.fin v) k true) }
  | .m6 e v =>
    if s.freed (v + 1) then some { s with ub := true }
    else some { s.p t (.inc e (v + 1)) with mig := put s.mig t none }
  | .inc e r =>
    if s.uw = e then some { s.p t (.wk e r) with uw := e + 1 } else some (s.p t (.wk e r))
  | .wk _ r => some { s.p t (.wait r) with user := fun u => wakeU (s.user u) }
  | .ended => none

/-- What an action does. (`migration_table.hpp:467-538`) -/
def act (blocks : Nat → Nat) (s : St) (a : Act) : Option St :=
  if s.ub then none else
  match a with
  | .create t =>
    if s.user t = .fresh ∧ t = s.last then
      some { s with user := put s.user t .idle, pool := put s.pool t (.wait 0), last := s.last + 1 }
    else none
  | .call t => if s.user t = .idle then some (s.u t .gt1) else none
  | .exit t g =>
    match s.user t with
    | .op v => some { s.u t (if g then .gr1 v else .idle) with ops := put s.ops t none }
    | _ => none
  | .user t => userStep s t
  | .pool t => poolStep blocks s t
  | .destroy t =>
    if s.user t = .idle then some { s.u t .join with stop := put s.stop t true } else none
  | .spurU t =>
    match s.user t with
    | .asleep g v => some (s.u t (after g v))
    | _ => none
  | .spurP t =>
    match s.pool t with
    | .asleep e => some (s.p t (.chk e))
    | _ => none

/-- A schedule. (model bookkeeping, no code) -/
def run (blocks : Nat → Nat) (s : St) : List Act → Option St
  | [] => some s
  | a :: l => (act blocks s a).bind fun s' => run blocks s' l

/-- The state after the table has been constructed (`estrat_sync.hpp:189-195`, `wstrat_pool.hpp:53`). -/
def St.init : St where
  cur := .clear 0
  ep := 0
  next := fun _ => false
  claimed := fun _ => 0
  fin := fun _ _ => false
  freed := fun _ => false
  gw := 0
  uw := 0
  last := 0
  ops := fun _ => none
  mig := fun _ => none
  user := fun _ => .fresh
  pool := fun _ => .none
  stop := fun _ => false
  ub := false

/-- The action is a spurious wake-up. (`counting_wait.hpp:55-61`) -/
def Act.spurious : Act → Bool
  | .spurU _ => true
  | .spurP _ => true
  | _ => false

/-- The action wakes no thread whose counter still has the value it waits for (a pool thread that has been
told to stop excepted). (specification, no code) -/
def timely (s : St) : Act → Prop
  | .spurU t => ∀ g v, s.user t = .asleep g v → s.uw ≠ v
  | .spurP t => ∀ e, s.pool t = .asleep e → s.gw ≠ e
  | .user t => ((∃ g v, s.user t = .ex2 g v) ∨ s.user t = .join) →
      ∀ p e, s.pool p = .asleep e → s.gw ≠ e ∨ s.stop p = true
  | .pool t => (∃ e r, s.pool t = .wk e r) → ∀ u g v, s.user u = .asleep g v → s.uw ≠ v
  | _ => True

/-- All actions of a schedule are so. (specification, no code) -/
def TimelyRun (blocks : Nat → Nat) (s : St) : List Act → Prop
  | [] => True
  | a :: l => timely s a ∧ ∀ s', act blocks s a = some s' → TimelyRun blocks s' l

/-- All blocks of the table with version `v` have been migrated. (specification, no code) -/
def Migrated (blocks : Nat → Nat) (s : St) (v : Nat) : Prop := ∀ k, k < blocks v → s.fin v k = true

/-- The handle whose threads act. (model bookkeeping, no code) -/
def Act.handle : Act → Nat
  | .create t | .call t | .exit t _ | .user t | .pool t | .destroy t | .spurU t | .spurP t => t

theorem run_append (blocks : Nat → Nat) (s : St) (l l' : List Act) :
    run blocks s (l ++ l') = (run blocks s l).bind fun s' => run blocks s' l' := by
  induction l generalizing s with
  | nil => rfl
  | cons a l ih =>
    simp only [List.cons_append, run]
    cases act blocks s a with
    | none => rfl
    | some s' => exact ih s'

end SyncPool
end Growt
