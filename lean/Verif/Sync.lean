/-!
# Synchronised growth: the protocol (`data-structures/strategies/estrat_sync.hpp`)

All atomic accesses are treated as sequentially consistent (the property is stated for sequentially
consistent interleavings).  The worker strategy is `wstrat_user` (`wstrat_user.hpp:71-74`:
`execute_migration` calls `migrate` of the same handle).  `mark::atomic_mark`, `mark::get_mark` and
`mark::clear` come from a library that is not in the repository; they are taken to be a
compare-exchange that sets one bit of the pointer, the test and the removal of that bit.

Tables live in a heap indexed by addresses; addresses may be used again after `delete`.  Contents
of the tables and what operations do with them are left open here (`SyncData.lean` adds them); the
element counters and the asserts in `dtm::if_debug` are left out.
-/

namespace Growt
namespace Sync

/-- Value of `_global._table` (`estrat_sync.hpp:136`): null, a pointer, or a pointer with the growing
flag. -/
inductive TPtr (A : Type) where
  | null
  | clear (a : A)
  | mark (a : A)
  deriving DecidableEq

/-- A table object (`growable_table_type`, `estrat_sync.hpp:76-89`): `_version`, `_next_table`, the
number of `fetch_add`s on `_current_copy_block` so far, and the number of blocks. -/
structure Obj (A : Type) where
  ver : Nat
  next : Option A
  claimed : Nat
  blocks : Nat

/-- `local_data_type` (`estrat_sync.hpp:144-180`): the index of its flags; `shell`: the handle has
been moved from (238-247), but `_own_flags` still refers to the same flags. -/
structure Hd where
  i : Nat
  shell : Bool
  deriving DecidableEq

/-- What follows `migrate()`: the rest of `help_grow` (`estrat_sync.hpp:382-387`), or of `grow`
(351-369) for the table `a` (of version `v`) with the successor `b`. -/
inductive Cont (A : Type) where
  | help
  | grow (a : A) (v : Nat) (b : A)
  deriving DecidableEq

/-- Where a thread is.  The numbers `v` belonging to pointers are ghost information: the version
which the table had when the pointer was loaded.
(`estrat_sync.hpp:202-505`; the lines are at the constructors) -/
inductive PC (A : Type) where
  /-- no handle -/
  | out
  /-- `register_handle`, line 206: about to load `used` of flags `i` -/
  | reg (i : Nat)
  /-- line 208: about to exchange `used` of flags `i` -/
  | regTry (i : Nat)
  /-- line 210: about to load `_last_handle_id` -/
  | regLast (i : Nat)
  /-- lines 211-215: in the loop, with `tempi` -/
  | regCas (i n : Nat)
  /-- line 225: `-1` has been returned, the reference to the flags in line 233 is invalid -/
  | lost
  /-- between operations -/
  | idle (h : Hd)
  /-- `get_table`, line 269, 271: about to load `_table` -/
  | gt1 (h : Hd)
  /-- line 284: about to store `ops_protect` -/
  | gt2 (h : Hd) (a : A)
  /-- line 286: about to load `_table` again -/
  | gt3 (h : Hd) (a : A)
  /-- line 291: about to clear `ops_protect`, then start again -/
  | gt4 (h : Hd)
  /-- in the operation (`migration_table.hpp:327-350`, `1085-1117`), up to `rls_table` -/
  | op (h : Hd) (a : A) (v : Nat)
  /-- `grow(v)`, line 305: about to load `_epoch` -/
  | gr1 (h : Hd) (v : Nat)
  /-- line 307: about to exchange `_epoch` -/
  | gr2 (h : Hd) (v : Nat) (e : Int)
  /-- line 316: about to load `_table` -/
  | gr3 (h : Hd)
  /-- line 326: about to mark `_table` -/
  | gr4 (h : Hd) (a : A) (v : Nat)
  /-- line 333: about to create the new table -/
  | gr5 (h : Hd) (a : A) (v : Nat)
  /-- `wait_for_table_op`, line 473: about to load `_last_handle_id` -/
  | gr6 (h : Hd) (a : A) (v : Nat) (b : A)
  /-- lines 474-486: about to load `ops_protect` of flags `j` -/
  | gr7 (h : Hd) (a : A) (v : Nat) (b : A) (n j : Nat)
  /-- line 342: about to store `_next_table` -/
  | gr8 (h : Hd) (a : A) (v : Nat) (b : A)
  /-- line 358: about to set `_table` to null -/
  | gr10 (h : Hd) (a : A) (v : Nat) (b : A)
  /-- `wait_for_migration`, line 491: about to load `_last_handle_id` -/
  | gr11 (h : Hd) (a : A) (v : Nat) (b : A)
  /-- lines 492-504: about to load `mig_protect` of flags `j` -/
  | gr12 (h : Hd) (a : A) (v : Nat) (b : A) (n j : Nat)
  /-- line 364: about to set `_table` to the new table -/
  | gr13 (h : Hd) (a : A) (v : Nat) (b : A)
  /-- line 369: about to delete the old table -/
  | gr14 (h : Hd) (a : A) (v : Nat)
  /-- `migrate`, line 400: about to load `_table` -/
  | mg1 (h : Hd) (c : Cont A)
  /-- line 407: about to store `mig_protect` -/
  | mg2 (h : Hd) (c : Cont A) (a : A) (v : Nat)
  /-- lines 418, 419: about to load `_next_table` -/
  | mg3 (h : Hd) (c : Cont A) (a : A) (v : Nat)
  /-- `blockwise_migrate`, lines 439, 445: about to add to `_current_copy_block` -/
  | mg4 (h : Hd) (c : Cont A) (a : A) (v : Nat) (b : A)
  /-- line 442: migrating a block -/
  | mg5 (h : Hd) (c : Cont A) (a : A) (v : Nat) (b : A) (blk : Nat)
  /-- lines 423, 424: about to read the version of the new table and to clear `mig_protect` -/
  | mg6 (h : Hd) (c : Cont A) (a : A) (v : Nat) (b : A)
  /-- `help_grow`, lines 383-387: waiting for the new table -/
  | hg (h : Hd)

/-- Ghost information: the stage of the growing thread. (model bookkeeping, no code) -/
inductive Phase (A : Type) where
  | quiet
  | begun
  | marked (a : A) (v : Nat)
  | made (a : A) (v : Nat) (b : A)
  | waitOps (a : A) (v : Nat) (b : A) (n j : Nat)
  | ready (a : A) (v : Nat) (b : A)
  | migrating (a : A) (v : Nat) (b : A)
  | drained (a : A) (v : Nat) (b : A)
  | nulled (a : A) (v : Nat) (b : A)
  | waitMig (a : A) (v : Nat) (b : A) (n j : Nat)
  | empty (a : A) (v : Nat) (b : A)

/-- State: the members of `global_data_type` (`estrat_sync.hpp:134-137`), the heap of tables, the
threads, and the ghost stage (no guard of a step depends on it). -/
structure St (T A : Type) where
  table : TPtr A
  epoch : Int
  heap : A → Option (Obj A)
  used : Nat → Bool
  ops : Nat → Option A
  mig : Nat → Option A
  last : Nat
  pc : T → PC A
  phase : Phase A

/-- `max_sim_threads` (`estrat_sync.hpp:64`). -/
def maxHandles : Nat := 256

/-- Functions changed at one place. (model bookkeeping, no code) -/
def upd {X Y : Type} [DecidableEq X] (f : X → Y) (x : X) (y : Y) : X → Y :=
  fun z => if z = x then y else f z

/-- What a thread does after releasing the table: nothing, `grow`, or `help_grow`
(`migration_table.hpp:610-629`, `1103-1116`). -/
inductive Exit where
  | plain
  | grow
  | help
  deriving DecidableEq

/-- Labels: what a step means for the contents of the tables. (model bookkeeping, no code) -/
inductive Lbl (T A : Type) where
  | tau
  | enter (t : T) (a : A)
  | op (t : T) (a : A)
  | exit (t : T) (a : A) (x : Exit)
  | make (t : T) (a b : A)
  | claim (t : T) (a b : A)
  | leave (t : T) (a b : A)
  | work (t : T) (a b : A)
  | done (t : T) (a b : A)
  | publish (t : T) (a b : A)
  | free (t : T) (a : A)

section
variable {T A : Type} [DecidableEq T] [DecidableEq A]

/-- The state with thread `t` at `p`. (model bookkeeping, no code) -/
def St.at (s : St T A) (t : T) (p : PC A) : St T A := { s with pc := upd s.pc t p }

/-- After `migrate()`. (`estrat_sync.hpp:349-370, 382-387`) -/
def Cont.next (h : Hd) : Cont A → PC A
  | .help => .hg h
  | .grow a v b => .gr10 h a v b

/-- The stage after `migrate()`. (model bookkeeping, no code) -/
def Cont.phase (c : Cont A) (p : Phase A) : Phase A :=
  match c with
  | .help => p
  | .grow a v b => .drained a v b

/-- After releasing the table. A moved-from handle is being destroyed.
(`migration_table.hpp:610-629, 522-538`) -/
def Exit.next (h : Hd) (v : Nat) (x : Exit) : PC A :=
  if h.shell then .out else
  match x with
  | .plain => .idle h
  | .grow => .gr1 h v
  | .help => .mg1 h .help

/-- Steps of the threads.  `shells`: moved-from handles may be destroyed while the new handle is in
use. (`estrat_sync.hpp:202-505`; the lines are at the constructors) -/
inductive Step (shells : Bool) : St T A → Lbl T A → St T A → Prop where
  /-- constructor of a handle, lines 230-235 -/
  | create {s : St T A} {t : T} (hp : s.pc t = .out) : Step shells s .tau (s.at t (.reg 0))
  /-- line 206: in use -/
  | regUsed {s : St T A} {t : T} {i : Nat} (hp : s.pc t = .reg i) (hi : i < maxHandles)
      (hu : s.used i = true) : Step shells s .tau (s.at t (.reg (i + 1)))
  /-- line 206: unused -/
  | regFree {s : St T A} {t : T} {i : Nat} (hp : s.pc t = .reg i) (hi : i < maxHandles)
      (hu : s.used i = false) : Step shells s .tau (s.at t (.regTry i))
  /-- lines 222-225: no flags left -/
  | regNone {s : St T A} {t : T} {i : Nat} (hp : s.pc t = .reg i) (hi : ¬ i < maxHandles) :
      Step shells s .tau (s.at t .lost)
  /-- line 208: reserved -/
  | reserve {s : St T A} {t : T} {i : Nat} (hp : s.pc t = .regTry i) (hu : s.used i = false) :
      Step shells s .tau { s.at t (.regLast i) with used := upd s.used i true }
  /-- lines 208, 219: somebody else was faster -/
  | reserveFail {s : St T A} {t : T} {i : Nat} (hp : s.pc t = .regTry i) (hu : s.used i = true) :
      Step shells s .tau (s.at t (.reg i))
  /-- line 210 -/
  | regLoad {s : St T A} {t : T} {i : Nat} (hp : s.pc t = .regLast i) :
      Step shells s .tau (s.at t (.regCas i s.last))
  /-- line 213: successful; `tempi` is not changed -/
  | regCas {s : St T A} {t : T} {i n : Nat} (hp : s.pc t = .regCas i n) (hn : n ≤ i)
      (hl : s.last = n) : Step shells s .tau { s with last := i + 1 }
  /-- line 213: failed, perhaps spuriously -/
  | regCasFail {s : St T A} {t : T} {i n : Nat} (hp : s.pc t = .regCas i n) (hn : n ≤ i) :
      Step shells s .tau (s.at t (.regCas i s.last))
  /-- lines 211, 216 -/
  | regEnd {s : St T A} {t : T} {i n : Nat} (hp : s.pc t = .regCas i n) (hn : ¬ n ≤ i) :
      Step shells s .tau (s.at t (.idle ⟨i, false⟩))
  /-- destructor, lines 259-263 (after the flush in `migration_table.hpp:533`, which is an operation) -/
  | destroy {s : St T A} {t : T} {h : Hd} (hp : s.pc t = .idle h) (hs : h.shell = false) :
      Step shells s .tau { s.at t .out with used := upd s.used h.i false }
  /-- move constructor, lines 237-247: thread `t` keeps the moved-from handle (whose destructor is
  part of the model if `shells`), thread `t'` gets the new one -/
  | move {s : St T A} {t t' : T} {h : Hd} (hp : s.pc t = .idle h) (hs : h.shell = false)
      (hp' : s.pc t' = .out) :
      Step shells s .tau ((s.at t (if shells then .idle ⟨h.i, true⟩ else .out)).at t' (.idle h))
  /-- an operation, or the flush in the destructor of a moved-from handle
  (`migration_table.hpp:523-534`) -/
  | call {s : St T A} {t : T} {h : Hd} (hp : s.pc t = .idle h) : Step shells s .tau (s.at t (.gt1 h))
  /-- line 271 -/
  | gtNull {s : St T A} {t : T} {h : Hd} (hp : s.pc t = .gt1 h) (ht : s.table = .null) :
      Step shells s .tau s
  /-- lines 272-276, 379-380 -/
  | gtMark {s : St T A} {t : T} {h : Hd} {a : A} (hp : s.pc t = .gt1 h) (ht : s.table = .mark a) :
      Step shells s .tau (s.at t (.mg1 h .help))
  /-- line 269 -/
  | gtLoad {s : St T A} {t : T} {h : Hd} {a : A} (hp : s.pc t = .gt1 h) (ht : s.table = .clear a) :
      Step shells s .tau (s.at t (.gt2 h a))
  /-- line 284 -/
  | gtStore {s : St T A} {t : T} {h : Hd} {a : A} (hp : s.pc t = .gt2 h a) :
      Step shells s .tau { s.at t (.gt3 h a) with ops := upd s.ops h.i (some a) }
  /-- lines 286, 287 -/
  | gtSame {s : St T A} {t : T} {h : Hd} {a : A} {o : Obj A} (hp : s.pc t = .gt3 h a)
      (ht : s.table = .clear a) (ho : s.heap a = some o) :
      Step shells s (.enter t a) (s.at t (.op h a o.ver))
  /-- lines 286, 288 -/
  | gtOther {s : St T A} {t : T} {h : Hd} {a : A} (hp : s.pc t = .gt3 h a)
      (ht : s.table ≠ .clear a) : Step shells s .tau (s.at t (.gt4 h))
  /-- lines 291, 292 -/
  | gtClear {s : St T A} {t : T} {h : Hd} (hp : s.pc t = .gt4 h) :
      Step shells s .tau { s.at t (.gt1 h) with ops := upd s.ops h.i none }
  /-- a step of the operation -/
  | opStep {s : St T A} {t : T} {h : Hd} {a : A} {v : Nat} {o : Obj A} (hp : s.pc t = .op h a v)
      (ho : s.heap a = some o) (hv : o.ver = v) : Step shells s (.op t a) s
  /-- `rls_table`, lines 296-299 -/
  | opEnd {s : St T A} {t : T} {h : Hd} {a : A} {v : Nat} (hp : s.pc t = .op h a v) (x : Exit) :
      Step shells s (.exit t a x) { s.at t (Exit.next h v x) with ops := upd s.ops h.i none }
  /-- line 305 -/
  | grEpoch {s : St T A} {t : T} {h : Hd} {v : Nat} (hp : s.pc t = .gr1 h v) :
      Step shells s .tau (s.at t (.gr2 h v s.epoch))
  /-- lines 307-313: somebody else grows or has grown this version -/
  | grNot {s : St T A} {t : T} {h : Hd} {v : Nat} {e : Int} (hp : s.pc t = .gr2 h v e)
      (he : (v : Int) ≤ e ∨ s.epoch ≠ e) : Step shells s .tau (s.at t (.idle h))
  /-- line 307 -/
  | grCas {s : St T A} {t : T} {h : Hd} {v : Nat} {e : Int} (hp : s.pc t = .gr2 h v e)
      (hv : e < v) (he : s.epoch = e) :
      Step shells s .tau { s.at t (.gr3 h) with epoch := v, phase := .begun }
  /-- line 316 -/
  | grLoad {s : St T A} {t : T} {h : Hd} {a : A} {o : Obj A} (hp : s.pc t = .gr3 h)
      (ht : s.table = .clear a) (ho : s.heap a = some o) :
      Step shells s .tau (s.at t (.gr4 h a o.ver))
  /-- lines 320-324 -/
  | grLoadMark {s : St T A} {t : T} {h : Hd} {a : A} (hp : s.pc t = .gr3 h)
      (ht : s.table = .mark a) : Step shells s .tau (s.at t (.idle h))
  /-- line 326 -/
  | grMark {s : St T A} {t : T} {h : Hd} {a : A} {v : Nat} (hp : s.pc t = .gr4 h a v)
      (ht : s.table = .clear a) :
      Step shells s .tau { s.at t (.gr5 h a v) with table := .mark a, phase := .marked a v }
  /-- lines 326-331 -/
  | grMarkFail {s : St T A} {t : T} {h : Hd} {a : A} {v : Nat} (hp : s.pc t = .gr4 h a v)
      (ht : s.table ≠ .clear a) : Step shells s .tau (s.at t (.idle h))
  /-- lines 333-336 -/
  | grMake {s : St T A} {t : T} {h : Hd} {a b : A} {v : Nat} {o : Obj A} (n : Nat)
      (hp : s.pc t = .gr5 h a v) (ho : s.heap a = some o) (hb : s.heap b = none) :
      Step shells s (.make t a b) { s.at t (.gr6 h a v b) with
        heap := upd s.heap b (some ⟨o.ver + 1, none, 0, n⟩), phase := .made a v b }
  /-- line 473 -/
  | grOps {s : St T A} {t : T} {h : Hd} {a b : A} {v : Nat} (hp : s.pc t = .gr6 h a v b) :
      Step shells s .tau { s.at t (.gr7 h a v b s.last 0) with phase := .waitOps a v b s.last 0 }
  /-- lines 476, 478 -/
  | grOpsNext {s : St T A} {t : T} {h : Hd} {a b : A} {v n j : Nat}
      (hp : s.pc t = .gr7 h a v b n j) (hj : j < n) (ho : s.ops j ≠ some a) :
      Step shells s .tau { s.at t (.gr7 h a v b n (j + 1)) with phase := .waitOps a v b n (j + 1) }
  /-- lines 478-485 -/
  | grOpsWait {s : St T A} {t : T} {h : Hd} {a b : A} {v n j : Nat}
      (hp : s.pc t = .gr7 h a v b n j) (hj : j < n) (ho : s.ops j = some a) : Step shells s .tau s
  /-- line 474: the end of the loop -/
  | grOpsEnd {s : St T A} {t : T} {h : Hd} {a b : A} {v n j : Nat}
      (hp : s.pc t = .gr7 h a v b n j) (hj : ¬ j < n) :
      Step shells s .tau { s.at t (.gr8 h a v b) with phase := .ready a v b }
  /-- line 342 -/
  | grNext {s : St T A} {t : T} {h : Hd} {a b : A} {v : Nat} {o : Obj A}
      (hp : s.pc t = .gr8 h a v b) (ho : s.heap a = some o) :
      Step shells s .tau { s.at t (.mg1 h (.grow a v b)) with
        heap := upd s.heap a (some { o with next := some b }), phase := .migrating a v b }
  /-- line 358 -/
  | grNull {s : St T A} {t : T} {h : Hd} {a b : A} {v : Nat} (hp : s.pc t = .gr10 h a v b) :
      Step shells s .tau { s.at t (.gr11 h a v b) with table := .null, phase := .nulled a v b }
  /-- line 491 -/
  | grMig {s : St T A} {t : T} {h : Hd} {a b : A} {v : Nat} (hp : s.pc t = .gr11 h a v b) :
      Step shells s .tau { s.at t (.gr12 h a v b s.last 0) with phase := .waitMig a v b s.last 0 }
  /-- lines 494, 496 -/
  | grMigNext {s : St T A} {t : T} {h : Hd} {a b : A} {v n j : Nat}
      (hp : s.pc t = .gr12 h a v b n j) (hj : j < n) (ho : s.mig j = none) :
      Step shells s .tau { s.at t (.gr12 h a v b n (j + 1)) with phase := .waitMig a v b n (j + 1) }
  /-- lines 496-503 -/
  | grMigWait {s : St T A} {t : T} {h : Hd} {a b : A} {v n j : Nat}
      (hp : s.pc t = .gr12 h a v b n j) (hj : j < n) (ho : s.mig j ≠ none) : Step shells s .tau s
  /-- line 492: the end of the loop -/
  | grMigEnd {s : St T A} {t : T} {h : Hd} {a b : A} {v n j : Nat}
      (hp : s.pc t = .gr12 h a v b n j) (hj : ¬ j < n) :
      Step shells s .tau { s.at t (.gr13 h a v b) with phase := .empty a v b }
  /-- line 364 -/
  | grPublish {s : St T A} {t : T} {h : Hd} {a b : A} {v : Nat} (hp : s.pc t = .gr13 h a v b) :
      Step shells s (.publish t a b)
        { s.at t (.gr14 h a v) with table := .clear b, phase := .quiet }
  /-- line 369 -/
  | grDelete {s : St T A} {t : T} {h : Hd} {a : A} {v : Nat} (hp : s.pc t = .gr14 h a v) :
      Step shells s (.free t a) { s.at t (.idle h) with heap := upd s.heap a none }
  /-- lines 400-404: nothing to migrate -/
  | mgNone {s : St T A} {t : T} {h : Hd} {c : Cont A} (hp : s.pc t = .mg1 h c)
      (ht : ∀ a, s.table ≠ .mark a) :
      Step shells s .tau { s.at t (c.next h) with phase := c.phase s.phase }
  /-- line 400 -/
  | mgLoad {s : St T A} {t : T} {h : Hd} {c : Cont A} {a : A} {o : Obj A} (hp : s.pc t = .mg1 h c)
      (ht : s.table = .mark a) (ho : s.heap a = some o) :
      Step shells s .tau (s.at t (.mg2 h c a o.ver))
  /-- line 407; the test in line 409 looks at the same value again -/
  | mgStore {s : St T A} {t : T} {h : Hd} {c : Cont A} {a : A} {v : Nat}
      (hp : s.pc t = .mg2 h c a v) :
      Step shells s .tau { s.at t (.mg3 h c a v) with mig := upd s.mig h.i (some a) }
  /-- line 419: not there yet -/
  | mgWait {s : St T A} {t : T} {h : Hd} {c : Cont A} {a : A} {v : Nat} {o : Obj A}
      (hp : s.pc t = .mg3 h c a v) (ho : s.heap a = some o) (hv : o.ver = v)
      (hn : o.next = none) : Step shells s .tau s
  /-- lines 418, 419 -/
  | mgNext {s : St T A} {t : T} {h : Hd} {c : Cont A} {a b : A} {v : Nat} {o : Obj A}
      (hp : s.pc t = .mg3 h c a v) (ho : s.heap a = some o) (hv : o.ver = v)
      (hn : o.next = some b) : Step shells s .tau (s.at t (.mg4 h c a v b))
  /-- lines 439, 440, 445: a block to migrate -/
  | mgClaim {s : St T A} {t : T} {h : Hd} {c : Cont A} {a b : A} {v : Nat} {o : Obj A}
      (hp : s.pc t = .mg4 h c a v b) (ho : s.heap a = some o) (hv : o.ver = v)
      (hc : o.claimed < o.blocks) :
      Step shells s (.claim t a b) { s.at t (.mg5 h c a v b o.claimed) with
        heap := upd s.heap a (some { o with claimed := o.claimed + 1 }) }
  /-- lines 439, 440, 445: no block left -/
  | mgLeave {s : St T A} {t : T} {h : Hd} {c : Cont A} {a b : A} {v : Nat} {o : Obj A}
      (hp : s.pc t = .mg4 h c a v b) (ho : s.heap a = some o) (hv : o.ver = v)
      (hc : ¬ o.claimed < o.blocks) :
      Step shells s (.leave t a b) { s.at t (.mg6 h c a v b) with
        heap := upd s.heap a (some { o with claimed := o.claimed + 1 }) }
  /-- line 442: a step of the migration of a block -/
  | mgWork {s : St T A} {t : T} {h : Hd} {c : Cont A} {a b : A} {v blk : Nat} {o o' : Obj A}
      (hp : s.pc t = .mg5 h c a v b blk) (ho : s.heap a = some o) (hv : o.ver = v)
      (ho' : s.heap b = some o') (hv' : o'.ver = v + 1) : Step shells s (.work t a b) s
  /-- line 442: the block is done -/
  | mgDone {s : St T A} {t : T} {h : Hd} {c : Cont A} {a b : A} {v blk : Nat}
      (hp : s.pc t = .mg5 h c a v b blk) :
      Step shells s (.done t a b) (s.at t (.mg4 h c a v b))
  /-- lines 423-426 -/
  | mgEnd {s : St T A} {t : T} {h : Hd} {c : Cont A} {a b : A} {v : Nat} {o' : Obj A}
      (hp : s.pc t = .mg6 h c a v b) (ho' : s.heap b = some o') (hv' : o'.ver = v + 1) :
      Step shells s .tau { s.at t (c.next h) with
        mig := upd s.mig h.i none, phase := c.phase s.phase }
  /-- lines 384-387 -/
  | hgWait {s : St T A} {t : T} {h : Hd} (hp : s.pc t = .hg h) (ht : ∀ a, s.table ≠ .clear a) :
      Step shells s .tau s
  /-- lines 384-388: back to `get_table` (line 275) or to the operation, which begins again -/
  | hgEnd {s : St T A} {t : T} {h : Hd} {a : A} (hp : s.pc t = .hg h) (ht : s.table = .clear a) :
      Step shells s .tau (s.at t (.gt1 h))

/-- A new table at address `a` (constructor, `estrat_sync.hpp:189-195`, `flags_type` 103-105), no handles. -/
def St.init (a : A) (n : Nat) : St T A where
  table := .clear a
  epoch := -1
  heap := upd (fun _ => none) a (some ⟨0, none, 0, n⟩)
  used := fun _ => false
  ops := fun _ => none
  mig := fun _ => none
  last := 0
  pc := fun _ => .out
  phase := .quiet

/-- Reachable states. (model bookkeeping, no code) -/
inductive Reach (shells : Bool) (a : A) (n : Nat) : St T A → Prop where
  | init : Reach shells a n (St.init a n)
  | step {s s' : St T A} {l : Lbl T A} (h : Reach shells a n s) (hs : Step shells s l s') :
      Reach shells a n s'

/-- The objects that a thread is about to access. (specification, no code) -/
def PC.touches : PC A → List (A × Nat)
  | .op _ a v => [(a, v)]
  | .gr5 _ a v => [(a, v)]
  | .gr8 _ a v _ => [(a, v)]
  | .gr14 _ a v => [(a, v)]
  | .mg3 _ _ a v => [(a, v)]
  | .mg4 _ _ a v _ => [(a, v)]
  | .mg5 _ _ a v b _ => [(a, v), (b, v + 1)]
  | .mg6 _ _ _ v b => [(b, v + 1)]
  | _ => []

/-- The table which a thread works on in an operation. (specification, no code) -/
def PC.operates : PC A → Option A
  | .op _ a _ => some a
  | _ => none

/-- The tables from and to which a thread is copying elements. (specification, no code) -/
def PC.copies : PC A → List A
  | .mg5 _ _ a _ b _ => [a, b]
  | _ => []

/-- The flags used by a thread. (specification, no code) -/
def PC.flags : PC A → Option Nat
  | .regLast i => some i
  | .regCas i _ => some i
  | .idle h => some h.i
  | .gt1 h => some h.i
  | .gt2 h _ => some h.i
  | .gt3 h _ => some h.i
  | .gt4 h => some h.i
  | .op h _ _ => some h.i
  | .gr1 h _ => some h.i
  | .gr2 h _ _ => some h.i
  | .gr3 h => some h.i
  | .gr4 h _ _ => some h.i
  | .gr5 h _ _ => some h.i
  | .gr6 h _ _ _ => some h.i
  | .gr7 h _ _ _ _ _ => some h.i
  | .gr8 h _ _ _ => some h.i
  | .gr10 h _ _ _ => some h.i
  | .gr11 h _ _ _ => some h.i
  | .gr12 h _ _ _ _ _ => some h.i
  | .gr13 h _ _ _ => some h.i
  | .gr14 h _ _ => some h.i
  | .mg1 h _ => some h.i
  | .mg2 h _ _ _ => some h.i
  | .mg3 h _ _ _ => some h.i
  | .mg4 h _ _ _ _ => some h.i
  | .mg5 h _ _ _ _ _ => some h.i
  | .mg6 h _ _ _ _ => some h.i
  | .hg h => some h.i
  | _ => none

end
end Sync
end Growt
