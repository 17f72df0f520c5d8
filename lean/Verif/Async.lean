/-!
# Asynchronous growth: the protocol (`data-structures/strategies/estrat_async.hpp`)

All atomic accesses are treated as sequentially consistent.  The worker strategy is `wstrat_user`
(`wstrat_user.hpp:71-74`: `execute_migration` calls `migrate` of the same handle); in addition there
may be any number of further threads that only call `migrate`, as the threads of
`wstrat_pool.hpp:109-130` do.

The library `rtm` (counting pointers) is not in the repository.  It is taken to do what its name
says: `protect(p)` reads the atomic pointer and protects the object in one step; a protected object
is not destroyed; `safe_delete` marks an object, which is destroyed at some later time when nobody
protects it; `delete_raw` destroys at once.

Tables live in a heap indexed by addresses; addresses may be used again after an object was
destroyed.  The contents of the tables and what operations do with them are left open here
(`AsyncData.lean` adds them); the element counters and the asserts in `dtm::if_debug` are left out.
-/

namespace Growt
namespace Async

/-- A table object (`_growable_table_type`, `estrat_async.hpp:77-90`): `_version`, the number of
blocks, the number of `fetch_add`s on `_current_copy_block` so far (overflow of the counter is not
modelled), `next_table`; `retired`: `safe_delete` has been called for it.  Ghost information: the
blocks migrated completely, and whether only its creator knows it (`priv`). -/
structure Obj (A : Type) where
  ver : Nat
  blocks : Nat
  claimed : Nat
  fin : Nat → Bool
  next : Option A
  retired : Bool
  priv : Bool

/-- `_table` and `_epoch` of a handle (`local_data_type`, `estrat_async.hpp:170-175`). -/
structure Hd (A : Type) where
  tab : A
  ep : Nat
  deriving DecidableEq

/-- What follows the loading of the table: the end of `init` (`estrat_async.hpp:197-205`), the
operation (`get_table`, 207-214), or the end of `end_grow` (349). -/
inductive After where
  | init
  | use
  | idle
  deriving DecidableEq

/-- Where a thread is.  `u` is the handle whose `migrate` is running, `none` for a thread of the pool.
The numbers `v` are ghost information: the version of the handle's table before the load.
(`estrat_async.hpp:197-350`; the lines are at the constructors) -/
inductive PC (A : Type) where
  /-- no handle yet -/
  | fresh
  /-- a thread of the pool, between migrations -/
  | pool
  /-- between operations -/
  | idle (h : Hd A)
  /-- the handle has been destroyed; nothing unprotects its table (`deinit` is empty, 167; `rec_handle`
  is destroyed by the default destructor, 164) -/
  | gone (h : Hd A)
  /-- `load`, line 313: about to unprotect the table -/
  | ldU (c : After) (h : Hd A)
  /-- `load` 314, `init` 200: about to protect the current table -/
  | ldP (c : After) (v : Nat)
  /-- `load` 315-318, `init` 201-204: waiting until its version is the epoch -/
  | ldW (c : After) (v : Nat) (a : A)
  /-- in the operation, between `get_table` and `rls_table` (which is empty, 180) -/
  | use (h : Hd A)
  /-- `grow`, 222-226: about to create a table -/
  | gr1 (h : Hd A)
  /-- 229: about to exchange `next_table` -/
  | gr2 (h : Hd A) (b : A)
  /-- 232: about to delete its own new table -/
  | gr3 (h : Hd A) (b : A)
  /-- `migrate`, 251: about to increment `_n_helper` -/
  | mg0 (u : Option (Hd A))
  /-- 256: about to protect the current table -/
  | mg1 (u : Option (Hd A))
  /-- 263: about to load `next_table` -/
  | mg2 (u : Option (Hd A)) (c : A)
  /-- 270: about to protect `next_table` -/
  | mg3 (u : Option (Hd A)) (c : A)
  /-- `blockwise_migrate`, 298, 305: about to add to `_current_copy_block` -/
  | mg4 (u : Option (Hd A)) (c n : A)
  /-- 301: migrating a block -/
  | mg5 (u : Option (Hd A)) (c n : A) (k : Nat)
  /-- 280: about to decrement `_n_helper` -/
  | mg6 (u : Option (Hd A)) (c n : A)
  /-- 282, 284: about to read the version of the new table and to unprotect the old one -/
  | mg7 (u : Option (Hd A)) (c n : A)
  /-- 285: about to unprotect the new table -/
  | mg7b (u : Option (Hd A)) (n : A)
  /-- 265: no successor; about to decrement `_n_helper` -/
  | mg8 (u : Option (Hd A)) (c : A)
  /-- 266, 267: about to read the version and to unprotect the table -/
  | mg9 (u : Option (Hd A)) (c : A)
  /-- `end_grow`, 325: waiting for `_n_helper == 0` -/
  | eg1 (h : Hd A)
  /-- 330: about to load `next_table` -/
  | eg2 (h : Hd A)
  /-- 332: about to exchange the current table -/
  | eg3 (h : Hd A) (nx : Option A)
  /-- 344: about to store `_epoch` -/
  | eg4 (h : Hd A) (n : A)
  /-- 346: about to call `safe_delete` -/
  | eg5 (h : Hd A)

/-- The state: `_global._table`, `_global._epoch`, `_global._n_helper` (`estrat_async.hpp:136-139`),
the table objects, the threads; `cur` is ghost information: the table whose version is the epoch. -/
structure St (T A : Type) where
  glob : A
  epoch : Nat
  nHelper : Nat
  heap : A → Option (Obj A)
  pc : T → PC A
  cur : A

/-- How an operation ends: done, `grow`, or `help_grow` and then again.
(`migration_table.hpp:609-629` and the like) -/
inductive Exit where
  | done
  | grow
  | help
  deriving DecidableEq

/-- What a step means for the contents of the tables. (model bookkeeping, no code) -/
inductive Lab (T A : Type) where
  | tau
  | enter (t : T) (a : A)
  | op (t : T) (a : A)
  | exit (t : T) (a : A) (x : Exit)
  | make (t : T) (a b : A)
  | attach (t : T) (a b : A)
  | claim (t : T) (c n : A)
  | leave (t : T) (c n : A)
  | work (t : T) (c n : A)
  | done (t : T) (c n : A)
  | publish (t : T) (a b : A)
  | switch (t : T) (a b : A)
  | retire (t : T) (a : A)
  | free (a : A)

/-- Functions changed at one place. (model bookkeeping, no code) -/
def upd {I X : Type} [DecidableEq I] (f : I → X) (i : I) (x : X) : I → X :=
  fun j => if j = i then x else f j

/-- Where `migrate` returns to: `end_grow` of the handle (`estrat_async.hpp:236`, 244), or the loop of
the pool thread. -/
def PC.after {A : Type} : Option (Hd A) → PC A
  | some h => .eg1 h
  | none => .pool

/-- The table of the handle whose `migrate` is running. (`estrat_async.hpp:247-288`) -/
def utab {A : Type} : Option (Hd A) → List A
  | some h => [h.tab]
  | none => []

/-- The objects that a thread protects (`protect` and `unprotect` in `estrat_async.hpp:200`, 256, 267,
270, 284, 285, 313, 314; `create_pointer` and `safe_delete` do not change it). -/
def PC.prot {A : Type} : PC A → List A
  | .fresh | .pool | .ldP _ _ => []
  | .idle h | .gone h | .ldU _ h | .use h | .gr1 h | .gr2 h _ | .gr3 h _ => [h.tab]
  | .ldW _ _ a => [a]
  | .mg0 u | .mg1 u => utab u
  | .mg2 u c | .mg3 u c | .mg8 u c | .mg9 u c => c :: utab u
  | .mg4 u c n | .mg5 u c n _ | .mg6 u c n | .mg7 u c n => c :: n :: utab u
  | .mg7b u n => n :: utab u
  | .eg1 h | .eg2 h | .eg3 h _ | .eg4 h _ | .eg5 h => [h.tab]

section
variable {T A : Type} [DecidableEq T] [DecidableEq A]

/-- Only the program counter of `t` changes. (model bookkeeping, no code) -/
def St.at (s : St T A) (t : T) (p : PC A) : St T A := { s with pc := upd s.pc t p }

/-- Steps of `estrat_async.hpp`.  In `exitHelp` the premise says that the table has a successor: an
operation calls `help_grow` only after it met a marked slot (`migration_table.hpp:622-624`), and
slots are marked only after a successor was attached; that this covers all calls of `help_grow` is
proved with the contents of the tables (`C25_help_has_successor`).  There is no step for exchanging the
current table with a null pointer (line 332 with `next == nullptr`): it is proved that this does not
occur. -/
inductive Step : St T A → Lab T A → St T A → Prop where
  /-- constructor, 152-157; then `init` -/
  | create {s : St T A} {t : T} (hp : s.pc t = .fresh) : Step s .tau (s.at t (.ldP .init 0))
  /-- a pool thread comes into being -/
  | pool {s : St T A} {t : T} (hp : s.pc t = .fresh) : Step s .tau (s.at t .pool)
  | poolGo {s : St T A} {t : T} (hp : s.pc t = .pool) : Step s .tau (s.at t (.mg0 none))
  | destroy {s : St T A} {t : T} {h : Hd A} (hp : s.pc t = .idle h) : Step s .tau (s.at t (.gone h))
  | unprot {s : St T A} {t : T} {c : After} {h : Hd A} (hp : s.pc t = .ldU c h) :
      Step s .tau (s.at t (.ldP c h.ep))
  | prot {s : St T A} {t : T} {c : After} {v : Nat} {o : Obj A} (hp : s.pc t = .ldP c v)
      (ho : s.heap s.glob = some o) : Step s .tau (s.at t (.ldW c v s.glob))
  | ldWait {s : St T A} {t : T} {c : After} {v : Nat} {a : A} {o : Obj A} (hp : s.pc t = .ldW c v a)
      (ho : s.heap a = some o) (hv : o.ver ≠ s.epoch) : Step s .tau s
  | ldDone {s : St T A} {t : T} {c : After} {v : Nat} {a : A} {o : Obj A} (hp : s.pc t = .ldW c v a)
      (ho : s.heap a = some o) (hv : o.ver = s.epoch) (hc : c ≠ .use) :
      Step s .tau (s.at t (.idle ⟨a, o.ver⟩))
  | ldUse {s : St T A} {t : T} {v : Nat} {a : A} {o : Obj A} (hp : s.pc t = .ldW .use v a)
      (ho : s.heap a = some o) (hv : o.ver = s.epoch) :
      Step s (.enter t a) (s.at t (.use ⟨a, o.ver⟩))
  /-- `get_table`, 211-213 -/
  | gtOk {s : St T A} {t : T} {h : Hd A} (hp : s.pc t = .idle h) (he : s.epoch ≤ h.ep) :
      Step s (.enter t h.tab) (s.at t (.use h))
  | gtOld {s : St T A} {t : T} {h : Hd A} (hp : s.pc t = .idle h) (he : h.ep < s.epoch) :
      Step s .tau (s.at t (.ldU .use h))
  | op {s : St T A} {t : T} {h : Hd A} {o : Obj A} (hp : s.pc t = .use h)
      (ho : s.heap h.tab = some o) : Step s (.op t h.tab) s
  | exitDone {s : St T A} {t : T} {h : Hd A} (hp : s.pc t = .use h) :
      Step s (.exit t h.tab .done) (s.at t (.idle h))
  | exitGrow {s : St T A} {t : T} {h : Hd A} (hp : s.pc t = .use h) :
      Step s (.exit t h.tab .grow) (s.at t (.gr1 h))
  | exitHelp {s : St T A} {t : T} {h : Hd A} {o : Obj A} (hp : s.pc t = .use h)
      (ho : s.heap h.tab = some o) (hn : o.next ≠ none) :
      Step s (.exit t h.tab .help) (s.at t (.mg0 (some h)))
  | grMake {s : St T A} {t : T} {h : Hd A} {b : A} {o : Obj A} (n : Nat) (hp : s.pc t = .gr1 h)
      (ho : s.heap h.tab = some o) (hb : s.heap b = none) :
      Step s (.make t h.tab b) { s with
        heap := upd s.heap b (some ⟨o.ver + 1, n, 0, fun _ => false, none, false, true⟩)
        pc := upd s.pc t (.gr2 h b) }
  | grCas {s : St T A} {t : T} {h : Hd A} {b : A} {o ob : Obj A} (hp : s.pc t = .gr2 h b)
      (ho : s.heap h.tab = some o) (hn : o.next = none) (hb : s.heap b = some ob) :
      Step s (.attach t h.tab b) { s with
        heap := upd (upd s.heap b (some { ob with priv := false })) h.tab (some { o with next := some b })
        pc := upd s.pc t (.mg0 (some h)) }
  | grFail {s : St T A} {t : T} {h : Hd A} {b : A} {o : Obj A} (hp : s.pc t = .gr2 h b)
      (ho : s.heap h.tab = some o) (hn : o.next ≠ none) : Step s .tau (s.at t (.gr3 h b))
  | grDel {s : St T A} {t : T} {h : Hd A} {b : A} (hp : s.pc t = .gr3 h b) :
      Step s (.free b) { s with heap := upd s.heap b none, pc := upd s.pc t (.mg0 (some h)) }
  | mgIn {s : St T A} {t : T} {u : Option (Hd A)} (hp : s.pc t = .mg0 u) :
      Step s .tau { s with nHelper := s.nHelper + 1, pc := upd s.pc t (.mg1 u) }
  | mgProt {s : St T A} {t : T} {u : Option (Hd A)} {o : Obj A} (hp : s.pc t = .mg1 u)
      (ho : s.heap s.glob = some o) : Step s .tau (s.at t (.mg2 u s.glob))
  | mgNull {s : St T A} {t : T} {u : Option (Hd A)} {c : A} {o : Obj A} (hp : s.pc t = .mg2 u c)
      (ho : s.heap c = some o) (hn : o.next = none) : Step s .tau (s.at t (.mg8 u c))
  | mgSome {s : St T A} {t : T} {u : Option (Hd A)} {c : A} {o : Obj A} (hp : s.pc t = .mg2 u c)
      (ho : s.heap c = some o) (hn : o.next ≠ none) : Step s .tau (s.at t (.mg3 u c))
  | mgNext {s : St T A} {t : T} {u : Option (Hd A)} {c n : A} {o on : Obj A} (hp : s.pc t = .mg3 u c)
      (ho : s.heap c = some o) (hn : o.next = some n) (hon : s.heap n = some on) :
      Step s .tau (s.at t (.mg4 u c n))
  | claim {s : St T A} {t : T} {u : Option (Hd A)} {c n : A} {o : Obj A} (hp : s.pc t = .mg4 u c n)
      (ho : s.heap c = some o) (hk : o.claimed < o.blocks) :
      Step s (.claim t c n) { s with
        heap := upd s.heap c (some { o with claimed := o.claimed + 1 })
        pc := upd s.pc t (.mg5 u c n o.claimed) }
  | leave {s : St T A} {t : T} {u : Option (Hd A)} {c n : A} {o : Obj A} (hp : s.pc t = .mg4 u c n)
      (ho : s.heap c = some o) (hk : o.blocks ≤ o.claimed) :
      Step s (.leave t c n) { s with
        heap := upd s.heap c (some { o with claimed := o.claimed + 1 })
        pc := upd s.pc t (.mg6 u c n) }
  | work {s : St T A} {t : T} {u : Option (Hd A)} {c n : A} {k : Nat} {o on : Obj A}
      (hp : s.pc t = .mg5 u c n k) (ho : s.heap c = some o) (hon : s.heap n = some on) :
      Step s (.work t c n) s
  | done {s : St T A} {t : T} {u : Option (Hd A)} {c n : A} {k : Nat} {o : Obj A}
      (hp : s.pc t = .mg5 u c n k) (ho : s.heap c = some o) :
      Step s (.done t c n) { s with
        heap := upd s.heap c (some { o with fin := upd o.fin k true })
        pc := upd s.pc t (.mg4 u c n) }
  | mgOut {s : St T A} {t : T} {u : Option (Hd A)} {c n : A} (hp : s.pc t = .mg6 u c n) :
      Step s .tau { s with nHelper := s.nHelper - 1, pc := upd s.pc t (.mg7 u c n) }
  | mgUn {s : St T A} {t : T} {u : Option (Hd A)} {c n : A} {on : Obj A} (hp : s.pc t = .mg7 u c n)
      (hon : s.heap n = some on) : Step s .tau (s.at t (.mg7b u n))
  | mgUn2 {s : St T A} {t : T} {u : Option (Hd A)} {n : A} (hp : s.pc t = .mg7b u n) :
      Step s .tau (s.at t (PC.after u))
  | mgNo {s : St T A} {t : T} {u : Option (Hd A)} {c : A} (hp : s.pc t = .mg8 u c) :
      Step s .tau { s with nHelper := s.nHelper - 1, pc := upd s.pc t (.mg9 u c) }
  | mgNoUn {s : St T A} {t : T} {u : Option (Hd A)} {c : A} {o : Obj A} (hp : s.pc t = .mg9 u c)
      (ho : s.heap c = some o) : Step s .tau (s.at t (PC.after u))
  | egWait {s : St T A} {t : T} {h : Hd A} (hp : s.pc t = .eg1 h) (hn : s.nHelper ≠ 0) :
      Step s .tau s
  | egGo {s : St T A} {t : T} {h : Hd A} (hp : s.pc t = .eg1 h) (hn : s.nHelper = 0) :
      Step s .tau (s.at t (.eg2 h))
  | egNext {s : St T A} {t : T} {h : Hd A} {o : Obj A} (hp : s.pc t = .eg2 h)
      (ho : s.heap h.tab = some o) : Step s .tau (s.at t (.eg3 h o.next))
  | egCas {s : St T A} {t : T} {h : Hd A} {n : A} (hp : s.pc t = .eg3 h (some n))
      (hg : s.glob = h.tab) :
      Step s (.publish t h.tab n) { s with glob := n, pc := upd s.pc t (.eg4 h n) }
  | egFail {s : St T A} {t : T} {h : Hd A} {nx : Option A} (hp : s.pc t = .eg3 h nx)
      (hg : s.glob ≠ h.tab) : Step s .tau (s.at t (.ldU .idle h))
  | egEpoch {s : St T A} {t : T} {h : Hd A} {n : A} {o : Obj A} (hp : s.pc t = .eg4 h n)
      (ho : s.heap n = some o) :
      Step s (.switch t h.tab n) { s with epoch := o.ver, cur := n, pc := upd s.pc t (.eg5 h) }
  | egRetire {s : St T A} {t : T} {h : Hd A} {o : Obj A} (hp : s.pc t = .eg5 h)
      (ho : s.heap h.tab = some o) :
      Step s (.retire t h.tab) { s with
        heap := upd s.heap h.tab (some { o with retired := true })
        pc := upd s.pc t (.ldU .idle h) }
  /-- the library destroys a table -/
  | free {s : St T A} {a : A} {o : Obj A} (ho : s.heap a = some o) (hr : o.retired = true)
      (hn : ∀ t, a ∉ (s.pc t).prot) : Step s (.free a) { s with heap := upd s.heap a none }

/-- A new table (`estrat_async.hpp:109-115`). -/
def St.init (a : A) (blocks : Nat) : St T A where
  glob := a
  epoch := 0
  nHelper := 0
  heap := fun x => if x = a then some ⟨0, blocks, 0, fun _ => false, none, false, false⟩ else none
  pc := fun _ => .fresh
  cur := a

/-- Executions: the labels in order. (model bookkeeping, no code) -/
inductive Reach (a : A) (n : Nat) : List (Lab T A) → St T A → Prop where
  | init : Reach a n [] (St.init a n)
  | step {l : List (Lab T A)} {s s' : St T A} {e : Lab T A} (h : Reach a n l s) (hs : Step s e s') :
      Reach a n (l ++ [e]) s'

/-- Continuations of an execution. (model bookkeeping, no code) -/
inductive Steps : St T A → St T A → Prop where
  | refl {s : St T A} : Steps s s
  | step {s s' s'' : St T A} {e : Lab T A} (h : Steps s s') (hs : Step s' e s'') : Steps s s''

/-- The successor of a table (`next_table`, `estrat_async.hpp:89`). -/
def St.next (s : St T A) (a : A) : Option A := (s.heap a).bind Obj.next

/-- The objects that the next step of a thread accesses: it dereferences the pointer, or it calls
`protect`, `unprotect`, `safe_delete` or `delete_raw` for it (which access the counter in the object).
The lines are those given at `PC`. (specification, no code) -/
def St.touches (s : St T A) : PC A → List A
  | .fresh | .pool | .idle _ | .gone _ => []
  | .ldU _ h => [h.tab]
  | .ldP _ _ => [s.glob]
  | .ldW _ _ a => [a]
  | .use h | .gr1 h | .gr2 h _ => [h.tab]
  | .gr3 _ b => [b]
  | .mg0 _ => []
  | .mg1 _ => [s.glob]
  | .mg2 _ c => [c]
  | .mg3 _ c => c :: (s.next c).toList
  | .mg4 _ c _ => [c]
  | .mg5 _ c n _ => [c, n]
  | .mg6 _ _ _ => []
  | .mg7 _ c n => [c, n]
  | .mg7b _ n => [n]
  | .mg8 _ _ => []
  | .mg9 _ c => [c]
  | .eg1 _ => []
  | .eg2 h => [h.tab]
  | .eg3 _ _ => []
  | .eg4 _ n => [n]
  | .eg5 h => [h.tab]

end
end Async
end Growt
