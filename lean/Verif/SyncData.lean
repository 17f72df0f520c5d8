import Verif.SyncInv
import Verif.GrowInv
import Verif.Conc

/-!
# Synchronised growth: the tables behind the protocol

The protocol of `Sync.lean` with the contents of the tables: what the operations of
`migration_table.hpp` do between `get_table` and `rls_table`, what `migrate` does, and what the
callers see.
-/

set_option linter.unusedSectionVars false

namespace Growt
namespace Sync

/-- A call through a handle (`migration_table.hpp:549-1027`): none, about to be tried (again), inside
the base table, refused by the base table (with what happens next), or with its result. -/
inductive UThr (K V : Type) where
  | idle
  | pend (op : Op K V)
  | busy (op : Op K V) (pc : Growt.PC K V)
  | again (op : Op K V) (x : Exit)
  | fin (op : Op K V) (x : SRes V)

/-- The state: the protocol; the mapper, hash function and slot kind of the table object at each
address and its slots (`none`: not initialised, `base_linear.hpp:414-438`); of the migration that is
going on, the blocks handed out so far by their first slot (see `MSt`) and the ghost flag `torn`; the
calls. -/
structure DSt (T A K V : Type) where
  p : St T A
  env : A → Env K
  mem : A → MTbl K V
  torn : Bool
  jobs : Nat → Option (JobPC K V)
  thr : T → UThr K V

/-- Number of blocks: `_current_copy_block` starts at 0 and grows by `migration_block_size`; a block
is migrated while it is below `addressable_slots()` (`estrat_sync.hpp:431-448`). -/
def blocksOf (M : Mapper) : Nat := (M.addr + (blockSize - 1)) / blockSize

/-- The block that a thread is migrating. (`estrat_sync.hpp:431-448`) -/
def PC.block {A : Type} : PC A → Option Nat
  | .mg5 _ _ _ _ _ k => some k
  | _ => none

section
variable {T A K V : Type} [DecidableEq T] [DecidableEq A] [DecidableEq K] [DecidableEq V] [Inhabited V]

/-- The slots of a table after an operation has turned its contents into `t`: only the changed slots
are written. (`base_linear.hpp:556-916`) -/
def store (g : MTbl K V) (t : Tbl K V) : MTbl K V :=
  fun q => if t q = published g q then g q else some (t q)

/-- What the caller gets, if the call ends with the answer `r` of the base table
(`migration_table.hpp:549-1027`; see `react`). -/
def answer (op : Op K V) (r : Ret K V) : Option (SRes V) :=
  match react op r with
  | .ret b => some ⟨b, r.shown⟩
  | .countInserted | .countDeleted => some ⟨true, r.shown⟩
  | .grow | .help => none

/-- What is done before the call is tried again (`migration_table.hpp:617-624` and alike). -/
def retryAs (op : Op K V) (r : Ret K V) : Option Exit :=
  match react op r with
  | .grow => some .grow
  | .help => some .help
  | _ => none

/-- Steps.  `upd`: see `MEnv`; `ok`: the calls that are made.  Steps of the protocol that do not
concern the contents are `quiet`.  A call is made and returns between operations of the protocol;
the operation on the base table happens between `enter` and `exit`; other visits of the table
(`update_numbers`, `migration_table.hpp:1085-1117`, after an operation or in a destructor) do not
look at the slots.  The counters are not modelled: `resize` is called with arbitrary numbers, and
`update_numbers` may or may not ask for growth. -/
inductive DStep (upd : Bool) (ok : Op K V → Prop) :
    DSt T A K V → Option (Ev T (Op K V) (SRes V)) → DSt T A K V → Prop where
  | call {s : DSt T A K V} {t : T} {h : Hd} {op : Op K V} (hp : s.p.pc t = .idle h)
      (ht : s.thr t = .idle) (ho : ok op) :
      DStep upd ok s (some (.call t op)) { s with thr := setAt s.thr t (.pend op) }
  | ret {s : DSt T A K V} {t : T} {h : Hd} {op : Op K V} {x : SRes V} (hp : s.p.pc t = .idle h)
      (ht : s.thr t = .fin op x) :
      DStep upd ok s (some (.ret t op x)) { s with thr := setAt s.thr t .idle }
  | quiet {s : DSt T A K V} {p' : St T A} (hs : Step false s.p .tau p') :
      DStep upd ok s none { s with p := p' }
  /-- `get_table`, `estrat_sync.hpp:265-294`, then the operation begins -/
  | enter {s : DSt T A K V} {p' : St T A} {t : T} {a : A} {op : Op K V}
      (hs : Step false s.p (.enter t a) p') (ht : s.thr t = .pend op) :
      DStep upd ok s none
        { s with p := p', thr := setAt s.thr t (.busy op (start (s.env a) op)) }
  | visit {s : DSt T A K V} {p' : St T A} {t : T} {a : A} (hs : Step false s.p (.enter t a) p')
      (ht : ∀ op, s.thr t ≠ .pend op) : DStep upd ok s none { s with p := p' }
  | op {s : DSt T A K V} {p' : St T A} {t : T} {a : A} {op : Op K V} {pc pc' : Growt.PC K V}
      {g : Tbl K V} (hs : Step false s.p (.op t a) p') (ht : s.thr t = .busy op pc)
      (hst : step (s.env a) op pc (published (s.mem a)) = (g, .cont pc')) :
      DStep upd ok s none { s with
        p := p', mem := Sync.upd s.mem a (store (s.mem a) g), thr := setAt s.thr t (.busy op pc') }
  | opLin {s : DSt T A K V} {p' : St T A} {t : T} {a : A} {op : Op K V} {pc : Growt.PC K V}
      {g : Tbl K V} {r : Ret K V} {x : SRes V}
      (hs : Step false s.p (.op t a) p') (ht : s.thr t = .busy op pc)
      (hst : step (s.env a) op pc (published (s.mem a)) = (g, .done r)) (hx : answer op r = some x) :
      DStep upd ok s (some (.lin t op x)) { s with
        p := p', mem := Sync.upd s.mem a (store (s.mem a) g), thr := setAt s.thr t (.fin op x) }
  | opAgain {s : DSt T A K V} {p' : St T A} {t : T} {a : A} {op : Op K V} {pc : Growt.PC K V}
      {g : Tbl K V} {r : Ret K V} {x : Exit}
      (hs : Step false s.p (.op t a) p') (ht : s.thr t = .busy op pc)
      (hst : step (s.env a) op pc (published (s.mem a)) = (g, .done r)) (hx : retryAs op r = some x) :
      DStep upd ok s none { s with
        p := p', mem := Sync.upd s.mem a (store (s.mem a) g), thr := setAt s.thr t (.again op x) }
  /-- `rls_table` and then `grow` or `help_grow` -/
  | exitAgain {s : DSt T A K V} {p' : St T A} {t : T} {a : A} {op : Op K V} {x : Exit}
      (hs : Step false s.p (.exit t a x) p') (ht : s.thr t = .again op x) :
      DStep upd ok s none { s with p := p', thr := setAt s.thr t (.pend op) }
  /-- `rls_table` after a successful operation or a visit -/
  | exit {s : DSt T A K V} {p' : St T A} {t : T} {a : A} {x : Exit}
      (hs : Step false s.p (.exit t a x) p') (ht : s.thr t = .idle ∨ ∃ op y, s.thr t = .fin op y)
      (hx : x ≠ .help) : DStep upd ok s none { s with p := p' }
  /-- the new table, `estrat_sync.hpp:333-336`, `base_linear.hpp:414-438` -/
  | make {s : DSt T A K V} {p' : St T A} {t : T} {a b : A} {o : Obj A} (i d : Nat)
      (hs : Step false s.p (.make t a b) p') (ho : p'.heap b = some o)
      (hn : o.blocks = blocksOf ((s.env a).M.resize i d)) :
      DStep upd ok s none { s with
        p := p'
        env := Sync.upd s.env b { s.env a with M := (s.env a).M.resize i d }
        mem := Sync.upd s.mem b (freshTarget { s.env a with M := (s.env a).M.resize i d })
        torn := false
        jobs := fun _ => none }
  | claim {s : DSt T A K V} {p' : St T A} {t : T} {a b : A} {o : Obj A}
      (hs : Step false s.p (.claim t a b) p') (ho : s.p.heap a = some o) :
      DStep upd ok s none { s with
        p := p'
        jobs := upd1 s.jobs (o.claimed * blockSize) (some (jobStart ⟨s.env a, s.env b, upd⟩
          (o.claimed * blockSize) (blockEnd (s.env a).M.addr (o.claimed * blockSize)))) }
  | leave {s : DSt T A K V} {p' : St T A} {t : T} {a b : A} (hs : Step false s.p (.leave t a b) p') :
      DStep upd ok s none { s with p := p' }
  | work {s : DSt T A K V} {p' : St T A} {t : T} {a b : A} {k : Nat} {pc pc' : JobPC K V}
      {m : MMem K V} (hs : Step false s.p (.work t a b) p') (hk : (s.p.pc t).block = some k)
      (hj : s.jobs (k * blockSize) = some pc) (he : pc.ended = false)
      (hst : jobStep ⟨s.env a, s.env b, upd⟩ (blockEnd (s.env a).M.addr (k * blockSize)) pc
        ⟨published (s.mem a), s.mem b, s.torn⟩ = (m, .cont pc')) :
      DStep upd ok s none { s with
        p := p'
        mem := Sync.upd (Sync.upd s.mem a (store (s.mem a) m.src)) b m.tgt
        torn := m.torn
        jobs := upd1 s.jobs (k * blockSize) (some pc') }
  | done {s : DSt T A K V} {p' : St T A} {t : T} {a b : A} {k : Nat} {pc : JobPC K V}
      (hs : Step false s.p (.done t a b) p') (hk : (s.p.pc t).block = some k)
      (hj : s.jobs (k * blockSize) = some pc) (he : pc.ended = true) :
      DStep upd ok s none { s with p := p' }
  | publish {s : DSt T A K V} {p' : St T A} {t : T} {a b : A}
      (hs : Step false s.p (.publish t a b) p') : DStep upd ok s none { s with p := p' }
  | free {s : DSt T A K V} {p' : St T A} {t : T} {a : A} (hs : Step false s.p (.free t a) p') :
      DStep upd ok s none { s with p := p' }

/-- A new growing table whose first base table is at `a` (`migration_table.hpp:122-127`,
`base_linear.hpp:396-411`: all slots are set to empty). -/
def DSt.init (E : Env K) (a : A) : DSt T A K V where
  p := St.init a (blocksOf E.M)
  env := fun _ => E
  mem := fun _ q => if q < E.M.total then some Cell.emptyCell else none
  torn := false
  jobs := fun _ => none
  thr := fun _ => .idle

/-- The sequential object behind a growing table: an ideal map that starts empty; an update with
backoff may give up without effect if its callback says so at some time. (specification, no code) -/
def growObj (m : Bool) : Growt.Obj (Op K V) (SRes V) (Dict K V) where
  init := fun _ => none
  legal d op x d' :=
    (d' = ((op.toSpec m).sem d).1 ∧ AgreesG op x ((op.toSpec m).sem d).2) ∨
    ((∃ k f b n, op = .updateBackoff k f b ∧ b n = false) ∧ x = ⟨false, none⟩ ∧ d' = d)

/-- The tables that matter: the current one; the current one and its prepared successor; or the
two tables between which elements are migrated. (model bookkeeping, no code) -/
inductive Stage (A : Type) where
  | broken
  | solo (a : A)
  | pair (a b : A)
  | mig (a b : A)
  deriving DecidableEq

/-- The stage of the growing thread, seen from the data. (model bookkeeping, no code) -/
def St.stage (s : St T A) : Stage A :=
  match s.phase with
  | .quiet | .begun =>
    match s.table with
    | .clear a => .solo a
    | _ => .broken
  | .marked a _ => .solo a
  | .made a _ b => .pair a b
  | .waitOps a _ b _ _ => .pair a b
  | .ready a _ b => .pair a b
  | .migrating a _ b => .mig a b
  | .drained a _ b => .mig a b
  | .nulled a _ b => .mig a b
  | .waitMig a _ b _ _ => .mig a b
  | .empty a _ b => .mig a b

/-- Limits of the theorems: while a table is being grown it has fewer than `2^32` addressable slots,
and with circular probing a free slot. (assumption, no code) -/
def DSt.Within (s : DSt T A K V) : Prop :=
  ∀ a b, s.p.stage = .pair a b ∨ s.p.stage = .mig a b →
    (s.env a).M.addr < 2 ^ 32 ∧ HasRoom (s.env a) (published (s.mem a))

end
end Sync
end Growt
