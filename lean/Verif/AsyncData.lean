import Verif.AsyncStep
import Verif.SyncDataInv

/-!
# Asynchronous growth: the tables behind the protocol

The protocol of `Async.lean` with the contents of the tables: what the operations of
`migration_table.hpp` do between `get_table` and `rls_table`, what `migrate` does in the meantime, and
what the callers see.
-/

set_option linter.unusedSectionVars false

namespace Growt
namespace Async

/-- A call through a handle (`migration_table.hpp:549-1027`): none, about to be tried (again), inside
the base table, refused by the base table (with what happens next), or with its result. -/
inductive UThr (K V : Type) where
  | idle
  | pend (op : Op K V)
  | busy (op : Op K V) (pc : Growt.PC K V)
  | again (op : Op K V) (x : Exit)
  | fin (op : Op K V) (x : SRes V)

/-- The state: the protocol; the mapper, hash function and slot kind of the table object at each
address and its slots (`none`: not initialised, `base_linear.hpp:414-438`); the blocks of each table
that have been handed out so far, by their first slot (see `MSt`); a ghost flag, set for ever when a
mark behind the end of a block failed because the content of the slot had changed
(`base_linear.hpp:1181`, see `MMem`); the calls. -/
structure DSt (T A K V : Type) where
  p : St T A
  env : A → Env K
  mem : A → MTbl K V
  torn : Bool
  jobs : A → Nat → Option (JobPC K V)
  thr : T → UThr K V

/-- The block that a thread is migrating. (`estrat_async.hpp:292-308`) -/
def PC.block {A : Type} : PC A → Option Nat
  | .mg5 _ _ _ k => some k
  | _ => none

section
variable {T A K V : Type} [DecidableEq T] [DecidableEq A] [DecidableEq K] [DecidableEq V] [Inhabited V]

/-- What is done before the call is tried again (`migration_table.hpp:617-624` and alike). -/
def retryAs (op : Op K V) (r : Ret K V) : Option Exit :=
  match react op r with
  | .grow => some .grow
  | .help => some .help
  | _ => none

/-- Steps.  `u`: see `MEnv.upd`; `ok`: the calls that are made.  Steps of the protocol that do not
concern the contents are `quiet`.  A call is made and returns between operations of the protocol;
the operation on the base table happens between `enter` and `exit`; other visits of the table
(`update_numbers`, `migration_table.hpp:1085-1117`, after an operation or in a destructor) do not
look at the slots.  The counters are not modelled: `resize` is called with arbitrary numbers, and
`update_numbers` may or may not ask for growth. -/
inductive DStep (u : Bool) (ok : Op K V → Prop) :
    DSt T A K V → Option (Ev T (Op K V) (SRes V)) → DSt T A K V → Prop where
  | call {s : DSt T A K V} {t : T} {h : Hd A} {op : Op K V} (hp : s.p.pc t = .idle h)
      (ht : s.thr t = .idle) (ho : ok op) :
      DStep u ok s (some (.call t op)) { s with thr := setAt s.thr t (.pend op) }
  | ret {s : DSt T A K V} {t : T} {h : Hd A} {op : Op K V} {x : SRes V} (hp : s.p.pc t = .idle h)
      (ht : s.thr t = .fin op x) :
      DStep u ok s (some (.ret t op x)) { s with thr := setAt s.thr t .idle }
  | quiet {s : DSt T A K V} {p' : St T A} (hs : Step s.p .tau p') :
      DStep u ok s none { s with p := p' }
  /-- `get_table`, `estrat_async.hpp:207-214`, then the operation begins -/
  | enter {s : DSt T A K V} {p' : St T A} {t : T} {a : A} {op : Op K V}
      (hs : Step s.p (.enter t a) p') (ht : s.thr t = .pend op) :
      DStep u ok s none
        { s with p := p', thr := setAt s.thr t (.busy op (start (s.env a) op)) }
  | visit {s : DSt T A K V} {p' : St T A} {t : T} {a : A} (hs : Step s.p (.enter t a) p')
      (ht : ∀ op, s.thr t ≠ .pend op) : DStep u ok s none { s with p := p' }
  | op {s : DSt T A K V} {p' : St T A} {t : T} {a : A} {op : Op K V} {pc pc' : Growt.PC K V}
      {g : Tbl K V} (hs : Step s.p (.op t a) p') (ht : s.thr t = .busy op pc)
      (hst : step (s.env a) op pc (published (s.mem a)) = (g, .cont pc')) :
      DStep u ok s none { s with
        p := p', mem := upd s.mem a (Sync.store (s.mem a) g), thr := setAt s.thr t (.busy op pc') }
  | opDone {s : DSt T A K V} {p' : St T A} {t : T} {a : A} {op : Op K V} {pc : Growt.PC K V}
      {g : Tbl K V} {r : Ret K V} {x : SRes V}
      (hs : Step s.p (.op t a) p') (ht : s.thr t = .busy op pc)
      (hst : step (s.env a) op pc (published (s.mem a)) = (g, .done r)) (hx : Sync.answer op r = some x) :
      DStep u ok s none { s with
        p := p', mem := upd s.mem a (Sync.store (s.mem a) g), thr := setAt s.thr t (.fin op x) }
  | opAgain {s : DSt T A K V} {p' : St T A} {t : T} {a : A} {op : Op K V} {pc : Growt.PC K V}
      {g : Tbl K V} {r : Ret K V} {x : Exit}
      (hs : Step s.p (.op t a) p') (ht : s.thr t = .busy op pc)
      (hst : step (s.env a) op pc (published (s.mem a)) = (g, .done r)) (hx : retryAs op r = some x) :
      DStep u ok s none { s with
        p := p', mem := upd s.mem a (Sync.store (s.mem a) g), thr := setAt s.thr t (.again op x) }
  /-- `rls_table` and then `grow` or `help_grow` -/
  | exitAgain {s : DSt T A K V} {p' : St T A} {t : T} {a : A} {op : Op K V} {x : Exit}
      (hs : Step s.p (.exit t a x) p') (ht : s.thr t = .again op x) :
      DStep u ok s none { s with p := p', thr := setAt s.thr t (.pend op) }
  /-- `rls_table` after a successful operation or a visit -/
  | exit {s : DSt T A K V} {p' : St T A} {t : T} {a : A} {x : Exit}
      (hs : Step s.p (.exit t a x) p') (ht : s.thr t = .idle ∨ ∃ op y, s.thr t = .fin op y)
      (hx : x ≠ .help) : DStep u ok s none { s with p := p' }
  /-- the new table, `estrat_async.hpp:222-226`, `base_linear.hpp:414-438` -/
  | make {s : DSt T A K V} {p' : St T A} {t : T} {a b : A} {o : Obj A} (i d : Nat)
      (hs : Step s.p (.make t a b) p') (ho : p'.heap b = some o)
      (hn : o.blocks = Sync.blocksOf ((s.env a).M.resize i d)) :
      DStep u ok s none { s with
        p := p'
        env := upd s.env b { s.env a with M := (s.env a).M.resize i d }
        mem := upd s.mem b (freshTarget { s.env a with M := (s.env a).M.resize i d })
        jobs := upd s.jobs b (fun _ => none) }
  | attach {s : DSt T A K V} {p' : St T A} {t : T} {a b : A} (hs : Step s.p (.attach t a b) p') :
      DStep u ok s none { s with p := p' }
  | claim {s : DSt T A K V} {p' : St T A} {t : T} {a b : A} {o : Obj A}
      (hs : Step s.p (.claim t a b) p') (ho : s.p.heap a = some o) :
      DStep u ok s none { s with
        p := p'
        jobs := upd s.jobs a (upd1 (s.jobs a) (o.claimed * blockSize)
          (some (jobStart ⟨s.env a, s.env b, u⟩ (o.claimed * blockSize)
            (blockEnd (s.env a).M.addr (o.claimed * blockSize))))) }
  | leave {s : DSt T A K V} {p' : St T A} {t : T} {a b : A} (hs : Step s.p (.leave t a b) p') :
      DStep u ok s none { s with p := p' }
  | work {s : DSt T A K V} {p' : St T A} {t : T} {a b : A} {k : Nat} {pc pc' : JobPC K V}
      {m : MMem K V} (hs : Step s.p (.work t a b) p') (hk : (s.p.pc t).block = some k)
      (hj : s.jobs a (k * blockSize) = some pc) (he : pc.ended = false)
      (hst : jobStep ⟨s.env a, s.env b, u⟩ (blockEnd (s.env a).M.addr (k * blockSize)) pc
        ⟨published (s.mem a), s.mem b, s.torn⟩ = (m, .cont pc')) :
      DStep u ok s none { s with
        p := p'
        mem := upd (upd s.mem a (Sync.store (s.mem a) m.src)) b m.tgt
        torn := m.torn
        jobs := upd s.jobs a (upd1 (s.jobs a) (k * blockSize) (some pc')) }
  | done {s : DSt T A K V} {p' : St T A} {t : T} {a b : A} {k : Nat} {pc : JobPC K V}
      (hs : Step s.p (.done t a b) p') (hk : (s.p.pc t).block = some k)
      (hj : s.jobs a (k * blockSize) = some pc) (he : pc.ended = true) :
      DStep u ok s none { s with p := p' }
  | publish {s : DSt T A K V} {p' : St T A} {t : T} {a b : A} (hs : Step s.p (.publish t a b) p') :
      DStep u ok s none { s with p := p' }
  | switch {s : DSt T A K V} {p' : St T A} {t : T} {a b : A} (hs : Step s.p (.switch t a b) p') :
      DStep u ok s none { s with p := p' }
  | retire {s : DSt T A K V} {p' : St T A} {t : T} {a : A} (hs : Step s.p (.retire t a) p') :
      DStep u ok s none { s with p := p' }
  | free {s : DSt T A K V} {p' : St T A} {a : A} (hs : Step s.p (.free a) p') :
      DStep u ok s none { s with p := p' }

/-- A new growing table whose first base table is at `a` (`migration_table.hpp:122-127`,
`base_linear.hpp:396-411`: all slots are set to empty). -/
def DSt.init (E : Env K) (a : A) : DSt T A K V where
  p := St.init a (Sync.blocksOf E.M)
  env := fun _ => E
  mem := fun _ q => if q < E.M.total then some Cell.emptyCell else none
  torn := false
  jobs := fun _ _ => none
  thr := fun _ => .idle

/-- Limits of the theorems: tables have fewer than `2^32` addressable slots; with circular probing, a
table that is being migrated has a free slot. (assumption, no code) -/
def DSt.Within (s : DSt T A K V) : Prop :=
  (∀ a o, s.p.heap a = some o → (s.env a).M.addr < 2 ^ 32) ∧
  ∀ o, s.p.heap s.p.cur = some o → o.next ≠ none →
    HasRoom (s.env s.p.cur) (published (s.mem s.p.cur))

end
end Async
end Growt
