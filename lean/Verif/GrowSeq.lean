import Verif.Count
import Verif.SeqTrace
import Verif.MigTerm
import Verif.MigBlocks

/-!
# A growing table used through one handle (`migration_table.hpp`)

One thread, one handle, no pool thread: the operations of the handle, the counting, and the growth
steps they trigger, executed one after the other.  Both growing strategies do the same in this
situation; where they differ (publication of the new table, waiting for others) there is nobody to
wait for.
-/

set_option linter.unusedSectionVars false

namespace Growt

/-- A growing table with one handle: the current base table (geometry, hash function, slot kind,
contents), the shared counters `_elements` and `_dummies` (`migration_table.hpp:147-148`), the
counters of the handle (line 427) and the version of the current table. -/
structure GSt (K V : Type) where
  E : Env K
  t : Tbl K V
  elements : Int
  dummies : Int
  c : Cnt.Local
  version : Nat

/-- What the handle does with the code returned by the base table.
(`migration_table.hpp:609-629` and the like) -/
inductive Action where
  /-- return this flag to the caller -/
  | ret (flag : Bool)
  /-- `inc_inserted()`, then return `true` -/
  | countInserted
  /-- `inc_deleted()`, then return 1 -/
  | countDeleted
  /-- `grow(v)`, then call again -/
  | grow
  /-- `help_grow(v)`, then call again -/
  | help
  deriving DecidableEq, Repr

section
variable {K V : Type} [DecidableEq K] [DecidableEq V] [Inhabited V]

/-- The `switch` of `insert_intern` (`migration_table.hpp:609-629`). -/
def switchInsert : ReturnCode → Action
  | .SUCCESS_IN | .TSX_SUCCESS_IN => .countInserted
  | .UNSUCCESS_ALREADY_USED | .TSX_UNSUCCESS_ALREADY_USED => .ret false
  | .UNSUCCESS_FULL | .TSX_UNSUCCESS_FULL => .grow
  | .UNSUCCESS_INVALID | .TSX_UNSUCCESS_INVALID => .help
  | _ => .ret false

/-- The `switch` of `update` (`migration_table.hpp:655-674`) and `update_unsafe` (745-763). -/
def switchUpdate : ReturnCode → Action
  | .SUCCESS_UP | .TSX_SUCCESS_UP => .ret true
  | .UNSUCCESS_NOT_FOUND | .TSX_UNSUCCESS_NOT_FOUND => .ret false
  | .UNSUCCESS_FULL | .TSX_UNSUCCESS_FULL => .grow
  | .UNSUCCESS_INVALID | .TSX_UNSUCCESS_INVALID => .help
  | _ => .ret false

/-- The `switch` of `update_with_backoff` (`migration_table.hpp:700-721`). -/
def switchBackoff : ReturnCode → Action
  | .UNSUCCESS_BACKOFF => .ret ReturnCode.UNSUCCESS_BACKOFF.successful
  | c => switchUpdate c

/-- The `switch` of `insert_or_update_intern` (`migration_table.hpp:823-842`) and
`insert_or_update_unsafe_intern` (900-920). -/
def switchInsertOrUpdate : ReturnCode → Action
  | .SUCCESS_IN | .TSX_SUCCESS_IN => .countInserted
  | .SUCCESS_UP | .TSX_SUCCESS_UP => .ret false
  | .UNSUCCESS_FULL | .TSX_UNSUCCESS_FULL => .grow
  | .UNSUCCESS_INVALID | .TSX_UNSUCCESS_INVALID => .help
  | _ => .ret false

/-- The `switch` of `erase` (`migration_table.hpp:971-990`) and `erase_if` (1008-1027). -/
def switchErase : ReturnCode → Action
  | .SUCCESS_DEL | .TSX_SUCCESS_DEL => .countDeleted
  | .UNSUCCESS_INVALID | .TSX_UNSUCCESS_INVALID => .help
  | _ => .ret false

/-- What the handle does after the base table returned `r`.  `find` (`migration_table.hpp:926-939`)
has no code and returns the iterator as it is; the flag is `find(k) != end()`. -/
def react (op : Op K V) (r : Ret K V) : Action :=
  match op with
  | .find _ => .ret r.it.isSome
  | .insert _ _ => switchInsert (r.code.getD .ERROR)
  | .locate _ | .update _ _ | .updateUnsafe _ _ => switchUpdate (r.code.getD .ERROR)
  | .updateBackoff _ _ _ => switchBackoff (r.code.getD .ERROR)
  | .insertOrUpdate _ _ _ | .insertOrUpdateUnsafe _ _ _ =>
    switchInsertOrUpdate (r.code.getD .ERROR)
  | .erase _ | .eraseIf _ _ => switchErase (r.code.getD .ERROR)

/-- Conversion of an `int` to `size_t`, in the call of `resize(_elements.load(), _dummies.load())`
(`estrat_async.hpp:222-226`, `estrat_sync.hpp:331-334`). -/
def toSize (x : Int) : Nat := (x % (2 ^ 64 : Int)).toNat

/-- The migration started by `grow` in state `s`: the target has the size computed by `resize`
(`estrat_async.hpp:222-226`, `estrat_sync.hpp:331-334`). `upd`: see `MEnv`. -/
def growEnv (upd : Bool) (s : GSt K V) : MEnv K where
  src := s.E
  tgt := { s.E with M := s.E.M.resize (toSize s.elements) (toSize s.dummies) }
  upd := upd

/-- `grow(v)` by the only thread: the whole table is migrated block by block by this thread, the new
table is published, tombstones are removed from the counters (`estrat_async.hpp:217-237, 322-350`,
`estrat_sync.hpp:301-370`, user worker `wstrat_user.hpp:71-74`). -/
inductive Grow (upd : Bool) (s : GSt K V) : GSt K V → Prop where
  | mk (m : MSt Unit K V) (hm : MQuiet (growEnv upd s) s.t m) (hf : m.finished (growEnv upd s)) :
      Grow upd s ⟨(growEnv upd s).tgt, published m.mem.tgt, s.elements - s.dummies, 0, s.c,
        s.version + 1⟩

/-- The state after the two `fetch_add` of `update_numbers` (`migration_table.hpp:1087-1100`). -/
def GSt.flushed (s : GSt K V) : GSt K V :=
  { s with elements := s.elements + s.c.inserted, dummies := s.dummies + s.c.deleted
           c := { s.c with updates := 0 } }

/-- `update_numbers` (`migration_table.hpp:1085-1117`); `capacity()` is the number of slots
(`base_linear.hpp:369`). -/
inductive Flush (upd : Bool) (s : GSt K V) : GSt K V → Prop where
  | quiet (h : Cnt.triggers s.E.M.total s.elements s.c.inserted = false) :
      Flush upd s { s.flushed with c := {} }
  | grow {s' : GSt K V} (h : Cnt.triggers s.E.M.total s.elements s.c.inserted = true)
      (hg : Grow upd s.flushed s') : Flush upd s { s' with c := {} }

/-- `inc_inserted` (`migration_table.hpp:1120-1125`). -/
inductive IncInserted (upd : Bool) (s : GSt K V) : GSt K V → Prop where
  | quiet (h : s.c.updates + 1 ≤ 64) :
      IncInserted upd s { s with c := ⟨s.c.updates + 1, s.c.inserted + 1, s.c.deleted⟩ }
  | flush {s' : GSt K V} (h : s.c.updates + 1 > 64)
      (hf : Flush upd { s with c := ⟨s.c.updates + 1, s.c.inserted + 1, s.c.deleted⟩ } s') :
      IncInserted upd s s'

/-- `inc_deleted` (`migration_table.hpp:1135-1140`). -/
inductive IncDeleted (upd : Bool) (s : GSt K V) : GSt K V → Prop where
  | quiet (h : s.c.updates + 1 ≤ 64) :
      IncDeleted upd s { s with c := ⟨s.c.updates + 1, s.c.inserted, s.c.deleted + 1⟩ }
  | flush {s' : GSt K V} (h : s.c.updates + 1 > 64)
      (hf : Flush upd { s with c := ⟨s.c.updates + 1, s.c.inserted, s.c.deleted + 1⟩ } s') :
      IncDeleted upd s s'

/-- A call through the handle: state before, what the caller gets, state after.  The base operation
is run to its end; then the `switch` decides (`migration_table.hpp:592-1027`).  `help`: nobody
else is growing, so `help_grow` (`estrat_async.hpp:241-245`, `248-288`) finds no next table and has
no effect. -/
inductive Call (upd : Bool) (op : Op K V) : GSt K V → SRes V → GSt K V → Prop where
  | ret {s : GSt K V} {n : Nat} {t' : Tbl K V} {r : Ret K V} {b : Bool}
      (hrun : run s.E op n (start s.E op) s.t = .done t' r) (ha : react op r = .ret b) :
      Call upd op s ⟨b, r.shown⟩ { s with t := t' }
  | inserted {s s' : GSt K V} {n : Nat} {t' : Tbl K V} {r : Ret K V}
      (hrun : run s.E op n (start s.E op) s.t = .done t' r) (ha : react op r = .countInserted)
      (hc : IncInserted upd { s with t := t' } s') : Call upd op s ⟨true, r.shown⟩ s'
  | deleted {s s' : GSt K V} {n : Nat} {t' : Tbl K V} {r : Ret K V}
      (hrun : run s.E op n (start s.E op) s.t = .done t' r) (ha : react op r = .countDeleted)
      (hc : IncDeleted upd { s with t := t' } s') : Call upd op s ⟨true, r.shown⟩ s'
  | grow {s s' s'' : GSt K V} {n : Nat} {t' : Tbl K V} {r : Ret K V} {x : SRes V}
      (hrun : run s.E op n (start s.E op) s.t = .done t' r) (ha : react op r = .grow)
      (hg : Grow upd { s with t := t' } s') (hc : Call upd op s' x s'') : Call upd op s x s''
  | help {s s'' : GSt K V} {n : Nat} {t' : Tbl K V} {r : Ret K V} {x : SRes V}
      (hrun : run s.E op n (start s.E op) s.t = .done t' r) (ha : react op r = .help)
      (hc : Call upd op { s with t := t' } x s'') : Call upd op s x s''

/-- What can be done with a handle: an operation, or `update_numbers` (public,
`migration_table.hpp:383`; also the first thing a destructor does, line 534, so destroying the
handle and creating a new one is the same). -/
inductive HOp (K V : Type) where
  | op (op : Op K V)
  | flush

/-- Sequences of calls through the handle, with the results of the operations.
(`migration_table.hpp:549-1027`) -/
inductive Calls (upd : Bool) : GSt K V → List (HOp K V) → List (Op K V × SRes V) → GSt K V → Prop where
  | nil (s : GSt K V) : Calls upd s [] [] s
  | op {s s' s'' : GSt K V} {op : Op K V} {x : SRes V} {ops : List (HOp K V)}
      {l : List (Op K V × SRes V)}
      (h : Call upd op s x s') (hl : Calls upd s' ops l s'') : Calls upd s (.op op :: ops) ((op, x) :: l) s''
  | flush {s s' s'' : GSt K V} {ops : List (HOp K V)} {l : List (Op K V × SRes V)}
      (h : Flush upd s s') (hl : Calls upd s' ops l s'') : Calls upd s (.flush :: ops) l s''

/-- A new growing table: `migration_table_data(size)` makes the first base table with
`max(size, 2^15)` (`migration_table.hpp:122-127`), i.e. at least `2^16` addressable slots
(`base_linear.hpp:58-63`, `396-411`; `2^k` is the capacity computed there, see C14). -/
def GSt.new (cm cp m : Bool) (h : K → Nat) (k : Nat) : GSt K V :=
  ⟨⟨Mapper.mk' cm cp (2 ^ k) 0, h, m⟩, emptyTbl, 0, 0, {}, 0⟩

/-! ## Codes -/

/-- The codes with which an operation of the base table can return. (proof, no code) -/
def codesOf : Op K V → List (Option ReturnCode)
  | .find _ => [none]
  | .insert _ _ => [some .SUCCESS_IN, some .UNSUCCESS_ALREADY_USED, some .UNSUCCESS_FULL,
      some .UNSUCCESS_INVALID]
  | .locate _ | .update _ _ | .updateUnsafe _ _ => [some .SUCCESS_UP, some .UNSUCCESS_NOT_FOUND,
      some .UNSUCCESS_INVALID]
  | .updateBackoff _ _ _ => [some .SUCCESS_UP, some .UNSUCCESS_NOT_FOUND, some .UNSUCCESS_INVALID,
      some .UNSUCCESS_BACKOFF]
  | .insertOrUpdate _ _ _ | .insertOrUpdateUnsafe _ _ _ => [some .SUCCESS_IN, some .SUCCESS_UP,
      some .UNSUCCESS_FULL, some .UNSUCCESS_INVALID]
  | .erase _ | .eraseIf _ _ => [some .SUCCESS_DEL, some .UNSUCCESS_NOT_FOUND,
      some .UNSUCCESS_INVALID]

theorem step_code {E : Env K} {op : Op K V} {pc : PC K V} {t t' : Tbl K V} {r : Ret K V}
    (h : step E op pc t = (t', .done r)) : r.code ∈ codesOf op := by
  cases pc with
  | load i att =>
    simp only [step] at h
    split at h
    · have h2 := congrArg Prod.snd h
      simp only at h2
      cases op <;> simp only [afterLoad, retEnd] at h2 <;> (repeat' split at h2) <;> cases h2 <;>
        simp [codesOf]
    · cases h
  | act i att curr =>
    simp only [step] at h
    split at h
    · have h2 := congrArg Prod.snd h
      simp only at h2
      cases op <;> simp only [actStep, casStep, retEnd] at h2 <;> (repeat' split at h2) <;> cases h2 <;>
        simp [codesOf]
    · cases h

/-- An operation gives up only because of a mark. -/
theorem step_invalid {E : Env K} {op : Op K V} {pc : PC K V} {t t' : Tbl K V} {r : Ret K V}
    (h : step E op pc t = (t', .done r)) (hc : r.code = some .UNSUCCESS_INVALID) :
    ∃ p, p < E.M.total ∧ (t p).marked = true := by
  cases pc with
  | load i att =>
    simp only [step] at h
    split at h
    · rename_i hlt
      refine ⟨E.M.remap i, hlt, ?_⟩
      have h2 := congrArg Prod.snd h
      simp only at h2
      cases hm : (t (E.M.remap i)).marked
      · exfalso
        cases op <;> simp only [afterLoad, retEnd, hm] at h2 <;> (repeat' split at h2) <;> cases h2 <;>
          simp at hc <;> contradiction
      · rfl
    · cases h
  | act i att curr =>
    exfalso
    simp only [step] at h
    split at h
    · have h2 := congrArg Prod.snd h
      simp only at h2
      cases op <;> simp only [actStep, casStep, retEnd] at h2 <;> (repeat' split at h2) <;> cases h2 <;>
        simp at hc
    · cases h

/-! ## A finished base operation, without assuming that there is room -/

theorem run_partial {E : Env K} {op : Op K V} (hE : E.OK) {t : Tbl K V} (hI : Inv E t)
    {t' : Tbl K V} {r : Ret K V} :
    ∀ fuel i att, Passed E t op.key i → run E op fuel (.load i att) t = .done t' r →
    r.code ≠ some .UNSUCCESS_BACKOFF ∧
      ∃ pc, PcInv E t op pc ∧ SafeAct E t op pc ∧ step E op pc t = (t', .done r) := by
  intro fuel
  induction fuel with
  | zero => intro i att _ h; cases h
  | succ n ih =>
    intro i att hp hrun
    have hlt := hp.inBounds hE hI
    have hg := step_good (pc := .load i att) hE hI hp (by intro _ _ _ h; cases h)
    have hstep : step E op (.load i att) t =
        (t, afterLoad E op i att (E.M.remap i) (t (E.M.remap i))) := by
      simp [step, hlt]
    unfold run at hrun
    rw [hstep] at hg hrun
    obtain ⟨-, hev, hg⟩ := hg
    generalize ho : afterLoad E op i att (E.M.remap i) (t (E.M.remap i)) = out at *
    cases out with
    | oob => exact hg.elim
    | done r' =>
      cases hrun
      refine ⟨?_, .load i att, hp, (by intro _ _ _ h; cases h), hstep⟩
      intro hbk
      revert ho hbk
      cases op <;> simp only [afterLoad, retEnd] <;> intro ho <;>
        (repeat' split at ho) <;> cases ho <;> simp
    | cont pc' =>
      obtain ⟨-, hpc⟩ := hg
      cases pc' with
      | load i' att' =>
        have hi' : i' = i + 1 := by
          revert ho
          cases op <;> simp only [afterLoad, retEnd] <;> intro ho <;>
            (repeat' split at ho) <;> cases ho <;> rfl
        subst hi'
        exact ih (i + 1) att' hpc hrun
      | act i' att' curr =>
        have hi' : i' = i ∧ curr = t (E.M.remap i) := by
          revert ho
          cases op <;> simp only [afterLoad, retEnd] <;> intro ho <;>
            (repeat' split at ho) <;> cases ho <;> exact ⟨rfl, rfl⟩
        obtain ⟨rfl, rfl⟩ := hi'
        obtain ⟨t1, r1, hs, -, hbk, -⟩ := act_alone (att := att') hpc.2.1 hlt
        have hsafe : SafeAct E t op (.act i' att' (t (E.M.remap i'))) := by
          intro i2 a2 c2 h
          injection h with e1 e2 e3
          subst e1; subst e3
          have := hpc.2.1.2
          cases op <;> simp only [Op.usesCas, Op.key] at * <;> simp_all
          all_goals (rcases this with h | h <;> simp_all)
        cases n with
        | zero => cases hrun
        | succ n =>
          simp only [run, hs] at hrun
          cases hrun
          exact ⟨hbk, _, hpc, hsafe, hs⟩

/-- The last step of a finished run, for counting. -/
theorem run_step {E : Env K} (hE : E.OK) {t : Tbl K V} (hI : Inv E t)
    {op : Op K V} {n : Nat} {t' : Tbl K V} {r : Ret K V}
    (hrun : run E op n (start E op) t = .done t' r) :
    ∃ pc, PcInv E t op pc ∧ SafeAct E t op pc ∧ step E op pc t = (t', .done r) :=
  (run_partial hE hI n _ _ (Passed.start _ _ _) hrun).2

/-- What a finished base operation did: refused as full without effect, or took effect as
specified; and how the number of occupied slots changed. -/
theorem run_done {E : Env K} (hE : E.OK) {t : Tbl K V} (hI : Inv E t) (hn : NoMarks t)
    {op : Op K V} {d : Dict K V} (hs : Stores E t d) {n : Nat} {t' : Tbl K V} {r : Ret K V}
    (hrun : run E op n (start E op) t = .done t' r) :
    Inv E t' ∧ NoMarks t' ∧ r.code ∈ codesOf op ∧ r.code ≠ some .UNSUCCESS_BACKOFF ∧
      ((r.code = some .UNSUCCESS_FULL ∧ t' = t ∧ d op.key = none ∧ (op.toSpec E.m).inserts = true ∧
          E.M.cp = false ∧ ∀ p, E.M.addr - 1 ≤ p → p ≤ E.M.addr + 300 → (t p).c ≠ .empty) ∨
        (r.code ≠ some .UNSUCCESS_FULL ∧ r.code ≠ some .UNSUCCESS_INVALID ∧
          Stores E t' ((op.toSpec E.m).sem d).1 ∧ Agrees op r ((op.toSpec E.m).sem d).2)) := by
  obtain ⟨hbk, pc, hpc, hsafe, hstep⟩ := run_partial hE hI n _ _ (Passed.start _ _ _) hrun
  obtain ⟨hI', hev, hd⟩ := step_good hE hI hpc hsafe
  have hmk := step_marks hpc
  have hcode := step_code hstep
  rw [hstep] at hI' hev hd hmk
  simp only at hI' hev hd hmk
  have hn' : NoMarks t' := by
    intro p
    cases hp : (t' p).marked
    · rfl
    · have := hmk p hp; rw [hn p] at this; cases this
  refine ⟨hI', hn', hcode, hbk, ?_⟩
  cases hd with
  | invalid hr' ht hm => obtain ⟨p, _, hp⟩ := hm; rw [hn p] at hp; cases hp
  | refused c hc hr' ht habs =>
    left
    have hc' : c = .UNSUCCESS_FULL ∧ (op.toSpec E.m).inserts = true := by
      cases op <;> simp [Op.mayRefuse, Op.toSpec, SOp.inserts] at * <;>
        first | exact hc | (rw [hr'] at hbk; simp [hc.1] at hbk)
    have hcode' : r.code = some .UNSUCCESS_FULL := by rw [hr', hc'.1]
    obtain ⟨e1, e2, e3, e4⟩ := step_full hE hI hpc hstep hcode'
    exact ⟨hcode', e1, e2 d hs, hc'.2, e3, e4⟩
  | effect h =>
    obtain ⟨h1, h2⟩ := h d hs
    right
    refine ⟨fun hc => ?_, fun hc => ?_, h1, h2⟩
    · obtain ⟨e1, e2, e3, e4⟩ := step_full hE hI hpc hstep hc
      have hk := e2 d hs
      have h3 := h2.1
      rw [hc] at hcode
      cases op <;> simp [codesOf] at hcode <;>
        simp [Op.toSpec, SOp.sem, Op.key] at h3 hk <;> rw [hk] at h3 <;>
        simp [Ret.ok, hc, ReturnCode.successful, ReturnCode.toNat] at h3
    · obtain ⟨p, _, hp⟩ := step_invalid hstep hc
      rw [hn p] at hp
      cases hp

/-! ## What a finished operation did to the slots -/

/-- empty, element or tombstone (proof, no code) -/
def kind : Content K V → Nat
  | .empty => 0
  | .live _ _ => 1
  | .deleted _ => 2

/-- One of three things happened: an element was put in an empty slot, an element became a
tombstone, or every slot kept its kind. (proof, no code) -/
inductive Change (n : Nat) (t t' : Tbl K V) (c : Option ReturnCode) : Prop where
  | ins (p : Nat) (x : Cell K V) (hc : c = some .SUCCESS_IN) (hp : p < n) (h0 : kind (t p).c = 0)
      (hx : kind x.c = 1) (ht : t' = t.set p x)
  | del (p : Nat) (x : Cell K V) (hc : c = some .SUCCESS_DEL) (hp : p < n) (h0 : kind (t p).c = 1)
      (hx : kind x.c = 2) (ht : t' = t.set p x)
  | same (hc : c ≠ some .SUCCESS_IN) (hd : c ≠ some .SUCCESS_DEL)
      (h : ∀ q, kind (t' q).c = kind (t q).c)

theorem kind_setMapped (x : Cell K V) (v : V) : kind (x.setMapped v).c = kind x.c := by
  unfold Cell.setMapped
  cases hc : x.c <;> simp [kind, hc]

theorem step_change {E : Env K} {op : Op K V} {pc : PC K V} {t t' : Tbl K V} {r : Ret K V}
    (hpc : PcInv E t op pc) (hsafe : SafeAct E t op pc)
    (h : step E op pc t = (t', .done r)) : Change E.M.total t t' r.code := by
  have hset : ∀ (p : Nat) (x : Cell K V), kind x.c = kind (t p).c →
      ∀ q, kind ((t.set p x) q).c = kind (t q).c := by
    intro p x hx q
    unfold Tbl.set
    split
    · subst q; exact hx
    · rfl
  have hnu : ∀ p k f, kind (nonAtomicUpdate k (t p) f).1.c = kind (t p).c := by
    intro p k f
    exact kind_setMapped _ _
  cases pc with
  | load i att =>
    have ht : t' = t := by
      simp only [step] at h
      split at h <;> exact (congrArg Prod.fst h).symm
    subst ht
    simp only [step] at h
    split at h
    · have h2 := congrArg Prod.snd h
      simp only at h2
      refine .same ?_ ?_ (fun _ => rfl) <;>
        (cases op <;> simp only [afterLoad, retEnd] at h2 <;> (repeat' split at h2) <;> cases h2 <;>
          simp)
    · cases h
  | act i att curr =>
    obtain ⟨-, ⟨hm, hact⟩, hle⟩ := hpc
    simp only [step] at h
    split at h
    · rename_i hlt
      have hau : ∀ k f, (∃ w, curr.c = .live k w) → op.key = k →
          kind (atomicUpdate E.m k (t (E.M.remap i)) curr f).1.c = kind (t (E.M.remap i)).c := by
        rintro k f ⟨w, hw⟩ hk
        unfold atomicUpdate
        cases E.m <;> cases f.atomic <;> simp only [Bool.false_eq_true, if_false, if_true]
        · split
          · exact kind_setMapped _ _
          · rfl
        · exact kind_setMapped _ _
        · split
          · rename_i he
            rw [kind_setMapped, he]
          · rfl
        · split
          · rename_i he
            rw [kind_setMapped, he]
          · rfl
      have hupd : ∀ k f fail, (∃ w, curr.c = .live k w) → op.key = k →
          (∀ r', fail = Out.done r' → r'.code = some .UNSUCCESS_BACKOFF) →
          ((t.set (E.M.remap i) (atomicUpdate E.m k (t (E.M.remap i)) curr f).1,
            if (atomicUpdate E.m k (t (E.M.remap i)) curr f).2.2 = true then
              Out.done ⟨some .SUCCESS_UP, some (E.M.remap i,
                (atomicUpdate E.m k (t (E.M.remap i)) curr f).2.1)⟩ else fail) = (t', Out.done r)) →
          Change E.M.total t t' r.code := by
        intro k f fail hw hk hfail he
        have e1 := congrArg Prod.fst he
        have e2 := congrArg Prod.snd he
        simp only at e1 e2
        subst e1
        split at e2
        · cases e2
          exact .same (by simp) (by simp) (hset _ _ (hau k f hw hk))
        · have := hfail r e2
          exact .same (by simp [this]) (by simp [this]) (hset _ _ (hau k f hw hk))
      have hins : ∀ k d it, (curr.c = .empty) →
          casStep t i att (E.M.remap i) curr (Cell.liveCell k d) ⟨some .SUCCESS_IN, it⟩ =
            (t', Out.done r) → Change E.M.total t t' r.code := by
        intro k d it hc he
        unfold casStep at he
        split at he
        · rename_i heq
          cases he
          exact .ins _ _ rfl hlt (by rw [heq, hc]; rfl) rfl rfl
        · cases he
      have hdel : ∀ k, (∃ w, curr.c = .live k w) →
          casStep t i att (E.M.remap i) curr Cell.deletedCell ⟨some .SUCCESS_DEL, none⟩ =
            (t', Out.done r) → Change E.M.total t t' r.code := by
        rintro k ⟨w, hc⟩ he
        unfold casStep at he
        split at he
        · rename_i heq
          cases he
          exact .del _ _ rfl hlt (by rw [heq, hc]; rfl) rfl rfl
        · cases he
      have hunsafe : ∀ k f,
          ((t.set (E.M.remap i) (nonAtomicUpdate k (t (E.M.remap i)) f).1,
            Out.done ⟨some .SUCCESS_UP, some (E.M.remap i,
              (nonAtomicUpdate k (t (E.M.remap i)) f).2)⟩) = (t', Out.done r)) →
          Change E.M.total t t' r.code := by
        intro k f he
        cases he
        exact .same (by simp) (by simp) (hset _ _ (hnu _ k f))
      cases op with
      | find k | locate k => exact hact.elim
      | insert k d => exact hins k d _ hact.1 h
      | update k f => exact hupd k f _ hact rfl (by intro r' hr; cases hr) h
      | updateBackoff k f b =>
        refine hupd k f _ hact rfl ?_ h
        intro r' hr
        split at hr <;> cases hr
        rfl
      | updateUnsafe k f => exact hunsafe k f h
      | insertOrUpdate k d f =>
        simp only [actStep] at h
        split at h
        · rename_i he
          exact hins k d _ (Cell.isEmpty_iff.1 he) h
        · rename_i he
          rcases hact with h1 | h1
          · exact absurd (Cell.isEmpty_iff.2 h1.1) he
          · exact hupd k f _ h1 rfl (by intro r' hr; cases hr) h
      | insertOrUpdateUnsafe k d f =>
        simp only [actStep] at h
        split at h
        · rename_i he
          exact hins k d _ (Cell.isEmpty_iff.1 he) h
        · exact hunsafe k f h
      | erase k => exact hdel k hact h
      | eraseIf k d => exact hdel k ⟨d, hact⟩ h
    · cases h

/-- Counting slots with a property of their kind. (proof, no code) -/
def countKind (f : Nat → Bool) (n : Nat) (t : Tbl K V) : Nat :=
  (List.range n).countP fun p => f (kind (t p).c)

theorem countKind_succ (f : Nat → Bool) (n : Nat) (t : Tbl K V) :
    countKind f (n + 1) t = countKind f n t + if f (kind (t n).c) then 1 else 0 := by
  unfold countKind
  rw [List.range_succ, List.countP_append]
  simp [List.countP_cons]

theorem countKind_set (f : Nat → Bool) (n : Nat) (t : Tbl K V) (p : Nat) (x : Cell K V) :
    countKind f n (t.set p x) + (if p < n ∧ f (kind (t p).c) then 1 else 0) =
      countKind f n t + (if p < n ∧ f (kind x.c) then 1 else 0) := by
  induction n with
  | zero => simp [countKind]
  | succ n ih =>
    rw [countKind_succ, countKind_succ]
    by_cases hpn : p = n
    · subst hpn
      simp only [Nat.lt_irrefl, false_and, if_false, Nat.add_zero] at ih
      rw [ih]
      have h1 : (t.set p x) p = x := by simp [Tbl.set]
      rw [h1]
      simp only [Nat.lt_succ_self, true_and]
      omega
    · have h1 : (t.set p x) n = t n := by
        unfold Tbl.set; rw [if_neg]; intro h; exact hpn h.symm
      rw [h1]
      have h2 : p < n + 1 ↔ p < n := by omega
      simp only [h2]
      omega

theorem countKind_congr (f : Nat → Bool) (n : Nat) {t t' : Tbl K V}
    (h : ∀ q, kind (t' q).c = kind (t q).c) : countKind f n t' = countKind f n t := by
  unfold countKind
  apply List.countP_congr
  intro p _
  rw [h p]

theorem liveCount_kind (n : Nat) (t : Tbl K V) : liveCount n t = countKind (fun x => x == 1) n t := by
  unfold liveCount countKind
  apply List.countP_congr
  intro p _
  cases (t p).c <;> simp [kind]

theorem occupied_kind (n : Nat) (t : Tbl K V) : occupied n t = countKind (fun x => x != 0) n t := by
  unfold occupied countKind
  apply List.countP_congr
  intro p _
  unfold Cell.isEmpty
  cases (t p).c <;> simp [kind]

/-- How a finished operation changes the numbers of elements and of occupied slots. -/
theorem Change.counts {n : Nat} {t t' : Tbl K V} {c : Option ReturnCode} (h : Change n t t' c) :
    (c = some .SUCCESS_IN → liveCount n t' = liveCount n t + 1 ∧ occupied n t' = occupied n t + 1) ∧
    (c = some .SUCCESS_DEL → liveCount n t' + 1 = liveCount n t ∧ occupied n t' = occupied n t) ∧
    (c ≠ some .SUCCESS_IN → c ≠ some .SUCCESS_DEL →
      liveCount n t' = liveCount n t ∧ occupied n t' = occupied n t) := by
  simp only [liveCount_kind, occupied_kind]
  cases h with
  | ins p x hc hp h0 hx ht =>
    subst ht
    have h1 := countKind_set (fun x => x == 1) n t p x
    have h2 := countKind_set (fun x => x != 0) n t p x
    simp only [hp, h0, hx, true_and] at h1 h2
    simp [hc] at h1 h2 ⊢
    omega
  | del p x hc hp h0 hx ht =>
    subst ht
    have h1 := countKind_set (fun x => x == 1) n t p x
    have h2 := countKind_set (fun x => x != 0) n t p x
    simp only [hp, h0, hx, true_and] at h1 h2
    simp [hc] at h1 h2 ⊢
    omega
  | same hc hd h =>
    have h1 := countKind_congr (fun x => x == 1) n h
    have h2 := countKind_congr (fun x => x != 0) n h
    exact ⟨fun h => absurd h hc, fun h => absurd h hd, fun _ _ => ⟨h1, h2⟩⟩

end
end Growt
