import Verif.SeqBase

/-!
# Migration of one table into the next (`base_linear::migrate` and the helpers' block counter)

The migration of one block is a step machine whose steps are single accesses to a slot of the
source or of the target.  `Job` steps of different blocks may be interleaved arbitrarily, also with
changes made to the source by ordinary operations.
-/

set_option linter.unusedSectionVars false

namespace Growt

/-- Contents of a growth target; `none` is a slot of freshly allocated memory that was never
written (`base_linear.hpp:414-438`). -/
abbrev MTbl (K V : Type) := Nat → Option (Cell K V)

/-- Overwrite one slot of the target. (model bookkeeping, no code) -/
def MTbl.set {K V : Type} (t : MTbl K V) (i : Nat) (x : Cell K V) : MTbl K V :=
  fun j => if j = i then some x else t j

/-- What does not change during one migration: the environment of source and target, whether a
failed compare-and-swap stores the seen content in the expected copy (`false` for
`simple_slot.hpp:333-346`, `true` for `single_word_slot.hpp:338-343` and `complex_slot.hpp:481-487`). -/
structure MEnv (K : Type) where
  src : Env K
  tgt : Env K
  upd : Bool

/-- Constructor of a growth target: only the buffer behind the addressable slots is filled, and only
with linear probing, `base_linear.hpp:414-438` (`_parallel_init = true`, line 127). -/
def freshTarget {K V : Type} (E : Env K) : MTbl K V := fun q =>
  if E.M.cp = false ∧ E.M.addr ≤ q ∧ q < E.M.total then some Cell.emptyCell else none

/-- The slots filled by the loop `for (i = start, j = end; i <= bitmask; i += g, j += g)
fill(i, j)`, `base_linear.hpp:1235-1239`; `fuel` bounds the number of rounds. -/
def cyclicFill (bitmask g : Nat) : Nat → Nat → Nat → List Nat
  | 0, _, _ => []
  | fuel + 1, i, j =>
    if i ≤ bitmask then List.range' i (j - i) ++ cyclicFill bitmask g fuel (i + g) (j + g) else []

/-- The slots of the target set to empty by `target.initialize(start, end)`,
`base_linear.hpp:1229-1247`.  With cyclic mapping the loop makes at most `bitmask + 1` rounds,
because the step `grow_helper` of a growth target is positive. -/
def initRange (M : Mapper) (start stop : Nat) : List Nat :=
  if M.cm then cyclicFill M.bitmask M.growHelper (M.bitmask + 1) start stop
  else List.range' (start <<< M.growHelper) ((stop <<< M.growHelper) - (start <<< M.growHelper))

/-- The slots of the target set to empty by `target.initialize(idx)`, `base_linear.hpp:1249-1270`. -/
def initSlot (M : Mapper) (idx : Nat) : List Nat :=
  if M.cm then
    if M.cp = false ∧ idx ≥ M.growHelper then []
    else cyclicFill M.bitmask M.growHelper (M.bitmask + 1) idx (idx + 1)
  else List.range' (idx <<< M.growHelper) (((idx + 1) <<< M.growHelper) - (idx <<< M.growHelper))

/-- Program points of `migrate(target, s, e)`, `base_linear.hpp:1114-1227`.
`tail = false`: up to the end of the block (`base_linear.hpp:1147`); `true`: the loop behind it (line 1171).
`st` is a ghost copy of the index with which the first loop was left. -/
inductive JobPC (K V : Type) where
  /-- first loop, about to load slot `i` (line 1127) -/
  | scan (i : Nat)
  /-- about to mark the empty slot `i` (line 1130) -/
  | scanMark (i : Nat) (curr : Cell K V)
  /-- initialising target slots, then load slot `i` (lines 1144, 1177) -/
  | fill (st : Nat) (qs : List Nat) (tail : Bool) (i : Nat)
  /-- about to load slot `i` (lines 1149, 1179) -/
  | load (st : Nat) (tail : Bool) (i : Nat)
  /-- about to mark slot `i` (lines 1150, 1181) -/
  | mark (st : Nat) (tail : Bool) (i : Nat) (curr : Cell K V)
  /-- `insert_unsafe(x)`, about to load target slot `remap u` (line 1284); continue with `i` -/
  | probe (st : Nat) (tail : Bool) (i : Nat) (u : Nat) (x : Cell K V)
  /-- `insert_unsafe(x)`, about to store in target slot `remap u` (line 1288) -/
  | put (st : Nat) (tail : Bool) (i : Nat) (u : Nat) (x : Cell K V)
  /-- returned after the loops; the last index looked at was `i` -/
  | fin (st : Nat) (i : Nat)
  /-- returned at line 1139: no empty slot in the block -/
  | nothing

/-- Result of a step of a job. (`base_linear.hpp:1114-1227`) -/
inductive JobOut (K V : Type) where
  | cont (pc : JobPC K V)
  /-- undefined behaviour: access outside the allocation or read of an uninitialised slot -/
  | ub

/-- Source, target and a ghost flag: `torn` = in the loop behind the block a mark failed because
the content of the slot had been changed since it was loaded (`base_linear.hpp:1181`). -/
structure MMem (K V : Type) where
  src : Tbl K V
  tgt : MTbl K V
  torn : Bool

section
variable {K V : Type} [DecidableEq K] [DecidableEq V] [Inhabited V]

/-- `atomic_mark(curr)`, `simple_slot.hpp:355-371`, `single_word_slot.hpp:352-367`: (slot content
afterwards, copy afterwards, success).  On slots that are not markable it does nothing and returns
true. -/
def atomicMark (m upd : Bool) (x curr : Cell K V) : Cell K V × Cell K V × Bool :=
  if m then
    if x = curr then (curr.mark, curr, true) else (x, if upd then x else curr, false)
  else (x, curr, true)

/-- Begin of `migrate(target, s, e)`, `base_linear.hpp:1118-1144`. -/
def jobStart (G : MEnv K) (s e : Nat) : JobPC K V :=
  if G.src.M.cp = true ∨ s > 0 then
    if s < e then .scan s else .nothing
  else if s < e then .fill s (initRange G.tgt.M s e) false s else .nothing

/-- Loop heads: the first loop ends at the end of the block (line 1147), the second begins each
round with `initialize(pos)` (lines 1171-1177). (`base_linear.hpp:1147,1171-1177`) -/
def loopHead (G : MEnv K) (e st : Nat) (tail : Bool) (i : Nat) : JobPC K V :=
  if tail = false ∧ i < e then .load st false i
  else .fill st (initSlot G.tgt.M (G.src.M.remap i)) true i

/-- After slot `i` was processed with the copy `curr` (`base_linear.hpp:1155-1164, 1183-1191`); `nxt` is the next
index.  A copy that is neither empty nor deleted is inserted; this includes marked tombstones, whose
key is the tombstone key - this case is given the outcome `ub` and proved unreachable. -/
def process (G : MEnv K) (e st : Nat) (tail : Bool) (i nxt : Nat) (curr : Cell K V) : JobOut K V :=
  if curr.isEmpty then
    if tail then .cont (.fin st i) else .cont (loopHead G e st false nxt)
  else if curr.isDeleted then .cont (loopHead G e st tail nxt)
  else match curr.c with
    | .live k _ => .cont (.probe st tail nxt (G.tgt.M.map (G.tgt.h k)) curr)
    | _ => .ub

/-- One step of `migrate(target, s, e)`, `base_linear.hpp:1114-1227`. -/
def jobStep (G : MEnv K) (e : Nat) (pc : JobPC K V) (m : MMem K V) : MMem K V × JobOut K V :=
  match pc with
  | .scan i =>
    -- lines 1125-1136; "no bitmask necessary"
    if i < G.src.M.total then
      if (m.src i).isEmpty then (m, .cont (.scanMark i (m.src i)))
      else (m, .cont (if i + 1 < e then .scan (i + 1) else .nothing))
    else (m, .ub)
  | .scanMark i curr =>
    if i < G.src.M.total then
      let r := atomicMark G.src.m G.upd (m.src i) curr
      ({ m with src := m.src.set i r.1 },
        .cont (if r.2.2 then .fill i (initRange G.tgt.M i e) false i else .scan i))
    else (m, .ub)
  | .fill st (q :: qs) tail i =>
    if q < G.tgt.M.total then
      ({ m with tgt := m.tgt.set q Cell.emptyCell }, .cont (.fill st qs tail i))
    else (m, .ub)
  | .fill st [] tail i => (m, .cont (.load st tail i))
  | .load st tail i =>
    let pos := G.src.M.remap i
    if pos < G.src.M.total then (m, .cont (.mark st tail i (m.src pos))) else (m, .ub)
  | .mark st tail i curr =>
    let pos := G.src.M.remap i
    if pos < G.src.M.total then
      let r := atomicMark G.src.m G.upd (m.src pos) curr
      let m' : MMem K V := { m with src := m.src.set pos r.1 }
      if tail then
        -- line 1181: after a failed mark the copy is processed all the same and the slot again
        let torn := m.torn || (!r.2.2 && decide ((m.src pos).c ≠ curr.c))
        ({ m' with torn := torn }, process G e st true i (if r.2.2 then i + 1 else i) r.2.1)
      else if r.2.2 then (m', process G e st false i (i + 1) curr)
      else (m', .cont (.load st false i))
    else (m, .ub)
  | .probe st tail i u x =>
    let q := G.tgt.M.remap u
    if q < G.tgt.M.total then
      match m.tgt q with
      | none => (m, .ub)
      | some y =>
        (m, .cont (if y.isEmpty then .put st tail i u x else .probe st tail i (u + 1) x))
    else (m, .ub)
  | .put st tail i u x =>
    let q := G.tgt.M.remap u
    if q < G.tgt.M.total then
      ({ m with tgt := m.tgt.set q x }, .cont (loopHead G e st tail i))
    else (m, .ub)
  | .fin st i => (m, .cont (.fin st i))
  | .nothing => (m, .cont .nothing)

/-- Has the job returned? (`base_linear.hpp:1226`) -/
def JobPC.ended : JobPC K V → Bool
  | .fin _ _ | .nothing => true
  | _ => false

end

/-- `migration_block_size`, `estrat_async.hpp:98`, `estrat_sync.hpp:66`. -/
def blockSize : Nat := 4096

/-- End of the block that begins at `temp`: `std::min(uint(temp + migration_block_size),
uint(addressable_slots()))`, `estrat_async.hpp:301-304`, `estrat_sync.hpp:441-444`; `uint` has
32 bits. -/
def blockEnd (A temp : Nat) : Nat := min ((temp + blockSize) % 2 ^ 32) (A % 2 ^ 32)

/-- A helper in `blockwise_migrate`, `estrat_async.hpp:292-308`: about to claim a block, working on
the block that begins at `s`, or finished. -/
inductive Helper where
  | claim
  | work (s : Nat)
  | left
  deriving DecidableEq

/-- State of a migration: memory, `_current_copy_block`, the helpers (by an arbitrary type of names)
and the jobs by begin of block (`none` = not claimed yet).
(`base_linear.hpp:252`, `estrat_async.hpp:292-308`) -/
structure MSt (T K V : Type) where
  mem : MMem K V
  next : Nat
  thr : T → Helper
  jobs : Nat → Option (JobPC K V)

section
variable {T K V : Type} [DecidableEq T] [DecidableEq K] [DecidableEq V] [Inhabited V]

/-- Functions changed at one place. (model bookkeeping, no code) -/
def upd1 {A B : Type} [DecidableEq A] (f : A → B) (a : A) (b : B) : A → B :=
  fun x => if x = a then b else f x

/-- What ordinary operations may do to the source while it is migrated: they respect the table
invariant, only let slots evolve, and change no marked slot (and no slot at all if the slots are
not markable: synchronised growth excludes operations).  That the operations of the table do nothing
else is proved in `AsyncTab.lean` (`op_env`). (specification, no code) -/
structure EnvStep (E : Env K) (t t' : Tbl K V) : Prop where
  inv : Inv E t'
  evolves : Evolves t t'
  frozen : ∀ p, E.m = false ∨ (t p).marked = true → t' p = t p
  marks : ∀ p, (t' p).marked = (t p).marked

/-- One step of the migration: a helper claims a block (`fetch_add`, `estrat_async.hpp:298, 305`), a helper makes
one step of its job, a helper finds its job done, a helper begins again, or the source is changed by
others. -/
inductive MStep (G : MEnv K) : MSt T K V → MSt T K V → Prop where
  | claim {s : MSt T K V} {i : T} (h : s.thr i = .claim) (hlt : s.next < G.src.M.addr) :
      MStep G s ⟨s.mem, s.next + blockSize, upd1 s.thr i (.work s.next),
        upd1 s.jobs s.next (some (jobStart G s.next (blockEnd G.src.M.addr s.next)))⟩
  | leave {s : MSt T K V} {i : T} (h : s.thr i = .claim) (hge : G.src.M.addr ≤ s.next) :
      MStep G s ⟨s.mem, s.next + blockSize, upd1 s.thr i .left, s.jobs⟩
  | work {s : MSt T K V} {i : T} {b : Nat} {pc pc' : JobPC K V} {m' : MMem K V}
      (h : s.thr i = .work b) (hj : s.jobs b = some pc) (he : pc.ended = false)
      (hs : jobStep G (blockEnd G.src.M.addr b) pc s.mem = (m', .cont pc')) :
      MStep G s ⟨m', s.next, s.thr, upd1 s.jobs b (some pc')⟩
  | ret {s : MSt T K V} {i : T} {b : Nat} {pc : JobPC K V} (h : s.thr i = .work b)
      (hj : s.jobs b = some pc) (he : pc.ended = true) :
      MStep G s ⟨s.mem, s.next, upd1 s.thr i .claim, s.jobs⟩
  | enter {s : MSt T K V} {i : T} (h : s.thr i = .left) :
      MStep G s ⟨s.mem, s.next, upd1 s.thr i .claim, s.jobs⟩
  | env {s : MSt T K V} {t' : Tbl K V} (h : EnvStep G.src s.mem.src t') :
      MStep G s ⟨{ s.mem with src := t' }, s.next, s.thr, s.jobs⟩

/-- Start of a migration from table `t`: nothing claimed, target fresh. (`base_linear.hpp:414-438`) -/
def MSt.init (G : MEnv K) (t : Tbl K V) : MSt T K V :=
  ⟨⟨t, freshTarget G.tgt, false⟩, 0, fun _ => .claim, fun _ => none⟩

/-- Reachable states. (`estrat_async.hpp:292-308`, `base_linear.hpp:1114-1227`) -/
inductive MReach (G : MEnv K) (t : Tbl K V) : MSt T K V → Prop where
  | init : MReach G t (MSt.init G t)
  | step {s s' : MSt T K V} (h : MReach G t s) (hs : MStep G s s') : MReach G t s'

end
end Growt
