import Verif.TsxInv
import Verif.MigCount
import Verif.AsyncTab

/-!
# Migration of the table with hardware transactions (`tsx_circular.hpp:898-992`)

The function resembles `base_linear::migrate`, but it does not return when the block has no empty slot, it clears
the target itself, and its insertion also stops at an element with the same key.

The caller is not in the repository (`currentCopyBlock` is a member of the table, `tsx_circular.hpp:116`, that
nothing uses); it is assumed to hand out blocks of 4096 slots as `estrat_async.hpp:292-308` does.  The size of the
target is that of `resize` (`tsx_circular.hpp:118-126`): the same or twice the capacity.  `atomicMark` of the
element type is assumed to be that of the markable slots.
-/

set_option linter.unusedSectionVars false

namespace Growt.Tsx

/-- What does not change during a migration: source and target table, and whether a failed `atomicMark` stores the
seen element in its argument (`tsx_circular.hpp:898-900`; the element type is not in the repository). -/
structure Mig (K : Type) where
  src : Tab K
  tgt : Tab K
  upd : Bool

/-- The loop `while (target.capacity > (capacity << shift)) ++shift`, `tsx_circular.hpp:906-908`; `fuel` bounds the
number of rounds (64-bit capacities need at most 64). -/
def shiftLoop (cap tcap : Nat) : Nat → Nat → Nat
  | 0, s => s
  | fuel + 1, s => if tcap > cap <<< s then shiftLoop cap tcap fuel (s + 1) else s

/-- `shift`, `tsx_circular.hpp:906-908`. -/
def Mig.shift {K : Type} (G : Mig K) : Nat := shiftLoop (2 ^ G.src.k) (2 ^ G.tgt.k) 64 0

/-- The slots of the target cleared by `std::fill` before the block is migrated, `tsx_circular.hpp:925`. -/
def Mig.fillRange {K : Type} (G : Mig K) (i e : Nat) : List Nat :=
  List.range' (i <<< G.shift) ((e <<< G.shift) - (i <<< G.shift))

/-- The slots of the target cleared for position `pos` behind the block, `tsx_circular.hpp:952-955`. -/
def Mig.fillSlot {K : Type} (G : Mig K) (pos : Nat) : List Nat :=
  List.range' (pos <<< G.shift) (1 <<< G.shift)

section
variable {T K V : Type} [DecidableEq T] [DecidableEq K] [DecidableEq V] [Inhabited V]

/-- The search for the first empty slot is left with index `i`: `tsx_circular.hpp:925`. -/
def Mig.afterScan (G : Mig K) (i e : Nat) : JobPC K V := .fill i (G.fillRange i e) false i

/-- Begin of `migrate(target, s, e)`, `tsx_circular.hpp:898-912`. -/
def Mig.jobStart (G : Mig K) (s e : Nat) : JobPC K V := if s < e then .scan s else G.afterScan s e

/-- Loop heads: lines 928 and 948-955 of `tsx_circular.hpp`. -/
def Mig.loopHead (G : Mig K) (e st : Nat) (tail : Bool) (i : Nat) : JobPC K V :=
  if tail = false ∧ i < e then .load st false i
  else .fill st (G.fillSlot (G.src.pos i)) true i

/-- What is done with the copy `curr` of slot `i` (`tsx_circular.hpp:936-943, 961-968`); `nxt` is the next index.
A marked tombstone would be inserted with the tombstone key; this is given the outcome `ub`. -/
def Mig.process (G : Mig K) (e st : Nat) (tail : Bool) (i nxt : Nat) (curr : Cell K V) : JobOut K V :=
  if curr.isEmpty then
    if tail then .cont (.fin st i) else .cont (G.loopHead e st false nxt)
  else if curr.isDeleted then .cont (G.loopHead e st tail nxt)
  else match curr.c with
    | .live k _ => .cont (.probe st tail nxt (G.tgt.home k) curr)
    | _ => .ub

/-- Does the loop of `insert_unsave` stop at element `y` (`tsx_circular.hpp:984`)? -/
def stops (x y : Cell K V) : Bool :=
  y.isEmpty || match x.c with | .live k _ => y.hasKey k | _ => false

/-- One step of `migrate(target, s, e)`, `tsx_circular.hpp:898-973`, with `insert_unsave`, lines 976-992. -/
def Mig.jobStep (G : Mig K) (e : Nat) (pc : JobPC K V) (m : MMem K V) : MMem K V × JobOut K V :=
  match pc with
  | .scan i =>
    -- lines 912-923
    if i < 2 ^ G.src.k then
      if (m.src i).isEmpty then (m, .cont (.scanMark i (m.src i)))
      else (m, .cont (if i + 1 < e then .scan (i + 1) else G.afterScan (i + 1) e))
    else (m, .ub)
  | .scanMark i curr =>
    -- lines 917-920
    if i < 2 ^ G.src.k then
      let r := atomicMark true G.upd (m.src i) curr
      ({ m with src := m.src.set i r.1 }, .cont (if r.2.2 then G.afterScan i e else .scan i))
    else (m, .ub)
  | .fill st (q :: qs) tail i =>
    -- lines 925, 954-955
    if q < 2 ^ G.tgt.k then
      ({ m with tgt := m.tgt.set q Cell.emptyCell }, .cont (.fill st qs tail i))
    else (m, .ub)
  | .fill st [] tail i => (m, .cont (if tail then .load st true i else G.loopHead e st false i))
  | .load st tail i =>
    -- lines 930, 958
    (m, .cont (.mark st tail i (m.src (G.src.pos i))))
  | .mark st tail i curr =>
    -- lines 931-935, 960
    let pos := G.src.pos i
    let r := atomicMark true G.upd (m.src pos) curr
    let m' : MMem K V := { m with src := m.src.set pos r.1 }
    if tail then
      let torn := m.torn || (!r.2.2 && decide ((m.src pos).c ≠ curr.c))
      ({ m' with torn := torn }, G.process e st true i (if r.2.2 then i + 1 else i) r.2.1)
    else if r.2.2 then (m', G.process e st false i (i + 1) curr)
    else (m', .cont (.load st false i))
  | .probe st tail i u x =>
    -- lines 980-984
    match m.tgt (G.tgt.pos u) with
    | none => (m, .ub)
    | some y => (m, .cont (if stops x y then .put st tail i u x else .probe st tail i (u + 1) x))
  | .put st tail i u x =>
    -- line 986
    ({ m with tgt := m.tgt.set (G.tgt.pos u) x }, .cont (G.loopHead e st tail i))
  | .fin st i => (m, .cont (.fin st i))
  | .nothing => (m, .cont .nothing)

/-- One step of a migration of this table: as `MStep`, with the functions of this table
(`tsx_circular.hpp:898-992`; the distribution of blocks as in `estrat_async.hpp:292-308`). -/
inductive Mig.Step (G : Mig K) : MSt T K V → MSt T K V → Prop where
  | claim {s : MSt T K V} {i : T} (h : s.thr i = .claim) (hlt : s.next < 2 ^ G.src.k) :
      Mig.Step G s ⟨s.mem, s.next + blockSize, upd1 s.thr i (.work s.next),
        upd1 s.jobs s.next (some (G.jobStart s.next (blockEnd (2 ^ G.src.k) s.next)))⟩
  | leave {s : MSt T K V} {i : T} (h : s.thr i = .claim) (hge : 2 ^ G.src.k ≤ s.next) :
      Mig.Step G s ⟨s.mem, s.next + blockSize, upd1 s.thr i .left, s.jobs⟩
  | work {s : MSt T K V} {i : T} {b : Nat} {pc pc' : JobPC K V} {m' : MMem K V}
      (h : s.thr i = .work b) (hj : s.jobs b = some pc) (he : pc.ended = false)
      (hs : G.jobStep (blockEnd (2 ^ G.src.k) b) pc s.mem = (m', .cont pc')) :
      Mig.Step G s ⟨m', s.next, s.thr, upd1 s.jobs b (some pc')⟩
  | ret {s : MSt T K V} {i : T} {b : Nat} {pc : JobPC K V} (h : s.thr i = .work b)
      (hj : s.jobs b = some pc) (he : pc.ended = true) :
      Mig.Step G s ⟨s.mem, s.next, upd1 s.thr i .claim, s.jobs⟩
  | enter {s : MSt T K V} {i : T} (h : s.thr i = .left) :
      Mig.Step G s ⟨s.mem, s.next, upd1 s.thr i .claim, s.jobs⟩
  | env {s : MSt T K V} {t' : Tbl K V} (h : EnvStep G.src.env s.mem.src t') :
      Mig.Step G s ⟨{ s.mem with src := t' }, s.next, s.thr, s.jobs⟩

/-- Start of a migration from table `t`: nothing claimed, no slot of the target written
(`tsx_circular.hpp:267-276`). -/
def Mig.init (_ : Mig K) (t : Tbl K V) : MSt T K V :=
  ⟨⟨t, fun _ => none, false⟩, 0, fun _ => .claim, fun _ => none⟩

/-- Reachable states. (`tsx_circular.hpp:898-973`) -/
inductive Mig.Reach (G : Mig K) (t : Tbl K V) : MSt T K V → Prop where
  | init : Mig.Reach G t (G.init t)
  | step {s s' : MSt T K V} (h : Mig.Reach G t s) (hs : Mig.Step G s s') : Mig.Reach G t s'

/-- Two tables as `resize` makes them (`tsx_circular.hpp:118-126, 238-243`), with the same hash function; the
block ends are 32-bit numbers. -/
structure Mig.OK (G : Mig K) : Prop where
  lo : 12 ≤ G.src.k
  hi : G.src.k < 32
  size : G.tgt.k = G.src.k ∨ G.tgt.k = G.src.k + 1
  same : G.tgt.h = G.src.h
  hash : ∀ x, G.src.h x < 2 ^ 64

/-- Every block of 4096 slots has an empty slot. (specification, no code) -/
def Roomy (G : Mig K) (t : Tbl K V) : Prop :=
  ∀ b, blockSize ∣ b → b < 2 ^ G.src.k → ∃ j, b ≤ j ∧ j < b + blockSize ∧ (t j).c = .empty

/-! ## Comparison with the migration of `base_linear.hpp` -/

/-- The migration of `base_linear.hpp` between tables of these sizes. (proof, no code) -/
def Mig.base (G : Mig K) : MEnv K :=
  ⟨G.src.env, ⟨Mapper.mk' false true (2 ^ G.tgt.k) (G.tgt.k - G.src.k), G.tgt.h, true⟩, G.upd⟩

theorem Mig.shift_eq {G : Mig K} (h : G.OK) : G.shift = G.tgt.k - G.src.k := by
  have h2 : 0 < 2 ^ G.src.k := Nat.two_pow_pos _
  rcases h.size with e | e
  · simp [Mig.shift, e, shiftLoop]
  · simp [Mig.shift, e, shiftLoop, Nat.shiftLeft_eq, Nat.pow_succ, h2]

theorem Mig.tgt_total (G : Mig K) : G.base.tgt.M.total = 2 ^ G.tgt.k := by
  have : 0 < 2 ^ G.tgt.k := Nat.two_pow_pos _
  simp [Mig.base, Mapper.total, Mapper.mk']; omega

theorem Mig.src_total (G : Mig K) : G.base.src.M.total = 2 ^ G.src.k := G.src.total_eq

theorem Mig.src_addr (G : Mig K) : G.base.src.M.addr = 2 ^ G.src.k := by
  have : 0 < 2 ^ G.src.k := Nat.two_pow_pos _
  simp [Mig.base, Tab.env, Mapper.addr, Mapper.mk']; omega

theorem Mig.tgt_remap (G : Mig K) (u : Nat) : G.base.tgt.M.remap u = G.tgt.pos u := by
  simp [Tab.pos, Mig.base, Mapper.remap, Mapper.mk']

theorem Mig.src_remap (G : Mig K) (u : Nat) : G.base.src.M.remap u = G.src.pos u := (G.src.pos_eq u).symm

theorem Mig.tgt_map (G : Mig K) (x : K) : G.base.tgt.M.map (G.base.tgt.h x) = G.tgt.home x := by
  simp [Tab.home, Mig.base, Mapper.map, Mapper.mk']

theorem Mig.OK.base {G : Mig K} (h : G.OK) : G.base.OK := by
  have h1 := h.lo
  have h2 := h.hi
  have h3 : 2 ^ G.src.k < 2 ^ 32 := (Nat.pow_lt_pow_iff_right (by omega)).2 h2
  have h4 : 0 < 2 ^ G.src.k := Nat.two_pow_pos _
  refine ⟨⟨⟨G.src.k, by omega, by omega, rfl⟩, h.hash⟩, h.same, rfl, ?_,
    ⟨G.tgt.k, by rcases h.size with e | e <;> omega, by rcases h.size with e | e <;> omega, rfl⟩,
    (fun hc => by cases hc), by rw [G.src_addr]; exact h3⟩
  have hsub : ∀ n, n < 2 ^ 64 → Mapper.sub64 n 0 = n := by intro n hn; unfold Mapper.sub64; omega
  rcases h.size with e | e
  · refine ⟨0, 0, ?_⟩
    have hf : Mapper.fillAboveExact 0 (2 ^ G.src.k) = false := by
      unfold Mapper.fillAboveExact; simp
    simp only [Mapper.resize, G.src_addr, hsub 0 (by omega), hf]
    simp [Mig.base, Tab.env, Mapper.mk', e]
  · refine ⟨2 ^ G.src.k, 0, ?_⟩
    have hf : Mapper.fillAboveExact (2 ^ G.src.k) (2 ^ G.src.k) = true := by
      unfold Mapper.fillAboveExact; simp; omega
    simp only [Mapper.resize, G.src_addr, hsub _ (show 2 ^ G.src.k < 2 ^ 64 by omega), hf]
    simp [Mig.base, Tab.env, Mapper.mk', e, Nat.shiftLeft_eq, Nat.pow_succ]

theorem Mig.initRange_eq {G : Mig K} (h : G.OK) (i e : Nat) : initRange G.base.tgt.M i e = G.fillRange i e := by
  rw [Mig.fillRange, Mig.shift_eq h]
  simp [initRange, Mig.base, Mapper.mk']

theorem Mig.initSlot_eq {G : Mig K} (h : G.OK) (p : Nat) : initSlot G.base.tgt.M p = G.fillSlot p := by
  rw [Mig.fillSlot, Mig.shift_eq h]
  simp [initSlot, Mig.base, Mapper.mk', Nat.shiftLeft_eq, Nat.add_mul]

theorem Mig.loopHead_eq {G : Mig K} (h : G.OK) (e st : Nat) (tail : Bool) (i : Nat) :
    (G.loopHead e st tail i : JobPC K V) = Growt.loopHead G.base e st tail i := by
  unfold Mig.loopHead Growt.loopHead
  rw [← Mig.initSlot_eq h, Mig.src_remap]

theorem Mig.process_eq {G : Mig K} (h : G.OK) (e st : Nat) (tail : Bool) (i nxt : Nat) (curr : Cell K V) :
    G.process e st tail i nxt curr = Growt.process G.base e st tail i nxt curr := by
  unfold Mig.process Growt.process
  simp only [Mig.loopHead_eq h, Mig.tgt_map]
  split
  · rfl
  · split
    · rfl
    · cases curr.c <;> rfl

theorem Mig.jobStart_eq {G : Mig K} {s e : Nat} (hse : s < e) :
    (G.jobStart s e : JobPC K V) = Growt.jobStart G.base s e := by
  simp [Mig.jobStart, Growt.jobStart, Mig.base, Tab.env, Mapper.mk', hse]

/-- Without torn marks, and if the block has an empty slot, a step is one of `base_linear.hpp`. -/
theorem Mig.jobStep_eq {G : Mig K} (h : G.OK) {m : MMem K V} {jobs : Nat → Option (JobPC K V)} {b : Nat}
    {pc : JobPC K V} {g : Nat} (hS : Shape G.base G.src.k g) (hC : Core G.base G.src.k m jobs)
    (hj : jobs b = some pc) (he : pc.ended = false) (ht : m.torn = false) (hroom : Roomy G m.src) :
    G.jobStep (blockEnd (2 ^ G.src.k) b) pc m = Growt.jobStep G.base (blockEnd (2 ^ G.src.k) b) pc m := by
  obtain ⟨hd, hb, hJ⟩ := hC.job b _ hj
  have hbe : blockEnd (2 ^ G.src.k) b = b + blockSize := by
    rw [hS.blockEnd_eq hb]
    have : blockSize ∣ 2 ^ G.src.k := by
      unfold blockSize
      exact Nat.pow_dvd_pow 2 h.lo
    obtain ⟨x, hx⟩ := hd
    obtain ⟨y, hy⟩ := this
    rw [hy, hx] at hb
    have : x + 1 ≤ y := Nat.lt_of_mul_lt_mul_left hb
    have := Nat.mul_le_mul_left blockSize this
    rw [Nat.mul_add] at this
    rw [hy, hx]
    omega
  have hm : G.base.src.m = true := rfl
  have hup : G.base.upd = G.upd := rfl
  cases pc with
  | scan i =>
    obtain ⟨h1, h2, h3, -⟩ := hJ
    simp only [Mig.jobStep, Growt.jobStep, Mig.src_total]
    split
    · split
      · rfl
      · rename_i hem
        obtain ⟨j, j1, j2, j3⟩ := hroom b hd hb
        have hji : i < j := by
          apply Nat.lt_of_not_le
          intro hle
          by_cases hij : j = i
          · subst hij; exact hem (Cell.isEmpty_iff.2 j3)
          · exact h3 j j1 (by omega) j3
        rw [if_pos (by omega), if_pos (by omega)]
    · rfl
  | scanMark i curr =>
    simp only [Mig.jobStep, Growt.jobStep, Mig.src_total, hm, hup, Mig.initRange_eq h, Mig.afterScan]
  | fill st qs tail i =>
    cases qs with
    | cons q qs => simp only [Mig.jobStep, Growt.jobStep, Mig.tgt_total]
    | nil =>
      obtain ⟨h1, h2⟩ := hJ
      simp only [Mig.jobStep, Growt.jobStep]
      cases tail with
      | true => rfl
      | false =>
        have : i < blockEnd (2 ^ G.src.k) b := by
          simp only [Bool.false_eq_true, if_false] at h2
          rw [h2.1]; exact h1.hi
        simp [Mig.loopHead, this]
  | load st tail i =>
    simp only [Mig.jobStep, Growt.jobStep, Mig.src_total, Mig.src_remap]
    rw [if_pos (G.src.pos_lt i)]
  | mark st tail i curr =>
    simp only [Mig.jobStep, Growt.jobStep, Mig.src_total, Mig.src_remap, hm, hup, Mig.process_eq h]
    rw [if_pos (G.src.pos_lt i)]
  | probe st tail nxt u x =>
    have hstep := step_ok hS hC hj he
    unfold StepOK at hstep
    simp only [Growt.jobStep, Mig.tgt_total, Mig.tgt_remap] at hstep
    simp only [Mig.jobStep, Growt.jobStep, Mig.tgt_total, Mig.tgt_remap]
    rw [if_pos (G.tgt.pos_lt u)] at hstep ⊢
    cases hy : m.tgt (G.tgt.pos u) with
    | none => rfl
    | some y =>
      simp only [hy] at hstep ⊢
      by_cases hem : y.isEmpty = true
      · simp [stops, hem]
      · obtain ⟨pc', e1, hC'⟩ := hstep ht
        rw [if_neg hem] at e1
        cases e1
        obtain ⟨-, -, -, -, i0, key, v, i, d, hi⟩ := hC'.job b _ (upd1_self ..)
        -- the slot just looked at is the last one walked past
        have hne : y.hasKey key = false := by
          obtain ⟨-, -, -, -, i0', key', v', i', d', hi'⟩ := hC.job b _ hj
          have hk : key' = key := by
            have := hi'.copy.symm.trans hi.copy
            simp only [Cell.mk.injEq, Content.live.injEq, true_and] at this
            exact this.1
          subst hk
          have hdd : d = d' + 1 := by
            have e1 := hi.at_
            have e2 := hi'.at_
            omega
          obtain ⟨z, hz1, -, hz3⟩ := hi.walked d' (by omega)
          rw [← hi'.at_, Mig.tgt_remap, hy] at hz1
          cases hz1
          unfold Cell.hasKey
          split
          · rename_i k' w hc
            simp only [decide_eq_false_iff_not]
            intro hk'
            subst hk'
            exact hz3 w hc
          · rfl
        have hx : x.c = .live key v := by rw [hi.copy]
        simp [stops, hem, hx, hne]
  | put st tail nxt u x =>
    simp only [Mig.jobStep, Growt.jobStep, Mig.tgt_total, Mig.tgt_remap, Mig.loopHead_eq h]
    rw [if_pos (G.tgt.pos_lt u)]
  | fin st i => cases he
  | nothing => cases he

/-- The steps of a job change no content of the source. -/
theorem Mig.jobStep_src (G : Mig K) (e : Nat) (pc : JobPC K V) (m : MMem K V) (p : Nat) :
    ((G.jobStep e pc m).1.src p).c = (m.src p).c := by
  have hset : ∀ (t : Tbl K V) (i : Nat) (curr : Cell K V),
      ((t.set i (atomicMark true G.upd (t i) curr).1) p).c = (t p).c := by
    intro t i curr
    unfold Tbl.set
    split
    · rename_i hp; rw [hp]; exact atomicMark_c ..
    · rfl
  cases pc with
  | scan i => simp only [Mig.jobStep]; repeat' split
              all_goals rfl
  | scanMark i curr =>
    simp only [Mig.jobStep]
    split
    · exact hset ..
    · rfl
  | fill st qs tail i =>
    cases qs with
    | nil => rfl
    | cons q qs => simp only [Mig.jobStep]; split <;> rfl
  | load st tail i => rfl
  | mark st tail i curr =>
    simp only [Mig.jobStep]
    repeat' split
    all_goals exact hset ..
  | probe st tail nxt u x => simp only [Mig.jobStep]; split <;> rfl
  | put st tail nxt u x => rfl
  | fin st i => rfl
  | nothing => rfl

theorem Mig.jobStep_torn (G : Mig K) (e : Nat) (pc : JobPC K V) (m : MMem K V)
    (h : (G.jobStep e pc m).1.torn = false) : m.torn = false := by
  cases pc with
  | scan i => simp only [Mig.jobStep] at h; split at h <;> (try split at h) <;> exact h
  | scanMark i curr => simp only [Mig.jobStep] at h; split at h <;> exact h
  | fill st qs tail i =>
    cases qs with
    | nil => exact h
    | cons q qs => simp only [Mig.jobStep] at h; split at h <;> exact h
  | load st tail i => exact h
  | mark st tail i curr =>
    simp only [Mig.jobStep] at h
    split at h
    · simp only [Bool.or_eq_false_iff] at h; exact h.1
    · split at h <;> exact h
  | probe st tail nxt u x => simp only [Mig.jobStep] at h; split at h <;> exact h
  | put st tail nxt u x => exact h
  | fin st i => exact h
  | nothing => exact h

theorem Mig.Step.back {G : Mig K} {s s' : MSt T K V} (hs : G.Step s s') :
    (s'.mem.torn = false → s.mem.torn = false) ∧ (Roomy G s'.mem.src → Roomy G s.mem.src) := by
  cases hs with
  | @work i b pc pc' m' h hj he hw =>
    have e : m' = (G.jobStep (blockEnd (2 ^ G.src.k) b) pc s.mem).1 := by rw [hw]
    subst e
    refine ⟨G.jobStep_torn _ _ _, fun h b hd hb => ?_⟩
    obtain ⟨j, j1, j2, j3⟩ := h b hd hb
    exact ⟨j, j1, j2, by rw [← j3]; exact (G.jobStep_src _ _ _ _).symm⟩
  | env h =>
    refine ⟨id, fun hr b hd hb => ?_⟩
    obtain ⟨j, j1, j2, j3⟩ := hr b hd hb
    refine ⟨j, j1, j2, Classical.byContradiction fun hne => ?_⟩
    exact (h.evolves j).1 hne j3
  | _ => exact ⟨id, id⟩

theorem Mig.shape {G : Mig K} (h : G.OK) : Shape G.base G.src.k (G.tgt.k - G.src.k) := by
  have h1 := h.lo
  have h2 := h.hi
  have hw : G.base.src.M.WF G.src.k := ⟨by omega, by omega, rfl⟩
  have hw' : G.base.tgt.M.WF (G.src.k + (G.tgt.k - G.src.k)) := by
    have e : G.src.k + (G.tgt.k - G.src.k) = G.tgt.k := by rcases h.size with e | e <;> omega
    rw [e]
    exact ⟨by rcases h.size with e | e <;> omega, by rcases h.size with e | e <;> omega, rfl⟩
  refine ⟨by rcases h.size with e | e <;> omega, hw, hw', rfl, rfl, rfl, (fun hc => by cases hc), h2, h.same, h.hash,
    rfl⟩

/-- Without torn marks and as long as every block has an empty slot the executions are executions of the migration
of `base_linear.hpp`. -/
theorem Mig.Reach.base {G : Mig K} (hG : G.OK) {t : Tbl K V} (hI : Inv G.src.env t) (hm : NoMarks t)
    {s : MSt T K V} (h : G.Reach t s) (ht : s.mem.torn = false) (hr : Roomy G s.mem.src) :
    MReach G.base t s := by
  have hS := Mig.shape hG
  induction h with
  | init =>
    have e : (G.init t : MSt T K V) = MSt.init G.base t := by
      unfold Mig.init MSt.init
      congr 2
    rw [e]
    exact .init
  | @step s s' _ hs ih =>
    obtain ⟨b1, b2⟩ := hs.back
    have hR := ih (b1 ht) (b2 hr)
    have hM := MInv.reach hS hI hm hR
    refine .step hR ?_
    cases hs with
    | @claim i hc hlt =>
      have e : s.next < blockEnd (2 ^ G.src.k) s.next := by
        rw [hS.blockEnd_eq hlt]; unfold blockSize; omega
      rw [Mig.jobStart_eq e, ← G.src_addr]
      exact .claim hc (by rw [G.src_addr]; exact hlt)
    | leave hc hge => exact .leave hc (by rw [G.src_addr]; exact hge)
    | @work i b pc pc' m' hw hj he hst =>
      rw [Mig.jobStep_eq hG hS (hM.core (b1 ht)) hj he (b1 ht) (b2 hr)] at hst
      exact .work hw hj he (by rw [G.src_addr]; exact hst)
    | ret hw hj he => exact .ret hw hj he
    | enter hc => exact .enter hc
    | env he => exact .env he

/-- Conversely, quiet executions of the migration of `base_linear.hpp` are executions here. -/
theorem Mig.Reach.of_base {G : Mig K} (hG : G.OK) {t : Tbl K V} (hI : Inv G.src.env t) (hm : NoMarks t)
    (hr : Roomy G t) {s : MSt T K V} (h : MQuiet G.base t s) : G.Reach t s := by
  have hS := Mig.shape hG
  induction h with
  | init =>
    have e : (MSt.init G.base t : MSt T K V) = G.init t := by
      unfold Mig.init MSt.init
      congr 2
    rw [e]
    exact .init
  | @step s s' hq hs _ ih =>
    have hM := MInv.reach hS hI hm hq.reach
    obtain ⟨ht, hc, -⟩ := hq.good
    have hr' : Roomy G s.mem.src := fun b hd hb => by
      obtain ⟨j, j1, j2, j3⟩ := hr b hd hb
      exact ⟨j, j1, j2, by rw [hc]; exact j3⟩
    refine .step ih ?_
    cases hs with
    | @claim i hcl hlt =>
      rw [G.src_addr] at hlt ⊢
      have e : s.next < blockEnd (2 ^ G.src.k) s.next := by
        rw [hS.blockEnd_eq hlt]; unfold blockSize; omega
      rw [← Mig.jobStart_eq e]
      exact .claim hcl hlt
    | leave hcl hge => exact .leave hcl (by rw [← G.src_addr]; exact hge)
    | @work i b pc pc' m' hw hj he hst =>
      rw [G.src_addr, ← Mig.jobStep_eq hG hS (hM.core ht) hj he ht hr'] at hst
      exact .work hw hj he hst
    | ret hw hj he => exact .ret hw hj he
    | enter hcl => exact .enter hcl
    | env he => exact .env he

/-! ## What calls do to the source -/

/-- An access outside of a transaction. -/
theorem step_env {Q : Tab K} (hQ : Q.OK) {op : Call K V} {pc : PC K V} {t : Tbl K V} (hI : Inv Q.env t)
    (hpc : PcInv Q.env t op.toOp (pc.toBase Q op)) : EnvStep Q.env t (step Q op pc t).1 := by
  by_cases hb : pc = .begin
  · subst hb
    exact ⟨hI, Evolves.refl _, fun _ _ => rfl, fun _ => rfl⟩
  · rw [(step_match hb hpc).1]
    exact op_env hQ.env rfl (by cases op <;> trivial) hI hpc

/-- A transaction. -/
theorem body_env {Q : Tab K} {op : Call K V} {t t' : Tbl K V} {r : Ret K V} (hI : Inv Q.env t) :
    ∀ n i, Passed Q.env t op.key i → body Q op n i t = some (t', r) → EnvStep Q.env t t' := by
  intro n
  induction n with
  | zero => intro i _ h; cases h
  | succ n ih =>
    intro i hp h
    have hid : EnvStep Q.env t t := ⟨hI, Evolves.refl _, fun _ _ => rfl, fun _ => rfl⟩
    have hset : ∀ x : Cell K V, (t (Q.env.M.remap i)).marked = false → x.marked = false →
        Inv Q.env (t.set (Q.env.M.remap i) x) → CellLe (t (Q.env.M.remap i)).c x.c →
        EnvStep Q.env t (t.set (Q.env.M.remap i) x) := by
      intro x h1 h2 h3 h4
      refine ⟨h3, Evolves.set h4, fun p hp => ?_, fun p => ?_⟩
      · rcases hp with hp | hp
        · cases hp
        · unfold Tbl.set; split
          · rename_i e; rw [e, h1] at hp; cases hp
          · rfl
      · unfold Tbl.set; split
        · rename_i e; rw [e, h1, h2]
        · rfl
    have hput : ∀ d : V, (t (Q.env.M.remap i)).marked = false →
        ((t (Q.env.M.remap i)).isEmpty = true ∨ (t (Q.env.M.remap i)).hasKey op.key = true) →
        EnvStep Q.env t (t.set (Q.env.M.remap i) (Cell.liveCell op.key d)) := by
      intro d h1 h2
      rcases h2 with h2 | h2
      · have he := Cell.isEmpty_iff.1 h2
        exact hset _ h1 rfl (hI.insert hp he (fun hc => by cases hc))
          ⟨fun h => absurd he h, fun _ _ _ => .inl he⟩
      · obtain ⟨v, hv⟩ := Cell.hasKey_iff.1 h2
        have hle : CellLe (t (Q.env.M.remap i)).c (Cell.liveCell op.key d).c := by
          rw [hv]
          exact ⟨fun _ => by simp [Cell.liveCell], fun k w h => .inr ⟨v, by
            simp only [Cell.liveCell, Content.live.injEq] at h; rw [h.1]⟩⟩
        exact hset _ h1 rfl (hI.setEvolve (by rw [hv]; simp) hle) hle
    have hnext : (t (Q.env.M.remap i)).hasKey op.key = false → (t (Q.env.M.remap i)).isEmpty = false →
        Passed Q.env t op.key (i + 1) := by
      intro h1 h2
      refine hp.succ (fun hc => ?_) fun v hv => ?_
      · rw [Cell.isEmpty_iff.2 hc] at h2; cases h2
      · rw [Cell.hasKey_iff.2 ⟨v, hv⟩] at h1; cases h1
    have hsm : ∀ (k : K) (w : V), (t (Q.env.M.remap i)).marked = false →
        (t (Q.env.M.remap i)).hasKey k = true →
        (t (Q.env.M.remap i)).setMapped w = Cell.liveCell k w := by
      intro k w h1 h2
      obtain ⟨v, hv⟩ := Cell.hasKey_iff.1 h2
      simp [Cell.setMapped, Cell.liveCell, hv, h1]
    cases hmk : (t (Q.env.M.remap i)).marked <;> cases hk : (t (Q.env.M.remap i)).hasKey op.key <;>
      cases hem : (t (Q.env.M.remap i)).isEmpty <;> cases op <;> simp only [Call.key] at hk <;>
      simp only [body, Q.pos_eq, hmk, hk, hem, Bool.false_eq_true, if_false, if_true, Option.some.injEq,
        Prod.mk.injEq, reduceCtorEq] at h <;>
      first
      | (exact ih _ (hnext hk hem) h)
      | (obtain ⟨rfl, -⟩ := h; exact hid)
      | (obtain ⟨rfl, -⟩ := h; exact hput _ hmk (by simp [hem, hk, Call.key]))
      | (obtain ⟨rfl, -⟩ := h
         simp only [nonAtomicUpdate]
         rw [hsm _ _ hmk hk]
         exact hput _ hmk (by simp [hem, hk, Call.key]))

end
end Growt.Tsx
