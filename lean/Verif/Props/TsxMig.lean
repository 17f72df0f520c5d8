import Verif.TsxMig
import Verif.Props.Migrate

/-!
# Properties of the migration of the table with transactions (C62)
-/

set_option linter.unusedSectionVars false

namespace Growt.Tsx

section
variable {T K V : Type} [DecidableEq T] [DecidableEq K] [DecidableEq V] [Inhabited V]

/-- Every block has been handed out and nobody works on one. (specification, no code) -/
def Mig.Finished (G : Mig K) (s : MSt T K V) : Prop := 2 ^ G.src.k ≤ s.next ∧ ∀ i b, s.thr i ≠ .work b

/-- **C62 (part).**  If in the end every block of the source has an empty slot and no mark was torn (in the loop
behind a block the slot changed between load and mark), then after the migration every slot of the new table is
initialised and unmarked, no tombstone was copied, the new table stores exactly the elements of the old one (as it
is in the end), each of them once and where searches find it.  Any number of helpers, any interleaving, with
modifications of the source by ordinary calls. -/
theorem C62_migration_partial {G : Mig K} (hG : G.OK) {t : Tbl K V} (hI : Inv G.src.env t) (hm : NoMarks t)
    {s : MSt T K V} (hs : G.Reach t s) (ht : s.mem.torn = false) (hr : Roomy G s.mem.src) (hf : G.Finished s) :
    (∀ q, q < 2 ^ G.tgt.k → ∃ x, s.mem.tgt q = some x ∧ x.marked = false ∧ ∀ v, x.c ≠ .deleted v) ∧
    (∀ key v, (∃ q, q < 2 ^ G.tgt.k ∧ s.mem.tgt q = some ⟨false, .live key v⟩) ↔
      ∃ p, p < 2 ^ G.src.k ∧ (s.mem.src p).c = .live key v) ∧
    KeysOnce G.tgt.env (published s.mem.tgt) ∧ ReachableFromHome G.tgt.env (published s.mem.tgt) := by
  have hB := hs.base hG hI hm ht hr
  have hroom : HasRoom G.base.src s.mem.src := by
    intro _
    obtain ⟨j, -, j2, j3⟩ := hr 0 ⟨0, rfl⟩ (Nat.two_pow_pos _)
    refine ⟨j, ?_, j3⟩
    rw [G.src_total]
    have : 2 ^ 12 ≤ 2 ^ G.src.k := Nat.pow_le_pow_right (by omega) hG.lo
    unfold blockSize at j2
    omega
  have hfin : s.finished G.base := ⟨by rw [G.src_addr]; exact hf.1, hf.2⟩
  have hinv := MInv.reach (Mig.shape hG) hI hm hB
  obtain ⟨h1, h2, h3, h4, h5⟩ := end_ok (Mig.shape hG) (hinv.core ht) (hinv.all_done (Mig.shape hG) hfin) hroom
  rw [G.tgt_total] at h1
  have hinit : ∀ q, q < 2 ^ G.tgt.k → s.mem.tgt q = some (published s.mem.tgt q) := by
    intro q hq
    unfold published
    cases hx : s.mem.tgt q with
    | none => exact absurd hx (h1 q hq)
    | some x => rfl
  have h2' : Inv G.tgt.env (published s.mem.tgt) := ⟨h2.reach, h2.tail⟩
  refine ⟨fun q hq => ⟨_, hinit q hq, h3 q, h4 q⟩, fun key v => ?_, h2'.keysOnce, h2'.reachable⟩
  have h6 := h5 key v
  rw [G.tgt_total, G.src_total] at h6
  rw [← h6]
  constructor
  · rintro ⟨q, hq, h⟩
    exact ⟨q, hq, by simp [published, h]⟩
  · rintro ⟨q, hq, h⟩
    refine ⟨q, hq, ?_⟩
    rw [hinit q hq]
    have := h3 q
    generalize published s.mem.tgt q = x at h this
    obtain ⟨a, c⟩ := x
    simp only at h this
    rw [h, this]

/-- **C62 (part).**  Under the same conditions no step of a helper accesses a slot outside of the two tables or
reads a slot of the new table that was never written, unless this step itself tears a mark. -/
theorem C62_no_uninitialised_read_partial {G : Mig K} (hG : G.OK) {t : Tbl K V} (hI : Inv G.src.env t)
    (hm : NoMarks t) {s : MSt T K V} (hs : G.Reach t s) (ht : s.mem.torn = false) (hr : Roomy G s.mem.src)
    {b : Nat} {pc : JobPC K V} (hj : s.jobs b = some pc)
    (hn : (G.jobStep (blockEnd (2 ^ G.src.k) b) pc s.mem).1.torn = false) :
    (G.jobStep (blockEnd (2 ^ G.src.k) b) pc s.mem).2 ≠ .ub := by
  have hS := Mig.shape hG
  have hinv := MInv.reach hS hI hm (hs.base hG hI hm ht hr)
  cases he : pc.ended with
  | true => cases pc <;> first | (cases he; done) | (simp [Mig.jobStep])
  | false =>
    rw [Mig.jobStep_eq hG hS (hinv.core ht) hj he ht hr] at hn ⊢
    obtain ⟨pc', h1, -⟩ := step_ok hS (hinv.core ht) hj he hn
    rw [h1]
    simp

/-- **C62, who modifies the source**: accesses of calls outside of transactions and committed transactions do to
the source only what the migration allows for; marked slots are left alone. -/
theorem C62_calls_respect_migration {Q : Tab K} (hQ : Q.OK) {t : Tbl K V} (hI : Inv Q.env t) (op : Call K V) :
    (∀ n t' r, body Q op n (Q.home op.key) t = some (t', r) → EnvStep Q.env t t') ∧
    ∀ pc, PcInv Q.env t op.toOp (pc.toBase Q op) → EnvStep Q.env t (step Q op pc t).1 := by
  refine ⟨fun n t' r h => body_env hI n _ ?_ h, fun pc h => step_env hQ hI h⟩
  rw [Q.home_eq]
  exact Passed.start _ _ _

/-- **C62, the conditions can be met**: a single helper gets every table with an empty slot in each block
migrated. -/
theorem C62_single_helper_finishes {G : Mig K} (hG : G.OK) {t : Tbl K V} (hI : Inv G.src.env t) (hm : NoMarks t)
    (hr : Roomy G t) : ∃ s : MSt Unit K V, G.Reach t s ∧ s.mem.torn = false ∧ Roomy G s.mem.src ∧ G.Finished s ∧
      ∀ p, (s.mem.src p).c = (t p).c := by
  obtain ⟨s, hq, hf⟩ := single_helper_ends (Mig.shape hG) hI hm
  obtain ⟨ht, hc, -⟩ := hq.good
  refine ⟨s, .of_base hG hI hm hr hq, ht, fun b hd hb => ?_, ⟨by rw [← G.src_addr]; exact hf.1, hf.2⟩, hc⟩
  obtain ⟨j, j1, j2, j3⟩ := hr b hd hb
  exact ⟨j, j1, j2, by rw [hc]; exact j3⟩

/-! ## Counterexamples -/

/-- Steps of one helper. (specification, no code) -/
inductive Runs (G : Mig K) (e : Nat) : MMem K V → JobPC K V → MMem K V → JobPC K V → Prop where
  | refl (m : MMem K V) (pc : JobPC K V) : Runs G e m pc m pc
  | step {m m' m2 : MMem K V} {pc pc' pc2 : JobPC K V} (he : pc.ended = false)
      (hs : G.jobStep e pc m = (m', .cont pc')) (hr : Runs G e m' pc' m2 pc2) : Runs G e m pc m2 pc2

theorem Runs.trans {G : Mig K} {e : Nat} {m m' m2 : MMem K V} {pc pc' pc2 : JobPC K V}
    (h : Runs G e m pc m' pc') (h2 : Runs G e m' pc' m2 pc2) : Runs G e m pc m2 pc2 := by
  induction h with
  | refl => exact h2
  | step he hs _ ih => exact .step he hs (ih h2)

/-- States reached from `s`. (specification, no code) -/
inductive Mig.Later (G : Mig K) (s : MSt T K V) : MSt T K V → Prop where
  | refl : Mig.Later G s s
  | step {s1 s2 : MSt T K V} (h : Mig.Later G s s1) (hs : G.Step s1 s2) : Mig.Later G s s2

theorem Mig.Later.trans {G : Mig K} {s s1 s2 : MSt T K V} (h : G.Later s s1) (h2 : G.Later s1 s2) : G.Later s s2 := by
  induction h2 with
  | refl => exact h
  | step _ hs ih => exact .step ih hs

theorem Mig.Later.reach {G : Mig K} {t : Tbl K V} {s s1 : MSt T K V} (h : G.Reach t s) (h2 : G.Later s s1) :
    G.Reach t s1 := by
  induction h2 with
  | refl => exact h
  | step _ hs ih => exact .step ih hs

/-- A helper works on its block. -/
theorem Runs.later {G : Mig K} {b : Nat} {i : T} {m m' : MMem K V} {pc pc' : JobPC K V}
    (h : Runs G (blockEnd (2 ^ G.src.k) b) m pc m' pc') :
    ∀ {n : Nat} {thr : T → Helper} {jobs : Nat → Option (JobPC K V)},
      thr i = .work b → jobs b = some pc → ∃ jobs', G.Later ⟨m, n, thr, jobs⟩ ⟨m', n, thr, jobs'⟩ ∧
        jobs' b = some pc' ∧ ∀ b', b' ≠ b → jobs' b' = jobs b' := by
  induction h with
  | refl m pc => intro n thr jobs _ hj; exact ⟨jobs, .refl, hj, fun _ _ => rfl⟩
  | step he hs _ ih =>
    intro n thr jobs hw hj
    obtain ⟨jobs', h1, h2, h3⟩ := ih (n := n) (thr := thr) hw (upd1_self ..)
    refine ⟨jobs', Mig.Later.trans (.step .refl (.work hw hj he hs)) h1, h2, fun b' hb' => ?_⟩
    rw [h3 b' hb']; simp [upd1, hb']

theorem fill_runs {G : Mig K} {e st i : Nat} {tail : Bool} : ∀ (qs : List Nat) (m : MMem K V),
    (∀ q ∈ qs, q < 2 ^ G.tgt.k) → Runs G e m (.fill st qs tail i)
      { m with tgt := fun q => if q ∈ qs then some Cell.emptyCell else m.tgt q }
      (if tail then .load st true i else G.loopHead e st false i) := by
  intro qs
  induction qs with
  | nil => intro m _; exact .step rfl (by simp [Mig.jobStep]) (.refl _ _)
  | cons q qs ih =>
    intro m h
    refine .step rfl (m' := { m with tgt := m.tgt.set q Cell.emptyCell }) (pc' := .fill st qs tail i) ?_ ?_
    · simp only [Mig.jobStep]
      rw [if_pos (h q (by simp))]
    · have := ih { m with tgt := m.tgt.set q Cell.emptyCell } (fun q' hq' => h q' (by simp [hq']))
      have e : (fun q' => if q' ∈ q :: qs then some Cell.emptyCell else m.tgt q') =
          fun q' => if q' ∈ qs then some (Cell.emptyCell : Cell K V) else m.tgt.set q Cell.emptyCell q' := by
        funext q'
        by_cases h1 : q' ∈ qs
        · simp [h1]
        · by_cases h2 : q' = q <;> simp [h1, h2, MTbl.set]
      rw [e]
      exact this

theorem Tab.pos_of_lt {Q : Tab K} {i : Nat} (h : i < 2 ^ Q.k) : Q.pos i = i := by
  unfold Tab.pos
  rw [Nat.and_two_pow_sub_one_eq_mod]
  exact Nat.mod_eq_of_lt h

/-- Empty slots inside of the block are marked. -/
theorem empties_run {G : Mig K} {e st : Nat} (he : e ≤ 2 ^ G.src.k) : ∀ (n i : Nat) (m : MMem K V), i + n ≤ e →
    (∀ q, i ≤ q → q < i + n → (m.src q).c = .empty) →
    Runs G e m (G.loopHead e st false i)
      ⟨fun q => if i ≤ q ∧ q < i + n then ⟨true, .empty⟩ else m.src q, m.tgt, m.torn⟩
      (G.loopHead e st false (i + n)) := by
  intro n
  induction n with
  | zero =>
    intro i m _ _
    have : (fun q => if i ≤ q ∧ q < i + 0 then (⟨true, .empty⟩ : Cell K V) else m.src q) = m.src := by
      funext q; rw [if_neg (by omega)]
    rw [this]
    exact .refl _ _
  | succ n ih =>
    intro i m hle h
    have hc := h i (by omega) (by omega)
    have hp : G.src.pos i = i := Tab.pos_of_lt (by omega)
    have hh : (G.loopHead e st false i : JobPC K V) = .load st false i := by
      simp [Mig.loopHead, show i < e by omega]
    rw [hh]
    refine .step rfl (m' := m) (pc' := .mark st false i (m.src i)) (by simp [Mig.jobStep, hp]) ?_
    refine .step rfl (m' := ⟨m.src.set i ⟨true, .empty⟩, m.tgt, m.torn⟩) (pc' := G.loopHead e st false (i + 1)) ?_ ?_
    · have h1 : (m.src i).isEmpty = true := Cell.isEmpty_iff.2 hc
      simp [Mig.jobStep, hp, atomicMark, Mig.process, h1, Cell.mark, hc]
    · have := ih (i + 1) ⟨m.src.set i ⟨true, .empty⟩, m.tgt, m.torn⟩ (by omega) (fun q h1 h2 => by
        simp only [Tbl.set]
        rw [if_neg (by omega)]
        exact h q (by omega) (by omega))
      have e2 : (fun q => if i ≤ q ∧ q < i + (n + 1) then (⟨true, .empty⟩ : Cell K V) else m.src q) =
          fun q => if i + 1 ≤ q ∧ q < i + 1 + n then ⟨true, .empty⟩ else m.src.set i ⟨true, .empty⟩ q := by
        funext q
        by_cases h1 : q = i
        · subst h1
          rw [if_pos (by omega), if_neg (by omega)]
          simp [Tbl.set]
        · by_cases h2 : i + 1 ≤ q ∧ q < i + 1 + n
          · rw [if_pos (by omega), if_pos h2]
          · rw [if_neg (by omega), if_neg h2]
            simp [Tbl.set, h1]
      rw [e2, show i + (n + 1) = i + 1 + n by omega]
      exact this

/-- The search for an empty slot passes occupied slots. -/
theorem scan_run {G : Mig K} {e : Nat} (he : e ≤ 2 ^ G.src.k) {m : MMem K V} : ∀ (n i : Nat), i + n + 1 = e →
    (∀ q, i ≤ q → q < e → (m.src q).isEmpty = false) →
    Runs G e m (.scan i) m (G.afterScan e e) := by
  intro n
  induction n with
  | zero =>
    intro i hi h
    refine .step rfl (m' := m) (pc' := G.afterScan e e) ?_ (.refl _ _)
    simp only [Mig.jobStep]
    rw [if_pos (by omega), h i (by omega) (by omega)]
    simp [show i + 1 = e by omega]
  | succ n ih =>
    intro i hi h
    refine .step rfl (m' := m) (pc' := .scan (i + 1)) ?_ (ih (i + 1) (by omega) fun q h1 h2 => h q (by omega) h2)
    simp only [Mig.jobStep]
    rw [if_pos (by omega), h i (by omega) (by omega)]
    simp [show i + 1 < e by omega]

end

/-- A table of 8192 slots grows to 16384; key `n` has the home slot `n % 8192`. (example, no code) -/
def exG : Mig Nat := ⟨⟨13, fun n => (n % 8192) * 2 ^ 51⟩, ⟨14, fun n => (n % 8192) * 2 ^ 51⟩, false⟩

theorem exG_ok : exG.OK := by
  refine ⟨by decide, by decide, .inr rfl, rfl, fun x => ?_⟩
  show (x % 8192) * 2 ^ 51 < 2 ^ 64
  have : x % 8192 < 8192 := Nat.mod_lt _ (by decide)
  omega

theorem exG_shift : exG.shift = 1 := Mig.shift_eq exG_ok

theorem exG_home (n : Nat) : exG.src.home n = n % 8192 ∧ exG.tgt.home n = 2 * (n % 8192) := by
  have h1 : logLoop (2 ^ 13) = 13 := logLoop_two_pow 13
  have h2 : logLoop (2 ^ 14) = 14 := logLoop_two_pow 14
  constructor
  · show ((n % 8192) * 2 ^ 51) >>> computeRightShift (2 ^ 13) = _
    rw [computeRightShift, h1, Nat.shiftRight_eq_div_pow]
    omega
  · show ((n % 8192) * 2 ^ 51) >>> computeRightShift (2 ^ 14) = _
    rw [computeRightShift, h2, Nat.shiftRight_eq_div_pow]
    omega

/-- Helpers 0 and 1 have taken the two blocks of the table. (example, no code) -/
def exThr : Nat → Helper := upd1 (upd1 (fun _ => .claim) 0 (.work 0)) 1 (.work 4096)

/-- ... and begun with them. (example, no code) -/
def exJobs : Nat → Option (JobPC Nat Nat) :=
  upd1 (upd1 (fun _ => none) 0 (some (exG.jobStart 0 4096))) 4096 (some (exG.jobStart 4096 8192))

theorem exJobs_1 : exJobs 4096 = some (exG.jobStart 4096 8192) := upd1_self ..

theorem exJobs_0 : exJobs 0 = some (exG.jobStart 0 4096) := by simp [exJobs, upd1]

/-- The state. (example, no code) -/
def exTwo (t : Tbl Nat Nat) : MSt Nat Nat Nat :=
  ⟨⟨t, fun _ => none, false⟩, 8192, exThr, exJobs⟩

theorem exTwo_reach (t : Tbl Nat Nat) : exG.Reach t (exTwo t) := by
  have e1 : blockEnd (2 ^ exG.src.k) 0 = 4096 := by decide
  have e2 : blockEnd (2 ^ exG.src.k) 4096 = 8192 := by decide
  have h1 : exG.Reach t (⟨⟨t, fun _ => none, false⟩, 4096, upd1 (fun _ => .claim) 0 (.work 0),
      upd1 (fun _ => none) 0 (some (exG.jobStart 0 4096))⟩ : MSt Nat Nat Nat) := by
    have := Mig.Reach.step (T := Nat) (.init (t := t)) (.claim (G := exG) (i := 0) rfl (Nat.two_pow_pos 13))
    simp only [Mig.init, e1] at this
    exact this
  have h2 := h1.step (.claim (i := 1) rfl (show 4096 < 2 ^ 13 by decide))
  simp only [e2] at h2
  exact h2

/-- The second half is full; key 16383 has the home slot 8191 and was displaced to slot 0. (example, no code) -/
def exFull : Tbl Nat Nat := fun q =>
  if q = 0 then Cell.liveCell 16383 1 else if 4096 ≤ q ∧ q < 8192 then Cell.liveCell q 1 else Cell.emptyCell

theorem exFull_inv : Inv exG.src.env exFull := by
  refine ⟨fun p k v hp hv => ?_, fun hc => by cases hc⟩
  have hpt : p < 8192 := by rw [exG.src.total_eq] at hp; exact hp
  have hmap : ∀ n, exG.src.env.M.map (exG.src.env.h n) = n % 8192 := fun n => by
    rw [← Tab.home_eq]; exact (exG_home n).1
  have hrem : ∀ i, exG.src.env.M.remap i = i % 8192 := fun i => by
    rw [← Tab.pos_eq, Tab.pos, Nat.and_two_pow_sub_one_eq_mod]; rfl
  unfold exFull at hv
  by_cases h0 : p = 0
  · rw [if_pos h0] at hv
    simp only [Cell.liveCell, Content.live.injEq] at hv
    obtain ⟨rfl, rfl⟩ := hv
    refine ⟨8192, by rw [hrem, h0], by rw [hmap]; decide, fun j h1 h2 => ?_⟩
    rw [hmap] at h1
    have : j = 8191 := by omega
    subst this
    rw [hrem]
    simp [exFull, Cell.liveCell]
  · rw [if_neg h0] at hv
    by_cases h1 : 4096 ≤ p ∧ p < 8192
    · rw [if_pos h1] at hv
      simp only [Cell.liveCell, Content.live.injEq] at hv
      obtain ⟨rfl, rfl⟩ := hv
      refine ⟨p, by rw [hrem]; omega, by rw [hmap]; omega, fun j h2 h3 => ?_⟩
      rw [hmap] at h2
      omega
    · rw [if_neg h1] at hv
      simp [Cell.emptyCell] at hv

/-- **C62 does not hold for a block without empty slot**: `migrate` has no counterpart of the early return of
`base_linear.hpp:1139`.  The helper of a full block goes on behind it, with elements whose slots in the new table it
has not initialised.  Here one helper has taken the first block and not begun yet; the second helper probes for key
16383 at slot 16382 of the new table, which nobody has written (uninitialised read).  The source is not modified and
has 4095 empty slots. -/
theorem C62_full_block_reads_uninitialised :
    exG.OK ∧ Inv exG.src.env exFull ∧ NoMarks exFull ∧
    ∃ (s : MSt Nat Nat Nat) (pc : JobPC Nat Nat), exG.Reach exFull s ∧ s.mem.torn = false ∧
      (∀ p, (s.mem.src p).c = (exFull p).c) ∧ s.thr 1 = .work 4096 ∧ s.jobs 4096 = some pc ∧
      (exG.jobStep (blockEnd (2 ^ exG.src.k) 4096) pc s.mem).2 = .ub := by
  refine ⟨exG_ok, exFull_inv, fun p => ?_, ?_⟩
  · unfold exFull; split <;> (try split) <;> rfl
  have hbe : blockEnd (2 ^ exG.src.k) 4096 = 8192 := by decide
  let m1 : MMem Nat Nat := ⟨exFull, fun q => if q ∈ [0, 1] then some Cell.emptyCell else none, false⟩
  let m2 : MMem Nat Nat := ⟨exFull.set 0 ⟨true, .live 16383 1⟩, m1.tgt, false⟩
  have hrun : Runs exG 8192 ⟨exFull, fun _ => none, false⟩ (exG.jobStart 4096 8192) m2
      (.probe 8192 true 8193 16382 ⟨false, .live 16383 1⟩) := by
    refine Runs.trans (scan_run (by decide) 4095 4096 rfl (fun q h1 h2 => ?_)) ?_
    · have : exFull q = Cell.liveCell q 1 := by
        unfold exFull; rw [if_neg (by omega), if_pos (by omega)]
      show (exFull q).isEmpty = false
      rw [this]; rfl
    have e0 : exG.fillRange 8192 8192 = [] := by simp [Mig.fillRange]
    have e1 : exG.fillSlot (exG.src.pos 8192) = [0, 1] := by
      rw [Mig.fillSlot, exG_shift]; decide
    rw [Mig.afterScan, e0]
    refine .step rfl (m' := ⟨exFull, fun _ => none, false⟩) (pc' := .fill 8192 [0, 1] true 8192)
      (by simp [Mig.jobStep, Mig.loopHead, e1]) ?_
    refine Runs.trans (fill_runs _ _ (by decide)) ?_
    refine .step rfl (m' := m1) (pc' := .mark 8192 true 8192 ⟨false, .live 16383 1⟩) ?_ ?_
    · show exG.jobStep 8192 (.load 8192 true 8192) _ = _
      simp only [Mig.jobStep]
      have : exG.src.pos 8192 = 0 := by decide
      rw [this]; rfl
    refine .step rfl (m' := m2) (pc' := .probe 8192 true 8193 16382 ⟨false, .live 16383 1⟩) ?_ (.refl _ _)
    have hp : exG.src.pos 8192 = 0 := by decide
    have hx : m1.src 0 = ⟨false, .live 16383 1⟩ := rfl
    have hh : exG.tgt.home 16383 = 16382 := (exG_home 16383).2
    simp [Mig.jobStep, hp, hx, atomicMark, Mig.process, Cell.isEmpty, Cell.isDeleted, hh, Cell.mark, m2]
    exact ⟨rfl, rfl⟩
  have hrun' : Runs exG (blockEnd (2 ^ exG.src.k) 4096) ⟨exFull, fun _ => none, false⟩ (exG.jobStart 4096 8192) m2
      (.probe 8192 true 8193 16382 ⟨false, .live 16383 1⟩) := by rw [hbe]; exact hrun
  obtain ⟨jobs, g1, g2, -⟩ := hrun'.later (i := 1) (n := 8192) (thr := exThr) (jobs := exJobs) rfl exJobs_1
  refine ⟨_, _, g1.reach (exTwo_reach exFull), rfl, fun p => ?_, rfl, g2, ?_⟩
  · show ((exFull.set 0 ⟨true, .live 16383 1⟩) p).c = _
    simp only [Tbl.set]
    split
    · rename_i h; rw [h]; rfl
    · rfl
  · have : m2.tgt (exG.tgt.pos 16382) = none := by
      have : exG.tgt.pos 16382 = 16382 := by decide
      rw [this]; rfl
    simp [Mig.jobStep, this]

/-- The source before the insertion: the first block is marked. (example, no code) -/
def tsrc1 : Tbl Nat Nat := fun q => if q < 4096 then ⟨true, .empty⟩ else Cell.emptyCell

/-- The source after the insertion. (example, no code) -/
def tsrc2 : Tbl Nat Nat := tsrc1.set 4096 (Cell.liveCell 4096 7)

/-- The source in the end. (example, no code) -/
def tsrc3 : Tbl Nat Nat := fun q => if q = 4096 then Cell.liveCell 4096 7 else
  if q < 8192 then ⟨true, .empty⟩ else Cell.emptyCell

/-- The target when the first helper has finished. (example, no code) -/
def ttgt1 : MTbl Nat Nat := fun q => if q < 8194 then some Cell.emptyCell else none

/-- The target in the end. (example, no code) -/
def ttgt2 : MTbl Nat Nat := fun q => if q < 16384 then some Cell.emptyCell else none

/-- The helper of the first block of an empty table has loaded the slot behind the block. -/
theorem torn_a : Runs exG 4096 ⟨emptyTbl, fun _ => none, false⟩ (exG.jobStart 0 4096) ⟨tsrc1, ttgt1, false⟩
    (.mark 0 true 4096 Cell.emptyCell) := by
  have f1 : exG.fillRange 0 4096 = List.range' 0 8192 := by rw [Mig.fillRange, exG_shift]; simp [Nat.shiftLeft_eq]
  have f2 : exG.fillSlot (exG.src.pos 4096) = [8192, 8193] := by rw [Mig.fillSlot, exG_shift]; decide
  refine .step rfl (m' := ⟨emptyTbl, fun _ => none, false⟩) (pc' := .scanMark 0 Cell.emptyCell) rfl ?_
  refine .step rfl (m' := ⟨(emptyTbl : Tbl Nat Nat).set 0 ⟨true, .empty⟩, fun _ => none, false⟩)
    (pc' := exG.afterScan 0 4096) rfl ?_
  rw [Mig.afterScan, f1]
  refine Runs.trans (fill_runs _ _ (fun q hq => ?_)) ?_
  · rw [List.mem_range'_1] at hq
    show q < 16384
    omega
  refine Runs.trans (empties_run (by decide) 4096 0 _ (by omega) (fun q _ _ => ?_)) ?_
  · show ((emptyTbl : Tbl Nat Nat).set 0 ⟨true, .empty⟩ q).c = _
    simp only [Tbl.set]
    split <;> rfl
  have e1 : (exG.loopHead 4096 0 false (0 + 4096) : JobPC Nat Nat) = .fill 0 [8192, 8193] true 4096 := by
    simp only [Mig.loopHead, Nat.zero_add, f2]
    rw [if_neg (by omega)]
  rw [e1]
  refine Runs.trans (fill_runs _ _ (by decide)) ?_
  refine .step rfl (m' := ⟨tsrc1, ttgt1, false⟩) (pc' := .mark 0 true 4096 Cell.emptyCell) ?_ (.refl _ _)
  have e2 : (fun q => if 0 ≤ q ∧ q < 0 + 4096 then (⟨true, .empty⟩ : Cell Nat Nat) else
      (emptyTbl : Tbl Nat Nat).set 0 ⟨true, .empty⟩ q) = tsrc1 := by
    funext q
    unfold tsrc1
    by_cases h : q < 4096
    · rw [if_pos (by omega), if_pos h]
    · rw [if_neg (by omega), if_neg h]
      simp [Tbl.set, show q ≠ 0 by omega, emptyTbl]
  have e3 : (fun q => if q ∈ [8192, 8193] then some (Cell.emptyCell : Cell Nat Nat) else
      if q ∈ List.range' 0 8192 then some Cell.emptyCell else none) = ttgt1 := by
    funext q
    unfold ttgt1
    simp only [List.mem_range'_1, List.mem_cons, List.not_mem_nil, or_false]
    by_cases h1 : q = 8192 ∨ q = 8193
    · rw [if_pos h1, if_pos (by omega)]
    · rw [if_neg h1]
      by_cases h2 : 0 ≤ q ∧ q < 0 + 8192
      · rw [if_pos h2, if_pos (by omega)]
      · rw [if_neg h2, if_neg (by omega)]
  simp only [e2, e3]
  have hp : exG.src.pos 4096 = 4096 := by decide
  have hx : tsrc1 4096 = Cell.emptyCell := rfl
  simp [Mig.jobStep, hp, hx]

/-- The mark fails; the helper takes the old copy for the end of the cluster. -/
theorem torn_b : Runs exG 4096 ⟨tsrc2, ttgt1, false⟩ (.mark 0 true 4096 Cell.emptyCell) ⟨tsrc2, ttgt1, true⟩
    (.fin 0 4096) := by
  refine .step rfl (m' := ⟨tsrc2, ttgt1, true⟩) (pc' := .fin 0 4096) ?_ (.refl _ _)
  have hp : exG.src.pos 4096 = 4096 := by decide
  have hx : tsrc2 4096 = Cell.liveCell 4096 7 := rfl
  have hs : tsrc2.set 4096 (Cell.liveCell 4096 7) = tsrc2 := by
    funext q
    simp only [tsrc2, Tbl.set]
    split <;> rfl
  have hne : Cell.liveCell 4096 7 ≠ (Cell.emptyCell : Cell Nat Nat) := by simp [Cell.liveCell, Cell.emptyCell]
  have hu : exG.upd = false := rfl
  simp only [Mig.jobStep, hp, hx, atomicMark, if_true, if_neg hne, hs, hu]
  rfl

/-- The helper of the second block. -/
theorem torn_c : Runs exG 8192 ⟨tsrc2, ttgt1, true⟩ (exG.jobStart 4096 8192) ⟨tsrc3, ttgt2, true⟩
    (.fin 4097 8192) := by
  have f1 : exG.fillRange 4097 8192 = List.range' 8194 8190 := by rw [Mig.fillRange, exG_shift]; simp [Nat.shiftLeft_eq]
  have f2 : exG.fillSlot (exG.src.pos 8192) = [0, 1] := by rw [Mig.fillSlot, exG_shift]; decide
  refine .step rfl (m' := ⟨tsrc2, ttgt1, true⟩) (pc' := .scan 4097) rfl ?_
  refine .step rfl (m' := ⟨tsrc2, ttgt1, true⟩) (pc' := .scanMark 4097 Cell.emptyCell) rfl ?_
  refine .step rfl (m' := ⟨tsrc2.set 4097 ⟨true, .empty⟩, ttgt1, true⟩) (pc' := exG.afterScan 4097 8192) rfl ?_
  rw [Mig.afterScan, f1]
  refine Runs.trans (fill_runs _ _ (fun q hq => ?_)) ?_
  · rw [List.mem_range'_1] at hq
    show q < 16384
    omega
  refine Runs.trans (empties_run (by decide) 4095 4097 _ (by omega) (fun q h1 h2 => ?_)) ?_
  · show (tsrc2.set 4097 ⟨true, .empty⟩ q).c = _
    simp only [Tbl.set, tsrc2, tsrc1]
    split
    · rfl
    · rw [if_neg (by omega), if_neg (by omega)]; rfl
  have e1 : (exG.loopHead 8192 4097 false (4097 + 4095) : JobPC Nat Nat) = .fill 4097 [0, 1] true 8192 := by
    simp only [Mig.loopHead, show 4097 + 4095 = 8192 from rfl, f2]
    rw [if_neg (by omega)]
  rw [e1]
  refine Runs.trans (fill_runs _ _ (by decide)) ?_
  have e2 : (fun q => if 4097 ≤ q ∧ q < 4097 + 4095 then (⟨true, .empty⟩ : Cell Nat Nat) else
      tsrc2.set 4097 ⟨true, .empty⟩ q) = tsrc3 := by
    funext q
    simp only [Tbl.set, tsrc2, tsrc1, tsrc3]
    by_cases h0 : q = 4096
    · subst h0; rfl
    · by_cases h1 : 4097 ≤ q ∧ q < 4097 + 4095
      · rw [if_pos h1, if_neg h0, if_pos (by omega)]
      · rw [if_neg h1, if_neg (by omega), if_neg h0, if_neg h0]
        by_cases h2 : q < 4096
        · rw [if_pos h2, if_pos (by omega)]
        · rw [if_neg h2, if_neg (by omega)]
  have e3 : (fun q => if q ∈ [0, 1] then some (Cell.emptyCell : Cell Nat Nat) else
      if q ∈ List.range' 8194 8190 then some Cell.emptyCell else ttgt1 q) = ttgt2 := by
    funext q
    unfold ttgt1 ttgt2
    simp only [List.mem_range'_1, List.mem_cons, List.not_mem_nil, or_false]
    by_cases h1 : q = 0 ∨ q = 1
    · rw [if_pos h1, if_pos (by omega)]
    · rw [if_neg h1]
      by_cases h2 : 8194 ≤ q ∧ q < 8194 + 8190
      · rw [if_pos h2, if_pos (by omega)]
      · rw [if_neg h2]
        by_cases h3 : q < 8194
        · rw [if_pos h3, if_pos (by omega)]
        · rw [if_neg h3, if_neg (by omega)]
  simp only [e2, e3]
  have hp : exG.src.pos 8192 = 0 := by decide
  refine .step rfl (m' := ⟨tsrc3, ttgt2, true⟩) (pc' := .mark 4097 true 8192 ⟨true, .empty⟩) ?_ ?_
  · have hx : tsrc3 0 = ⟨true, .empty⟩ := rfl
    simp [Mig.jobStep, hp, hx]
  refine .step rfl (m' := ⟨tsrc3, ttgt2, true⟩) (pc' := .fin 4097 8192) ?_ (.refl _ _)
  have hx : tsrc3 0 = ⟨true, .empty⟩ := rfl
  have hs : tsrc3.set 0 ⟨true, .empty⟩ = tsrc3 := by
    funext q
    simp only [Tbl.set]
    split
    · rename_i h; rw [h]; rfl
    · rfl
  simp [Mig.jobStep, hp, hx, atomicMark, Cell.mark, hs, Mig.process, Cell.isEmpty]

theorem tsrc1_inv : Inv exG.src.env tsrc1 := by
  refine ⟨fun p k v hp hv => ?_, fun hc => by cases hc⟩
  unfold tsrc1 at hv
  split at hv <;> cases hv

/-- **C62 does not hold for sources that are modified meanwhile** (slots whose failed mark leaves the expected copy
alone): in the loop behind a block the result of the mark only decides whether the slot is looked at again; the old
copy is processed all the same.  Two helpers migrate an empty table; between the load and the mark of the slot
behind the first block a transaction commits and inserts key 4096 there.  All slots have room, the insertion
reports success, the migration ends, and the new table is empty: the element is lost. -/
theorem C62_torn_mark_loses_insertion :
    ∃ s1 s2 s3 : MSt Nat Nat Nat, exG.Reach emptyTbl s1 ∧
      body exG.src (.insert 4096 7) 1 (exG.src.home 4096) s1.mem.src =
        some (s2.mem.src, ⟨some .TSX_SUCCESS_IN, some (4096, 4096, 7)⟩) ∧
      s2 = ⟨{ s1.mem with src := s2.mem.src }, s1.next, s1.thr, s1.jobs⟩ ∧ exG.Step s1 s2 ∧
      exG.Later s2 s3 ∧ Roomy exG s3.mem.src ∧ exG.Finished s3 ∧ (s3.mem.src 4096).c = .live 4096 7 ∧
      ∀ q, q < 2 ^ exG.tgt.k → s3.mem.tgt q = some Cell.emptyCell := by
  have e1 : blockEnd (2 ^ exG.src.k) 0 = 4096 := by decide
  have e2 : blockEnd (2 ^ exG.src.k) 4096 = 8192 := by decide
  have ra := torn_a
  have rb := torn_b
  have rc := torn_c
  have hh : exG.src.home 4096 = 4096 := (exG_home 4096).1
  have hp : exG.src.pos 4096 = 4096 := by decide
  have hx : tsrc1 4096 = Cell.emptyCell := rfl
  have hbody : body exG.src (.insert 4096 7) 1 (exG.src.home 4096) tsrc1 =
      some (tsrc2, ⟨some .TSX_SUCCESS_IN, some (4096, 4096, 7)⟩) := by
    rw [hh]
    simp [body, hp, hx, Cell.emptyCell, Cell.hasKey, Cell.isEmpty, tsrc2]
  have ra' : Runs exG (blockEnd (2 ^ exG.src.k) 0) ⟨emptyTbl, fun _ => none, false⟩ (exG.jobStart 0 4096)
      ⟨tsrc1, ttgt1, false⟩ (.mark 0 true 4096 Cell.emptyCell) := by rw [e1]; exact ra
  have rb' : Runs exG (blockEnd (2 ^ exG.src.k) 0) ⟨tsrc2, ttgt1, false⟩ (.mark 0 true 4096 Cell.emptyCell)
      ⟨tsrc2, ttgt1, true⟩ (.fin 0 4096) := by rw [e1]; exact rb
  have rc' : Runs exG (blockEnd (2 ^ exG.src.k) 4096) ⟨tsrc2, ttgt1, true⟩ (exG.jobStart 4096 8192)
      ⟨tsrc3, ttgt2, true⟩ (.fin 4097 8192) := by rw [e2]; exact rc
  let thr := exThr
  obtain ⟨j1, g1, g2, g3⟩ := ra'.later (i := 0) (n := 8192) (thr := thr) (jobs := exJobs) rfl exJobs_0
  obtain ⟨j2, g4, g5, g6⟩ := rb'.later (i := 0) (n := 8192) (thr := thr) (jobs := j1) rfl g2
  let thr2 := upd1 thr 0 .claim
  have hj2 : j2 4096 = some (exG.jobStart 4096 8192) := by
    rw [g6 _ (by omega), g3 _ (by omega)]; exact exJobs_1
  have g7 : exG.Later ⟨⟨tsrc2, ttgt1, false⟩, 8192, thr, j1⟩ ⟨⟨tsrc2, ttgt1, true⟩, 8192, thr2, j2⟩ :=
    .step g4 (.ret (i := 0) (b := 0) rfl g5 rfl)
  obtain ⟨j3, g8, g9, -⟩ := rc'.later (i := 1) (n := 8192) (thr := thr2) (jobs := j2) rfl hj2
  have g10 : exG.Later ⟨⟨tsrc2, ttgt1, false⟩, 8192, thr, j1⟩
      ⟨⟨tsrc3, ttgt2, true⟩, 8192, upd1 thr2 1 .claim, j3⟩ :=
    (g7.trans g8).step (.ret (i := 1) (b := 4096) rfl g9 rfl)
  have henv : EnvStep exG.src.env tsrc1 tsrc2 :=
    (C62_calls_respect_migration ⟨by decide, by decide, exG_ok.hash⟩ tsrc1_inv (.insert 4096 7)).1 1 _ _ hbody
  refine ⟨_, _, _, g1.reach (exTwo_reach emptyTbl), hbody, rfl, .env henv, g10, ?_, ⟨Nat.le_refl _, ?_⟩, rfl, ?_⟩
  · intro b hd hb
    obtain ⟨x, rfl⟩ := hd
    refine ⟨blockSize * x + 1, by omega, by unfold blockSize; omega, ?_⟩
    show (tsrc3 _).c = _
    unfold tsrc3
    rw [if_neg (by unfold blockSize; omega)]
    split <;> rfl
  · intro i b
    show upd1 (upd1 exThr 0 .claim) 1 Helper.claim i ≠ .work b
    simp only [upd1, exThr]
    by_cases h1 : i = 1
    · simp [h1]
    · by_cases h0 : i = 0 <;> simp [h1, h0]
  · intro q hq
    show ttgt2 q = _
    unfold ttgt2
    exact if_pos hq

/-! ## Concrete cases -/

/-- A table with one element and one tombstone per block; the migration of `C62_single_helper_finishes` moves the
elements. (example, no code) -/
def exSome : Tbl Nat Nat := fun q => if q % 4096 = 5 then Cell.liveCell q 1 else
  if q % 4096 = 6 then Cell.deletedCell else Cell.emptyCell

example : ∃ s : MSt Unit Nat Nat, exG.Reach exSome s ∧ exG.Finished s ∧
    (∃ q, q < 16384 ∧ s.mem.tgt q = some ⟨false, .live 4101 1⟩) ∧
    ¬ ∃ q v, q < 16384 ∧ s.mem.tgt q = some ⟨false, .live 7 v⟩ := by
  have hI : Inv exG.src.env exSome := by
    refine ⟨fun p k v hp hv => ?_, fun hc => by cases hc⟩
    have hpt : p < 8192 := by rw [exG.src.total_eq] at hp; exact hp
    unfold exSome at hv
    split at hv
    · simp only [Cell.liveCell, Content.live.injEq] at hv
      obtain ⟨rfl, rfl⟩ := hv
      have hm : exG.src.env.M.map (exG.src.env.h p) = p := by
        rw [← Tab.home_eq, (exG_home p).1]; omega
      refine ⟨p, by rw [← Tab.pos_eq]; exact Tab.pos_of_lt hpt, by rw [hm]; exact Nat.le_refl _, fun j h1 h2 => ?_⟩
      rw [hm] at h1
      omega
    · split at hv <;> cases hv
  have hm : NoMarks exSome := fun p => by unfold exSome; split <;> (try split) <;> rfl
  have hr : Roomy exG exSome := by
    intro b hd _
    obtain ⟨x, rfl⟩ := hd
    refine ⟨blockSize * x, by omega, by unfold blockSize; omega, ?_⟩
    unfold exSome blockSize
    rw [if_neg (by omega), if_neg (by omega)]; rfl
  obtain ⟨s, h1, h2, h3, h4, h5⟩ := C62_single_helper_finishes exG_ok hI hm hr
  obtain ⟨-, h6, -, -⟩ := C62_migration_partial exG_ok hI hm h1 h2 h3 h4
  refine ⟨s, h1, h4, (h6 4101 1).2 ⟨4101, by decide, by rw [h5]; rfl⟩, ?_⟩
  rintro ⟨q, v, h7, h8⟩
  obtain ⟨p, -, h10⟩ := (h6 7 v).1 ⟨q, h7, h8⟩
  rw [h5] at h10
  unfold exSome at h10
  split at h10
  · rename_i hc
    simp only [Cell.liveCell, Content.live.injEq] at h10
    omega
  · split at h10 <;> cases h10

end Growt.Tsx
