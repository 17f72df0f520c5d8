import Verif.Props.AsyncLin

/-!
# C24: two executions of an asynchronously growing table

In both, thread 1 grows the table while thread 0 inserts an element behind the last addressable slot.
In the first the element is inserted before the helper loads its slot; later it is found in the new
table.  In the second it is inserted after the helper has loaded the (empty) slot and before the
helper marks it; although the insertion succeeded, the element is not found later.
-/

set_option linter.unusedSectionVars false

namespace Growt
section
variable {K V : Type} [DecidableEq K] [DecidableEq V] [Inhabited V]

/-- Initialising slots of the target. -/
theorem fill_runs {G : MEnv K} {k b st i : Nat} {tail : Bool} : ∀ (qs : List Nat) (m : MMem K V),
    (∀ q, q ∈ qs → q < G.tgt.M.total) →
    Runs G k b m (.fill st qs tail i)
      ⟨m.src, fun q => if q ∈ qs then some Cell.emptyCell else m.tgt q, m.torn⟩ (.load st tail i) := by
  intro qs
  induction qs with
  | nil =>
    intro m _
    exact .one rfl (by simp [jobStep])
  | cons q qs ih =>
    intro m h
    refine .step rfl (m' := { m with tgt := m.tgt.set q Cell.emptyCell }) (pc' := .fill st qs tail i)
      (by simp only [jobStep]; rw [if_pos (h q (by simp))]) ?_
    have := ih { m with tgt := m.tgt.set q Cell.emptyCell } (fun q' hq => h q' (by simp [hq]))
    have e : (fun q' => if q' ∈ qs then some Cell.emptyCell else (m.tgt.set q Cell.emptyCell) q') =
        fun q' => if q' ∈ q :: qs then some Cell.emptyCell else m.tgt q' := by
      funext q'
      simp only [MTbl.set, List.mem_cons]
      by_cases h1 : q' = q <;> by_cases h2 : q' ∈ qs <;> simp [h1, h2]
    simp only [e] at this
    exact this

/-- Marking empty slots. -/
theorem empties_run {G : MEnv K} {k b st : Nat} (hm : G.src.m = true)
    (hr : ∀ i, G.src.M.remap i = i) (hT : blockEnd (2 ^ k) b ≤ G.src.M.total) :
    ∀ n i (m : MMem K V), i + n < blockEnd (2 ^ k) b →
    (∀ q, i ≤ q → q < i + n → m.src q = Cell.emptyCell) →
    Runs G k b m (.load st false i)
      ⟨fun q => if i ≤ q ∧ q < i + n then ⟨true, .empty⟩ else m.src q, m.tgt, m.torn⟩
      (.load st false (i + n)) := by
  intro n
  induction n with
  | zero =>
    intro i m _ _
    have e : (fun q => if i ≤ q ∧ q < i + 0 then (⟨true, .empty⟩ : Cell K V) else m.src q) = m.src := by
      funext q; rw [if_neg (by omega)]
    rw [e]
    exact .refl _ _
  | succ n ih =>
    intro i m hi he
    have hq : m.src i = Cell.emptyCell := he i (Nat.le_refl _) (by omega)
    have hlt : i < G.src.M.total := by omega
    refine .step rfl (m' := m) (pc' := .mark st false i Cell.emptyCell)
      (by simp only [jobStep, hr]; rw [if_pos hlt, hq]) ?_
    refine .step rfl (m' := { m with src := m.src.set i ⟨true, .empty⟩ }) (pc' := .load st false (i + 1)) ?_ ?_
    · simp only [jobStep, hr, atomicMark, hm, hq]
      rw [if_pos hlt]
      simp only [if_true, Bool.false_eq_true, if_false]
      have e : (Cell.emptyCell : Cell K V).isEmpty = true := rfl
      simp only [process, e, if_true, Bool.false_eq_true, if_false, loopHead]
      rw [if_pos ⟨trivial, by omega⟩]
      rfl
    · have := ih (i + 1) { m with src := m.src.set i ⟨true, .empty⟩ } (by omega) (fun q h1 h2 => by
        simp only [Tbl.set]
        rw [if_neg (by omega)]
        exact he q (by omega) (by omega))
      have e : (fun q => if i + 1 ≤ q ∧ q < i + 1 + n then (⟨true, .empty⟩ : Cell K V)
          else (m.src.set i ⟨true, .empty⟩) q) =
          fun q => if i ≤ q ∧ q < i + (n + 1) then (⟨true, .empty⟩ : Cell K V) else m.src q := by
        funext q
        simp only [Tbl.set]
        by_cases h1 : q = i
        · subst h1; rw [if_neg (by omega), if_pos rfl, if_pos (by omega)]
        · by_cases h2 : i ≤ q ∧ q < i + (n + 1)
          · rw [if_pos h2, if_pos (by omega)]
          · rw [if_neg h2, if_neg (by omega), if_neg h1]
      simp only [e] at this
      rw [show i + (n + 1) = i + 1 + n by omega]
      rw [show i + (n + 1) = i + 1 + n by omega] at this
      exact this

end

namespace Async

/-- The table to which the example grows. (example, no code) -/
def exM2 : Env Nat := { exM with M := exM.M.resize 300 0 }

theorem exM2_M : exM2.M = ⟨false, false, 2048, 54, 1⟩ := by
  have h1 : logLoop 1024 = 10 := logLoop_two_pow 10
  have h2 : Mapper.fillAboveExact (Mapper.sub64 300 0) 512 = true := by decide
  have h3 : (⟨false, false, 1536, 55, 0⟩ : Mapper).addr = 512 := by decide
  simp [exM2, Mapper.resize, h2, h3, Mapper.mk', computeRightShift, h1, lpBuffer, exM, exE]

theorem exM2_facts : exM2.M.addr = 1024 ∧
    exM2.M.total = 2048 ∧ Sync.blocksOf exM2.M = 1 ∧ exM.M.addr = 2 ^ 9 ∧ exM.M.total = 1536 ∧
    blockEnd (2 ^ 9) 0 = 512 ∧ initRange exM2.M 0 512 = List.range' 0 1024 ∧
    initSlot exM2.M 512 = [1024, 1025] ∧ initSlot exM2.M 513 = [1026, 1027] ∧
    exM2.M.map (exM2.h 511) = 1022 ∧ exM2.M.map (exM2.h 1023) = 1022 := by
  rw [exM2_M]
  refine ⟨by decide, by decide, by decide, by decide, by decide, by decide, ?_, by decide, by decide,
    by decide, by decide⟩
  rfl

theorem exM_blocks : Sync.blocksOf exM.M = 1 := by decide

/-- The migration of the example. (example, no code) -/
def exG (u : Bool) : MEnv Nat := ⟨exM, exM2, u⟩

/-- The element with key 511 is in the last addressable slot. (example, no code) -/
def src0 : Tbl Nat Nat := fun q => if q = 511 then ⟨false, .live 511 7⟩ else Cell.emptyCell

/-- The addressable slots are marked. (example, no code) -/
def src1 : Tbl Nat Nat := fun q =>
  if q < 511 then ⟨true, .empty⟩ else if q = 511 then ⟨true, .live 511 7⟩ else Cell.emptyCell

/-- The target when the block has been migrated. (example, no code) -/
def tgt1 : MTbl Nat Nat := fun q =>
  if q = 1022 then some ⟨false, .live 511 7⟩ else if q < 2048 then some Cell.emptyCell else none

theorem exM_remap (i : Nat) : exM.M.remap i = i := rfl

theorem exM2_remap (i : Nat) : exM2.M.remap i = i := rfl

attribute [local irreducible] blockEnd

/-- The helper migrates the only block and arrives at the slot behind it. -/
theorem job_to_tail (u : Bool) : Runs (exG u) 9 0 ⟨src0, freshTarget exM2, false⟩ (jobStart (exG u) 0 (blockEnd (2 ^ 9) 0))
    ⟨src1, tgt1, false⟩ (.load 0 true 512) := by
  obtain ⟨f2, f3, f4, f5, f6, f7, f8, f9, f10, f11, f12⟩ := exM2_facts
  have e0 : (jobStart (exG u) 0 (blockEnd (2 ^ 9) 0) : JobPC Nat Nat) =
      .fill 0 (List.range' 0 1024) false 0 := by
    rw [f7, ← f8]; rfl
  rw [e0]
  refine (fill_runs (G := exG u) _ _ (fun q hq => ?_)).trans ?_
  · show q < exM2.M.total
    rw [List.mem_range'_1] at hq
    omega
  refine (empties_run (G := exG u) rfl exM_remap (by rw [f7]; show 512 ≤ exM.M.total; omega) 511 0 _
    (by omega) (fun q _ hq => ?_)).trans ?_
  · show src0 q = _
    unfold src0; rw [if_neg (by omega)]
  -- the last slot of the block
  obtain ⟨t1, ht1⟩ : ∃ t : Tbl Nat Nat, t = fun q =>
    if 0 ≤ q ∧ q < 0 + 511 then (⟨true, .empty⟩ : Cell Nat Nat) else src0 q := ⟨_, rfl⟩
  obtain ⟨g1, hg1⟩ : ∃ g : MTbl Nat Nat, g = fun q =>
    if q ∈ List.range' 0 1024 then some Cell.emptyCell else freshTarget exM2 q := ⟨_, rfl⟩
  simp only [← ht1, ← hg1]
  have q1 : t1 511 = ⟨false, .live 511 7⟩ := by rw [ht1]; rfl
  have q2 : g1 1022 = some Cell.emptyCell := by
    rw [hg1]; exact if_pos (by rw [List.mem_range'_1]; omega)
  refine .step rfl (m' := ⟨t1, g1, false⟩) (pc' := .mark 0 false 511 ⟨false, .live 511 7⟩)
    (by rw [← q1]; rfl) ?_
  refine .step rfl (m' := ⟨t1.set 511 ⟨true, .live 511 7⟩, g1, false⟩)
    (pc' := .probe 0 false 512 1022 ⟨false, .live 511 7⟩) ?_ ?_
  · simp only [jobStep, exG, exM_remap, q1, f6, atomicMark]
    rw [if_pos (by decide)]
    simp only [process]
    rw [← f11]
    rfl
  refine .step rfl (m' := ⟨t1.set 511 ⟨true, .live 511 7⟩, g1, false⟩)
    (pc' := .put 0 false 512 1022 ⟨false, .live 511 7⟩) ?_ ?_
  · simp only [jobStep, exG, exM2_remap, f3, q2]; rfl
  refine .step rfl (m' := ⟨t1.set 511 ⟨true, .live 511 7⟩, g1.set 1022 ⟨false, .live 511 7⟩, false⟩)
    (pc' := .fill 0 [1024, 1025] true 512) ?_ ?_
  · simp only [jobStep, exG, exM2_remap, f3, loopHead, f7, exM_remap, f9]; rfl
  have := fill_runs (G := exG u) (k := 9) (b := 0) (st := 0) (i := 512) (tail := true) [1024, 1025]
    ⟨t1.set 511 ⟨true, .live 511 7⟩, g1.set 1022 ⟨false, .live 511 7⟩, false⟩
    (fun q hq => by show q < exM2.M.total; rw [f3]; simp at hq; omega)
  have e1 : t1.set 511 ⟨true, .live 511 7⟩ = src1 := by
    funext q
    simp only [ht1, Tbl.set, src1, src0]
    repeat' split
    all_goals first | rfl | omega
  have e2 : (fun q => if q ∈ [1024, 1025] then some Cell.emptyCell else
      (g1.set 1022 ⟨false, .live 511 7⟩) q) = tgt1 := by
    funext q
    simp only [hg1, MTbl.set, tgt1, freshTarget, f2, f3, List.mem_range'_1]
    by_cases a1 : q = 1022
    · subst a1; simp
    by_cases a2 : q < 2048
    · rw [if_neg a1, if_neg a1, if_pos a2]
      by_cases a3 : q < 1024
      · rw [if_neg (by simp; omega), if_pos (by omega)]
      · have hcp : exM2.M.cp = false := by rw [exM2_M]
        have h1 : ¬ (0 ≤ q ∧ q < 0 + 1024) := by omega
        have h2 : exM2.M.cp = false ∧ 1024 ≤ q ∧ q < 2048 := ⟨hcp, by omega, by omega⟩
        rw [if_neg h1, if_pos h2]; simp
    · rw [if_neg a1, if_neg a1, if_neg a2, if_neg (by simp; omega), if_neg (by omega), if_neg (by omega)]
  rw [e1] at this ⊢
  simp only [e2] at this
  exact this

/-- The source with the element that thread 0 inserts behind the block. (example, no code) -/
def src2 : Tbl Nat Nat := src1.set 512 ⟨false, .live 1023 8⟩

/-- The slot was loaded when it was empty: the mark fails, and the helper is done. -/
theorem job_torn : Runs (exG false) 9 0 ⟨src2, tgt1, false⟩ (.mark 0 true 512 Cell.emptyCell)
    ⟨src2, tgt1, true⟩ (.fin 0 512) := by
  have e : src2.set 512 ⟨false, .live 1023 8⟩ = src2 := by
    funext q; simp only [src2, Tbl.set]; split <;> rfl
  have h : Runs (exG false) 9 0 ⟨src2, tgt1, false⟩ (.mark 0 true 512 Cell.emptyCell)
      ⟨src2.set 512 ⟨false, .live 1023 8⟩, tgt1, true⟩ (.fin 0 512) := .one rfl rfl
  rw [e] at h
  exact h

/-- The target with both elements. (example, no code) -/
def tgt2 : MTbl Nat Nat := fun q =>
  if q = 1022 then some ⟨false, .live 511 7⟩ else if q = 1023 then some ⟨false, .live 1023 8⟩
  else if q < 2048 then some Cell.emptyCell else none

/-- The slot is loaded after the insertion: the element is copied, and the slot behind it ends the
migration. -/
theorem job_good (u : Bool) : ∃ src, Runs (exG u) 9 0 ⟨src2, tgt1, false⟩ (.load 0 true 512)
    ⟨src, tgt2, false⟩ (.fin 0 513) := by
  obtain ⟨f2, f3, f4, f5, f6, f7, f8, f9, f10, f11, f12⟩ := exM2_facts
  have q1 : src2 512 = ⟨false, .live 1023 8⟩ := rfl
  refine ⟨(src2.set 512 ⟨true, .live 1023 8⟩).set 513 ⟨true, .empty⟩, ?_⟩
  refine .step rfl (m' := ⟨src2, tgt1, false⟩) (pc' := .mark 0 true 512 ⟨false, .live 1023 8⟩)
    (by rw [← q1]; rfl) ?_
  refine .step rfl (m' := ⟨src2.set 512 ⟨true, .live 1023 8⟩, tgt1, false⟩)
    (pc' := .probe 0 true 513 1022 ⟨false, .live 1023 8⟩) ?_ ?_
  · simp only [jobStep, exG, exM_remap, q1, f6, atomicMark]
    rw [if_pos (by decide)]
    simp only [process]
    rw [← f12]
    rfl
  refine .step rfl (m' := ⟨src2.set 512 ⟨true, .live 1023 8⟩, tgt1, false⟩)
    (pc' := .probe 0 true 513 1023 ⟨false, .live 1023 8⟩) ?_ ?_
  · simp only [jobStep, exG, exM2_remap, f3]; rfl
  refine .step rfl (m' := ⟨src2.set 512 ⟨true, .live 1023 8⟩, tgt1, false⟩)
    (pc' := .put 0 true 513 1023 ⟨false, .live 1023 8⟩) ?_ ?_
  · simp only [jobStep, exG, exM2_remap, f3]; rfl
  refine .step rfl (m' := ⟨src2.set 512 ⟨true, .live 1023 8⟩, tgt1.set 1023 ⟨false, .live 1023 8⟩, false⟩)
    (pc' := .fill 0 [1026, 1027] true 513) ?_ ?_
  · simp only [jobStep, exG, exM2_remap, f3, loopHead, f7, exM_remap, f10]; rfl
  have e : (fun q => if q ∈ [1026, 1027] then some Cell.emptyCell else
      (tgt1.set 1023 ⟨false, .live 1023 8⟩) q) = tgt2 := by
    funext q
    simp only [tgt1, tgt2, MTbl.set, List.mem_cons, List.not_mem_nil, or_false]
    repeat' split
    all_goals first | rfl | omega
  have h := (fill_runs (G := exG u) (k := 9) (b := 0) (st := 0) (i := 513) (tail := true) [1026, 1027]
    ⟨src2.set 512 ⟨true, .live 1023 8⟩, tgt1.set 1023 ⟨false, .live 1023 8⟩, false⟩
    (fun q hq => by show q < exM2.M.total; rw [f3]; simp at hq; omega))
  simp only [e] at h
  refine h.trans ?_
  refine .step rfl (pc' := .mark 0 true 513 Cell.emptyCell) rfl ?_
  exact .one rfl rfl

theorem job_load (u : Bool) : jobStep (exG u) (blockEnd (2 ^ 9) 0) (.load 0 true 512) ⟨src1, tgt1, false⟩ =
    (⟨src1, tgt1, false⟩, .cont (.mark 0 true 512 Cell.emptyCell)) := by
  cases u <;> rfl

/-- The target with the element of key 1023 in two slots. (example, no code) -/
def tgt3 : MTbl Nat Nat := fun q =>
  if q = 1022 then some ⟨false, .live 511 7⟩ else if q = 1023 then some ⟨false, .live 1023 8⟩
  else if q = 1024 then some ⟨false, .live 1023 8⟩ else if q < 2048 then some Cell.emptyCell else none

/-- The slot was loaded when it was empty, and a failed compare-and-swap stores what it has seen in the
copy (`single_word_slot.hpp:352-367`, `complex_slot.hpp:498-507`): the element is copied, the slot is
looked at again, and the element is copied again. -/
theorem job_dup : ∃ src, Runs (exG true) 9 0 ⟨src2, tgt1, false⟩ (.mark 0 true 512 Cell.emptyCell)
    ⟨src, tgt3, true⟩ (.fin 0 513) := by
  obtain ⟨f2, f3, f4, f5, f6, f7, f8, f9, f10, f11, f12⟩ := exM2_facts
  have q1 : src2 512 = ⟨false, .live 1023 8⟩ := rfl
  have e0 : src2.set 512 ⟨false, .live 1023 8⟩ = src2 := by
    funext q; simp only [src2, Tbl.set]; split <;> rfl
  refine ⟨(src2.set 512 ⟨true, .live 1023 8⟩).set 513 ⟨true, .empty⟩, ?_⟩
  refine .step rfl (m' := ⟨src2, tgt1, true⟩)
    (pc' := .probe 0 true 512 1022 ⟨false, .live 1023 8⟩) ?_ ?_
  · have h : atomicMark true true (⟨false, .live 1023 8⟩ : Cell Nat Nat) Cell.emptyCell =
        (⟨false, .live 1023 8⟩, ⟨false, .live 1023 8⟩, false) := rfl
    have h' : exM.m = true := rfl
    simp only [jobStep, exG, exM_remap, q1, f6, h, h', e0]
    rw [if_pos (by decide)]
    simp only [process]
    rw [← f12]
    rfl
  refine .step rfl (m' := ⟨src2, tgt1, true⟩)
    (pc' := .probe 0 true 512 1023 ⟨false, .live 1023 8⟩) ?_ ?_
  · simp only [jobStep, exG, exM2_remap, f3]; rfl
  refine .step rfl (m' := ⟨src2, tgt1, true⟩)
    (pc' := .put 0 true 512 1023 ⟨false, .live 1023 8⟩) ?_ ?_
  · simp only [jobStep, exG, exM2_remap, f3]; rfl
  refine .step rfl (m' := ⟨src2, tgt1.set 1023 ⟨false, .live 1023 8⟩, true⟩)
    (pc' := .fill 0 [1024, 1025] true 512) ?_ ?_
  · simp only [jobStep, exG, exM2_remap, f3, loopHead, f7, exM_remap, f9]; rfl
  have e1 : (fun q => if q ∈ [1024, 1025] then some Cell.emptyCell else
      (tgt1.set 1023 ⟨false, .live 1023 8⟩) q) = tgt2 := by
    funext q
    simp only [tgt1, tgt2, MTbl.set, List.mem_cons, List.not_mem_nil, or_false]
    repeat' split
    all_goals first | rfl | omega
  have h := (fill_runs (G := exG true) (k := 9) (b := 0) (st := 0) (i := 512) (tail := true) [1024, 1025]
    ⟨src2, tgt1.set 1023 ⟨false, .live 1023 8⟩, true⟩
    (fun q hq => by show q < exM2.M.total; rw [f3]; simp at hq; omega))
  simp only [e1] at h
  refine h.trans ?_
  refine .step rfl (m' := ⟨src2, tgt2, true⟩) (pc' := .mark 0 true 512 ⟨false, .live 1023 8⟩)
    (by rw [← q1]; rfl) ?_
  refine .step rfl (m' := ⟨src2.set 512 ⟨true, .live 1023 8⟩, tgt2, true⟩)
    (pc' := .probe 0 true 513 1022 ⟨false, .live 1023 8⟩) ?_ ?_
  · simp only [jobStep, exG, exM_remap, q1, f6, atomicMark]
    rw [if_pos (by decide)]
    simp only [process]
    rw [← f12]
    rfl
  refine .step rfl (m' := ⟨src2.set 512 ⟨true, .live 1023 8⟩, tgt2, true⟩)
    (pc' := .probe 0 true 513 1023 ⟨false, .live 1023 8⟩) ?_ ?_
  · simp only [jobStep, exG, exM2_remap, f3]; rfl
  refine .step rfl (m' := ⟨src2.set 512 ⟨true, .live 1023 8⟩, tgt2, true⟩)
    (pc' := .probe 0 true 513 1024 ⟨false, .live 1023 8⟩) ?_ ?_
  · simp only [jobStep, exG, exM2_remap, f3]; rfl
  refine .step rfl (m' := ⟨src2.set 512 ⟨true, .live 1023 8⟩, tgt2, true⟩)
    (pc' := .put 0 true 513 1024 ⟨false, .live 1023 8⟩) ?_ ?_
  · simp only [jobStep, exG, exM2_remap, f3]; rfl
  refine .step rfl (m' := ⟨src2.set 512 ⟨true, .live 1023 8⟩, tgt2.set 1024 ⟨false, .live 1023 8⟩, true⟩)
    (pc' := .fill 0 [1026, 1027] true 513) ?_ ?_
  · simp only [jobStep, exG, exM2_remap, f3, loopHead, f7, exM_remap, f10]; rfl
  have e2 : (fun q => if q ∈ [1026, 1027] then some Cell.emptyCell else
      (tgt2.set 1024 ⟨false, .live 1023 8⟩) q) = tgt3 := by
    funext q
    simp only [tgt2, tgt3, MTbl.set, List.mem_cons, List.not_mem_nil, or_false]
    repeat' split
    all_goals first | rfl | omega
  have h := (fill_runs (G := exG true) (k := 9) (b := 0) (st := 0) (i := 513) (tail := true) [1026, 1027]
    ⟨src2.set 512 ⟨true, .live 1023 8⟩, tgt2.set 1024 ⟨false, .live 1023 8⟩, true⟩
    (fun q hq => by show q < exM2.M.total; rw [f3]; simp at hq; omega))
  simp only [e2] at h
  refine h.trans ?_
  refine .step rfl (pc' := .mark 0 true 513 Cell.emptyCell) rfl ?_
  exact .one rfl rfl

/-- `find` in the new table without the element. -/
theorem find_torn : step exM2 (.find 1023) (.load 1022 0) (published tgt1) =
      (published tgt1, .cont (.load 1023 0)) ∧
    step exM2 (.find 1023) (.load 1023 0) (published tgt1) = (published tgt1, .done ⟨none, none⟩) :=
  ⟨rfl, rfl⟩

/-- `find` in the new table with the element. -/
theorem find_good : step exM2 (.find 1023) (.load 1022 0) (published tgt2) =
      (published tgt2, .cont (.load 1023 0)) ∧
    step exM2 (.find 1023) (.load 1023 0) (published tgt2) =
      (published tgt2, .done ⟨none, some (1023, ⟨false, .live 1023 8⟩)⟩) :=
  ⟨rfl, rfl⟩

/-- `erase` and then `find` in the new table that has the element twice. -/
theorem erase_dup : step exM2 (.erase 1023) (.load 1022 0) (published tgt3) =
      (published tgt3, .cont (.load 1023 0)) ∧
    step exM2 (.erase 1023) (.load 1023 0) (published tgt3) =
      (published tgt3, .cont (.act 1023 0 ⟨false, .live 1023 8⟩)) ∧
    step exM2 (.erase 1023) (.act 1023 0 ⟨false, .live 1023 8⟩) (published tgt3) =
      ((published tgt3).set 1023 Cell.deletedCell, .done ⟨some .SUCCESS_DEL, none⟩) ∧
    step exM2 (.find 1023) (.load 1022 0) ((published tgt3).set 1023 Cell.deletedCell) =
      ((published tgt3).set 1023 Cell.deletedCell, .cont (.load 1023 0)) ∧
    step exM2 (.find 1023) (.load 1023 0) ((published tgt3).set 1023 Cell.deletedCell) =
      ((published tgt3).set 1023 Cell.deletedCell, .cont (.load 1024 0)) ∧
    step exM2 (.find 1023) (.load 1024 0) ((published tgt3).set 1023 Cell.deletedCell) =
      ((published tgt3).set 1023 Cell.deletedCell, .done ⟨none, some (1024, ⟨false, .live 1023 8⟩)⟩) :=
  ⟨rfl, rfl, rfl, rfl, rfl, rfl⟩

/-! ### Executions in which threads run alone -/

theorem _root_.Growt.Exec.mono {S E : Type} {R R' : S → Option E → S → Prop}
    (hR : ∀ s e s', R s e s' → R' s e s') {s0 : S} {l : List E} {s : S} (h : Exec R s0 l s) :
    Exec R' s0 l s := by
  induction h with
  | init => exact .init
  | silent _ hs ih => exact .silent ih (hR _ _ _ hs)
  | vis _ hs ih => exact .vis ih (hR _ _ _ hs)

/-- Steps of the executions: small tables with linear probing; with `w`, no mark is torn. (example, no code) -/
def XStep (u w : Bool) (ok : Op Nat Nat → Prop) (s : DSt Nat Nat Nat Nat) (e : Option (Ev Nat (Op Nat Nat) (SRes Nat)))
    (s' : DSt Nat Nat Nat Nat) : Prop :=
  DStep u ok s e s' ∧
    (∀ a, (s'.env a).M.cp = false ∧ (s'.env a).M.addr < 2 ^ 32) ∧ (w = true → s'.torn = false)

theorem XStep.stepW {u : Bool} {ok : Op Nat Nat → Prop} {s s' : DSt Nat Nat Nat Nat} {e : Option (Ev Nat (Op Nat Nat) (SRes Nat))}
    (h : XStep u true ok s e s') : DStepW u ok s e s' :=
  ⟨h.1, ⟨fun a _ _ => (h.2.1 a).2, fun _ _ _ hc => by rw [(h.2.1 _).1] at hc; cases hc⟩, h.2.2 rfl⟩

theorem exM_small : exM.M.cp = false ∧ exM.M.addr < 2 ^ 32 := by decide

theorem exEnv2_small (a : Nat) : ((upd (fun _ => exM) 1 exM2 a).M.cp = false) ∧
    (upd (fun _ => exM) 1 exM2 a).M.addr < 2 ^ 32 := by
  simp only [upd]
  split
  · exact ⟨by rw [exM2_M], by rw [exM2_facts.1]; decide⟩
  · exact exM_small

/-- The helper alone at a block. -/
theorem solo_block {u w : Bool} {ok : Op Nat Nat → Prop} {s0 : DSt Nat Nat Nat Nat} {t : Nat} {h : Hd Nat}
    {o o' : Obj Nat} {l : List (Ev Nat (Op Nat Nat) (SRes Nat))} {m m' : MMem Nat Nat}
    {pc pc' : JobPC Nat Nat} (hr : Runs (exG u) 9 0 m pc m' pc') (hw : w = true → m'.torn = false) :
    ∀ s : DSt Nat Nat Nat Nat, Exec (XStep u w ok) s0 l s →
    s.p.pc t = .mg5 (some h) 0 1 0 → s.p.heap 0 = some o → s.p.heap 1 = some o' →
    s.env = upd (fun _ => exM) 1 exM2 → s.jobs 0 0 = some pc →
    m = ⟨published (s.mem 0), s.mem 1, s.torn⟩ →
    ∃ (mem : Nat → MTbl Nat Nat) (jobs : Nat → Nat → Option (JobPC Nat Nat)),
      Exec (XStep u w ok) s0 l { s with mem := mem, torn := m'.torn, jobs := jobs } ∧
      jobs 0 0 = some pc' ∧ published (mem 0) = m'.src ∧ mem 1 = m'.tgt := by
  have hmono : ∀ {m pc m' pc'}, Runs (V := Nat) (exG u) 9 0 m pc m' pc' → m'.torn = false →
      m.torn = false := by
    intro m pc m' pc' h
    induction h with
    | refl => exact id
    | @step m _ _ pc _ _ he hs _ ih =>
      intro h2
      have h3 := ih h2
      refine jobStep_torn (V := Nat) (exG u) (blockEnd (2 ^ 9) 0) pc m ?_
      rw [hs]; exact h3
  induction hr with
  | refl m pc =>
    intro s hX _ _ _ _ hj hm
    subst hm
    exact ⟨s.mem, s.jobs, hX, hj, rfl, rfl⟩
  | @step m m1 m2 pc pc1 pc2 he hs hrest ih =>
    intro s hX hp ho ho' henv hj hm
    subst hm
    obtain ⟨p, env, mem, torn, jobs, thr⟩ := s
    simp only at hp ho ho' henv hj hs
    subst henv
    have hz : (0 : Nat) * blockSize = 0 := Nat.zero_mul _
    have h1 := hX.silent ⟨.work (k := 0) (pc := pc) (pc' := pc1) (m := m1) (Step.work hp ho ho')
      (by rw [hp]; rfl) (by rw [hz]; exact hj) he
      (by
        rw [hz]
        show jobStep (exG u) (blockEnd exM.M.addr 0) _ _ = _
        rw [exM2_facts.2.2.2.1]
        exact hs), exEnv2_small, fun h => hmono hrest (hw h)⟩
    have e : published (upd (upd mem 0 (Sync.store (mem 0) m1.src)) 1 m1.tgt 0) = m1.src := by
      simp [upd, Sync.published_store]
    obtain ⟨mem', jobs', h2, h3, h4, h5⟩ := ih hw _ h1 hp ho ho' rfl
      (by simp only [upd_same, hz]; exact upd1_self ..) (by
      show m1 = MMem.mk (published (upd (upd mem 0 (Sync.store (mem 0) m1.src)) 1 m1.tgt 0))
        (upd (upd mem 0 (Sync.store (mem 0) m1.src)) 1 m1.tgt 1) m1.torn
      rw [e]; simp [upd])
    exact ⟨mem', jobs', h2, h3, h4, h5⟩

/-- A step of an operation on the table at address `a`. -/
theorem opX {u w : Bool} {ok : Op Nat Nat → Prop} {s0 : DSt Nat Nat Nat Nat} {l : List (Ev Nat (Op Nat Nat) (SRes Nat))}
    {s : DSt Nat Nat Nat Nat} (hX : Exec (XStep u w ok) s0 l s)
    (hk : ∀ a, (s.env a).M.cp = false ∧ (s.env a).M.addr < 2 ^ 32) (hw : w = true → s.torn = false)
    {t : Nat} {h : Hd Nat} {o : Obj Nat} (hp : s.p.pc t = .use h) (ho : s.p.heap h.tab = some o)
    {E : Env Nat} (hE : s.env h.tab = E) {T : Tbl Nat Nat} (hT : published (s.mem h.tab) = T)
    {op : Op Nat Nat} {pc : Growt.PC Nat Nat} (ht : s.thr t = .busy op pc) {g : Tbl Nat Nat}
    {out : Out Nat Nat} (hst : step E op pc T = (g, out)) :
    ∃ mem, published (mem h.tab) = g ∧ (∀ a, a ≠ h.tab → mem a = s.mem a) ∧
      (∀ pc', out = .cont pc' →
        Exec (XStep u w ok) s0 l { s with mem := mem, thr := setAt s.thr t (.busy op pc') }) ∧
      (∀ r x, out = .done r → Sync.answer op r = some x →
        Exec (XStep u w ok) s0 l { s with mem := mem, thr := setAt s.thr t (.fin op x) }) := by
  subst hE hT
  refine ⟨upd s.mem h.tab (Sync.store (s.mem h.tab) g), by simp [upd, Sync.published_store],
    fun a ha => by simp [upd, ha], ?_, ?_⟩
  · rintro pc' rfl
    exact hX.silent ⟨.op (Step.op hp ho) ht hst, hk, hw⟩
  · rintro r x rfl hx
    exact hX.silent ⟨.opDone (Step.op hp ho) ht hst hx, hk, hw⟩

/-- The protocol's part of a state of the executions. (example, no code) -/
structure At (s : DSt Nat Nat Nat Nat) (glob epoch help : Nat) (pc0 pc1 : PC Nat) (o0 o1 : Option (Obj Nat)) :
    Prop where
  glob : s.p.glob = glob
  epoch : s.p.epoch = epoch
  help : s.p.nHelper = help
  pc0 : s.p.pc 0 = pc0
  pc1 : s.p.pc 1 = pc1
  heap0 : s.p.heap 0 = o0
  heap1 : s.p.heap 1 = o1

/-- The other part. (example, no code) -/
structure Has (s : DSt Nat Nat Nat Nat) (env : Nat → Env Nat) (thr0 thr1 : UThr Nat Nat) (src : Tbl Nat Nat)
    (torn : Bool) : Prop where
  env : s.env = env
  thr0 : s.thr 0 = thr0
  thr1 : s.thr 1 = thr1
  mem : published (s.mem 0) = src
  torn : s.torn = torn

/-- The first table. (example, no code) -/
def tab0 (claimed : Nat) (next : Option Nat) : Obj Nat := ⟨0, 1, claimed, fun _ => false, next, false, false⟩

/-- Two handles are created. -/
theorem part_a1 (u w : Bool) (ok : Op Nat Nat → Prop) : ∃ s, Exec (XStep u w ok) (DSt.init exM 0) [] s ∧
    At s 0 0 0 (.idle ⟨0, 0⟩) (.idle ⟨0, 0⟩) (some (tab0 0 none)) none ∧
    Has s (fun _ => exM) .idle .idle (fun _ => Cell.emptyCell) false ∧ s.jobs 0 = fun _ => none := by
  have k : ∀ a : Nat, (exM.M.cp = false) ∧ exM.M.addr < 2 ^ 32 := fun _ => exM_small
  have h0 : Exec (XStep u w ok) (DSt.init exM 0) [] (DSt.init exM 0) := .init
  have h1 := h0.silent ⟨.quiet (Step.create (t := 0) rfl), k, fun _ => rfl⟩
  have h2 := h1.silent ⟨.quiet (Step.prot (t := 0) rfl rfl), k, fun _ => rfl⟩
  have h3 := h2.silent ⟨.quiet (Step.ldDone (t := 0) rfl rfl rfl (by decide)), k, fun _ => rfl⟩
  have h4 := h3.silent ⟨.quiet (Step.create (t := 1) rfl), k, fun _ => rfl⟩
  have h5 := h4.silent ⟨.quiet (Step.prot (t := 1) rfl rfl), k, fun _ => rfl⟩
  have h6 := h5.silent ⟨.quiet (Step.ldDone (t := 1) rfl rfl rfl (by decide)), k, fun _ => rfl⟩
  refine ⟨_, h6, ⟨rfl, rfl, rfl, rfl, rfl, ?_, rfl⟩, ⟨rfl, rfl, rfl, ?_, rfl⟩, rfl⟩
  · unfold tab0; rw [← exM_blocks]; rfl
  · funext q
    show (if q < exM.M.total then some Cell.emptyCell else none).getD _ = _
    split <;> rfl

/-- Thread 0 makes a call and enters the table at address `a`. -/
theorem enterX {u w : Bool} {ok : Op Nat Nat → Prop} {s0 s : DSt Nat Nat Nat Nat} {l : List (Ev Nat (Op Nat Nat) (SRes Nat))}
    (hX : Exec (XStep u w ok) s0 l s) {glob e help a : Nat} {pc1 : PC Nat} {o0 o1 : Option (Obj Nat)}
    (hA : At s glob e help (.idle ⟨a, e⟩) pc1 o0 o1) {env : Nat → Env Nat} {x : UThr Nat Nat}
    {src : Tbl Nat Nat} {torn : Bool} (hH : Has s env .idle x src torn)
    (k : ∀ a, (env a).M.cp = false ∧ (env a).M.addr < 2 ^ 32) (hw : w = true → torn = false)
    {op : Op Nat Nat} (hop : ok op) :
    ∃ s', Exec (XStep u w ok) s0 (l ++ [.call 0 op]) s' ∧ At s' glob e help (.use ⟨a, e⟩) pc1 o0 o1 ∧
      Has s' env (.busy op (start (env a) op)) x src torn ∧ s'.jobs = s.jobs ∧ s'.mem = s.mem := by
  obtain ⟨p, env', mem, torn', jobs, thr⟩ := s
  obtain ⟨a1, a2, a3, a4, a5, a6, a7⟩ := hA
  obtain ⟨b1, b2, b3, b4, b5⟩ := hH
  simp only at a1 a2 a3 a4 a5 a6 a7 b1 b2 b3 b4 b5
  subst b1 b5
  have h1 := hX.vis ⟨.call (t := 0) (op := op) a4 b2 hop, k, hw⟩
  have h2 := h1.silent ⟨.enter (Step.gtOk (t := 0) (h := ⟨a, e⟩) a4 (by show p.epoch ≤ e; omega))
    (setAt_same thr 0 (.pend op)), k, hw⟩
  exact ⟨_, h2, ⟨a1, a2, a3, rfl, a5, a6, a7⟩, ⟨rfl, rfl, b3, b4, rfl⟩, rfl, rfl⟩

/-- A step of the operation of thread 0. -/
theorem opX0 {u w : Bool} {ok : Op Nat Nat → Prop} {s0 s : DSt Nat Nat Nat Nat} {l : List (Ev Nat (Op Nat Nat) (SRes Nat))}
    (hX : Exec (XStep u w ok) s0 l s) {glob e help a : Nat} {pc1 : PC Nat} {o0 : Obj Nat} {o1 : Option (Obj Nat)}
    (hA : At s glob e help (.use ⟨0, a⟩) pc1 (some o0) o1) {env : Nat → Env Nat} {x : UThr Nat Nat}
    {src : Tbl Nat Nat} {torn : Bool} {op : Op Nat Nat} {pc : Growt.PC Nat Nat}
    (hH : Has s env (.busy op pc) x src torn)
    (k : ∀ a, (env a).M.cp = false ∧ (env a).M.addr < 2 ^ 32) (hw : w = true → torn = false)
    {g : Tbl Nat Nat} {out : Out Nat Nat} (hst : step (env 0) op pc src = (g, out)) :
    (∀ pc', out = .cont pc' → ∃ s', Exec (XStep u w ok) s0 l s' ∧
      At s' glob e help (.use ⟨0, a⟩) pc1 (some o0) o1 ∧ Has s' env (.busy op pc') x g torn ∧
      s'.jobs = s.jobs ∧ s'.mem 1 = s.mem 1) ∧
    (∀ r y, out = .done r → Sync.answer op r = some y → ∃ s', Exec (XStep u w ok) s0 (l ++ [.ret 0 op y]) s' ∧
      At s' glob e help (.idle ⟨0, a⟩) pc1 (some o0) o1 ∧ Has s' env .idle x g torn ∧
      s'.jobs = s.jobs ∧ s'.mem 1 = s.mem 1) := by
  obtain ⟨p, env', mem, torn', jobs, thr⟩ := s
  obtain ⟨a1, a2, a3, a4, a5, a6, a7⟩ := hA
  obtain ⟨b1, b2, b3, b4, b5⟩ := hH
  simp only at a1 a2 a3 a4 a5 a6 a7 b1 b2 b3 b4 b5
  subst b1 b5
  obtain ⟨mem', m1, m2, h1, h2⟩ := opX hX k hw (h := ⟨0, a⟩) a4 a6 rfl b4 b2 hst
  constructor
  · intro pc' ho
    exact ⟨_, h1 pc' ho, ⟨a1, a2, a3, a4, a5, a6, a7⟩, ⟨rfl, rfl, b3, m1, rfl⟩, rfl, m2 1 Nat.one_ne_zero⟩
  · intro r y ho hy
    have h3 := (h2 r y ho hy).silent ⟨.exit (Step.exitDone (t := 0) (h := ⟨0, a⟩) a4)
      (.inr ⟨op, y, setAt_same thr 0 _⟩) nofun, k, hw⟩
    have h4 := h3.vis ⟨.ret (t := 0) (h := ⟨0, a⟩) rfl (setAt_same thr 0 (.fin op y)), k, hw⟩
    exact ⟨_, h4, ⟨a1, a2, a3, rfl, a5, a6, a7⟩, ⟨rfl, rfl, b3, m1, rfl⟩, rfl, m2 1 Nat.one_ne_zero⟩

/-- The element with key 511 is inserted; thread 0 begins to insert key 1023 and has seen that slot 511
is occupied. -/
theorem part_a (u w : Bool) {ok : Op Nat Nat → Prop} (hok : ∀ k d, ok (.insert k d)) : ∃ s, Exec (XStep u w ok) (DSt.init exM 0)
    [.call 0 (.insert 511 7), .ret 0 (.insert 511 7) ⟨true, none⟩, .call 0 (.insert 1023 8)] s ∧
    At s 0 0 0 (.use ⟨0, 0⟩) (.idle ⟨0, 0⟩) (some (tab0 0 none)) none ∧
    Has s (fun _ => exM) (.busy (.insert 1023 8) (.load 512 0)) .idle src0 false ∧
    s.jobs 0 = fun _ => none := by
  have k : ∀ a : Nat, (exM.M.cp = false) ∧ exM.M.addr < 2 ^ 32 := fun _ => exM_small
  obtain ⟨s, h, hA, hH, hj⟩ := part_a1 u w ok
  obtain ⟨s1, h1, hA1, hH1, hj1, -⟩ := enterX h hA hH k (fun _ => rfl) (op := .insert 511 7) (hok _ _)
  obtain ⟨s2, h2, hA2, hH2, hj2, -⟩ := (opX0 h1 hA1 hH1 k (fun _ => rfl)
    (g := fun _ => Cell.emptyCell) (out := .cont (.act 511 0 Cell.emptyCell)) rfl).1 _ rfl
  obtain ⟨s3, h3, hA3, hH3, hj3, -⟩ := (opX0 h2 hA2 hH2 k (fun _ => rfl)
    (g := src0) (out := .done ⟨some .SUCCESS_IN, some (511, Cell.emptyCell)⟩) rfl).2 _ ⟨true, none⟩ rfl rfl
  obtain ⟨s4, h4, hA4, hH4, hj4, -⟩ := enterX h3 hA3 hH3 k (fun _ => rfl) (op := .insert 1023 8) (hok _ _)
  obtain ⟨s5, h5, hA5, hH5, hj5, -⟩ := (opX0 h4 hA4 hH4 k (fun _ => rfl)
    (g := src0) (out := .cont (.load 512 0)) rfl).1 _ rfl
  exact ⟨s5, h5, hA5, hH5, by rw [hj5, hj4, hj3, hj2, hj1]; exact hj⟩

attribute [local irreducible] jobStart blockSize freshTarget Mapper.resize

/-- Thread 1 begins to grow the table and gets the only block. -/
theorem part_b {u w : Bool} {ok : Op Nat Nat → Prop} {s0 s : DSt Nat Nat Nat Nat} {l : List (Ev Nat (Op Nat Nat) (SRes Nat))}
    {x : UThr Nat Nat} (h15 : Exec (XStep u w ok) s0 l s)
    (hA : At s 0 0 0 (.use ⟨0, 0⟩) (.idle ⟨0, 0⟩) (some (tab0 0 none)) none)
    (hH : Has s (fun _ => exM) x .idle src0 false) (hj : s.jobs 0 = fun _ => none) :
    ∃ s, Exec (XStep u w ok) s0 l s ∧
    At s 0 0 1 (.use ⟨0, 0⟩) (.mg5 (some ⟨0, 0⟩) 0 1 0) (some (tab0 1 (some 1)))
      (some ⟨1, 1, 0, fun _ => false, none, false, false⟩) ∧
    Has s (upd (fun _ => exM) 1 exM2) x .idle src0 false ∧ s.mem 1 = freshTarget exM2 ∧
    s.jobs 0 0 = some (jobStart (exG u) 0 (blockEnd (2 ^ 9) 0)) := by
  have k : ∀ a : Nat, (exM.M.cp = false) ∧ exM.M.addr < 2 ^ 32 := fun _ => exM_small
  obtain ⟨⟨glob, epoch, help, heap, pc, cur⟩, env, mem, torn, jobs, thr⟩ := s
  obtain ⟨a1, a2, a3, a4, a5, a6, a7⟩ := hA
  obtain ⟨b1, b2, b3, b4, b5⟩ := hH
  simp only at a1 a2 a3 a4 a5 a6 a7 b1 b2 b3 b4 b5 hj
  subst a1 a2 a3 b1 b5
  have h16 := h15.silent ⟨.visit (Step.gtOk (t := 1) (h := ⟨0, 0⟩) a5 (Nat.le_refl _))
    (by intro op; show thr 1 ≠ _; rw [b3]; simp), k, fun _ => rfl⟩
  have h17 := h16.silent ⟨.exit (Step.exitGrow (t := 1) (h := ⟨0, 0⟩) rfl) (.inl b3) nofun, k, fun _ => rfl⟩
  have h18 := h17.silent ⟨.make (b := 1) 300 0 (Step.grMake (t := 1) (h := ⟨0, 0⟩) (b := 1) 1 rfl a6 a7)
    rfl exM2_facts.2.2.1.symm, exEnv2_small, fun _ => rfl⟩
  have h19 := h18.silent ⟨.attach (Step.grCas (t := 1) (h := ⟨0, 0⟩) (b := 1) rfl a6 rfl rfl),
    exEnv2_small, fun _ => rfl⟩
  have h20 := h19.silent ⟨.quiet (Step.mgIn (t := 1) rfl), exEnv2_small, fun _ => rfl⟩
  have h21 := h20.silent ⟨.quiet (Step.mgProt (t := 1) rfl rfl), exEnv2_small, fun _ => rfl⟩
  have h22 := h21.silent ⟨.quiet (Step.mgSome (t := 1) (c := 0) (o := tab0 0 (some 1)) rfl rfl nofun), exEnv2_small, fun _ => rfl⟩
  have h23 := h22.silent ⟨.quiet (Step.mgNext (t := 1) (c := 0) (n := 1)
    (o := tab0 0 (some 1)) rfl rfl rfl rfl), exEnv2_small,
    fun _ => rfl⟩
  have h24 := h23.silent ⟨.claim (o := tab0 0 (some 1)) (Step.claim (t := 1) (c := 0) (n := 1)
    (o := tab0 0 (some 1)) rfl rfl (show 0 < 1 by decide)) rfl,
    exEnv2_small, fun _ => rfl⟩
  refine ⟨_, h24, ⟨rfl, rfl, rfl, a4, rfl, rfl, rfl⟩, ⟨rfl, b2, b3, b4, rfl⟩, ?_, ?_⟩
  · show upd mem 1 (freshTarget exM2) 1 = _
    exact upd_same ..
  show upd1 (jobs 0) (0 * blockSize) (some (jobStart (exG u) (0 * blockSize)
    (blockEnd exM.M.addr (0 * blockSize)))) 0 = _
  rw [Nat.zero_mul, upd1_self, exM2_facts.2.2.2.1]

/-- Thread 1 works on its block. -/
theorem blockX {u w : Bool} {ok : Op Nat Nat → Prop} {s0 s : DSt Nat Nat Nat Nat} {l : List (Ev Nat (Op Nat Nat) (SRes Nat))}
    (hX : Exec (XStep u w ok) s0 l s) {glob e help : Nat} {pc0 : PC Nat} {h : Hd Nat} {o0 o1 : Obj Nat}
    (hA : At s glob e help pc0 (.mg5 (some h) 0 1 0) (some o0) (some o1)) {x y : UThr Nat Nat}
    {m m' : MMem Nat Nat} {pc pc' : JobPC Nat Nat}
    (hH : Has s (upd (fun _ => exM) 1 exM2) x y m.src m.torn) (hm : s.mem 1 = m.tgt)
    (hj : s.jobs 0 0 = some pc) (hr : Runs (exG u) 9 0 m pc m' pc') (hw : w = true → m'.torn = false) :
    ∃ s', Exec (XStep u w ok) s0 l s' ∧ At s' glob e help pc0 (.mg5 (some h) 0 1 0) (some o0) (some o1) ∧
      Has s' (upd (fun _ => exM) 1 exM2) x y m'.src m'.torn ∧ s'.mem 1 = m'.tgt ∧
      s'.jobs 0 0 = some pc' := by
  obtain ⟨a1, a2, a3, a4, a5, a6, a7⟩ := hA
  obtain ⟨b1, b2, b3, b4, b5⟩ := hH
  obtain ⟨mem, jobs, g1, g2, g3, g4⟩ := solo_block hr hw s hX a5 a6 a7 b1 hj (by
    obtain ⟨m1, m2, m3⟩ := m
    simp only at b4 b5 hm
    rw [b4, b5, hm])
  exact ⟨_, g1, ⟨a1, a2, a3, a4, a5, a6, a7⟩, ⟨b1, b2, b3, g3, rfl⟩, g4, g2⟩

/-- When the block is finished, thread 1 replaces the table. -/
theorem part_d {u w : Bool} {ok : Op Nat Nat → Prop} {s0 s : DSt Nat Nat Nat Nat} {l : List (Ev Nat (Op Nat Nat) (SRes Nat))}
    (hX : Exec (XStep u w ok) s0 l s) {pc0 : PC Nat} {o1 : Obj Nat} (ho1 : o1.ver = 1)
    (hA : At s 0 0 1 pc0 (.mg5 (some ⟨0, 0⟩) 0 1 0) (some (tab0 1 (some 1))) (some o1)) {x : UThr Nat Nat}
    {src : Tbl Nat Nat} {torn : Bool} (hH : Has s (upd (fun _ => exM) 1 exM2) x .idle src torn)
    {pc : JobPC Nat Nat} (hj : s.jobs 0 0 = some pc) (he : pc.ended = true) (hw : w = true → torn = false) :
    ∃ s' o, Exec (XStep u w ok) s0 l s' ∧ At s' 1 1 0 pc0 (.eg5 ⟨0, 0⟩) (some o) (some o1) ∧
      Has s' (upd (fun _ => exM) 1 exM2) x .idle src torn ∧ s'.mem 1 = s.mem 1 := by
  obtain ⟨⟨glob, epoch, help, heap, pc, cur⟩, env, mem, torn, jobs, thr⟩ := s
  obtain ⟨a1, a2, a3, a4, a5, a6, a7⟩ := hA
  obtain ⟨b1, b2, b3, b4, b5⟩ := hH
  simp only at a1 a2 a3 a4 a5 a6 a7 b1 b2 b3 b4 b5 hj
  subst a1 a2 a3 b1 b5
  have h1 := hX.silent ⟨.done (k := 0) (Step.done (t := 1) a5 a6) (by show PC.block (pc 1) = _; rw [a5]; rfl)
    (by rw [Nat.zero_mul]; exact hj) he, exEnv2_small, hw⟩
  have h2 := h1.silent ⟨.leave (Step.leave (t := 1) (c := 0) (n := 1)
    (o := { tab0 1 (some 1) with fin := upd (fun _ => false) 0 true }) rfl rfl (Nat.le_refl 1)), exEnv2_small, hw⟩
  have h3 := h2.silent ⟨.quiet (Step.mgOut (t := 1) rfl), exEnv2_small, hw⟩
  have h4 := h3.silent ⟨.quiet (Step.mgUn (t := 1) (n := 1) rfl a7), exEnv2_small, hw⟩
  have h5 := h4.silent ⟨.quiet (Step.mgUn2 (t := 1) (n := 1) rfl), exEnv2_small, hw⟩
  have h6 := h5.silent ⟨.quiet (Step.egGo (t := 1) (h := ⟨0, 0⟩) rfl rfl), exEnv2_small, hw⟩
  have h7 := h6.silent ⟨.quiet (Step.egNext (t := 1) (h := ⟨0, 0⟩)
    (o := ⟨0, 1, 2, upd (fun _ => false) 0 true, some 1, false, false⟩) rfl rfl), exEnv2_small, hw⟩
  have h8 := h7.silent ⟨.publish (Step.egCas (t := 1) (h := ⟨0, 0⟩) (n := 1) rfl rfl), exEnv2_small, hw⟩
  have h9 := h8.silent ⟨.switch (Step.egEpoch (t := 1) (h := ⟨0, 0⟩) (n := 1) rfl a7), exEnv2_small, hw⟩
  exact ⟨_, _, h9, ⟨rfl, ho1, rfl, a4, rfl, rfl, a7⟩, ⟨rfl, b2, b3, b4, rfl⟩, rfl⟩

/-- `find` of thread 0, which looks at two slots of the new table. -/
theorem findX {u w : Bool} {ok : Op Nat Nat → Prop} {s0 s : DSt Nat Nat Nat Nat} {l : List (Ev Nat (Op Nat Nat) (SRes Nat))}
    (hX : Exec (XStep u w ok) s0 l s) {pc1 : PC Nat} {o0 : Option (Obj Nat)} {o1 : Obj Nat} (ho1 : o1.ver = 1)
    (hA : At s 1 1 0 (.idle ⟨0, 0⟩) pc1 o0 (some o1)) {src : Tbl Nat Nat} {torn : Bool}
    (hH : Has s (upd (fun _ => exM) 1 exM2) .idle .idle src torn) {T : Tbl Nat Nat}
    (hT : published (s.mem 1) = T) (hw : w = true → torn = false) {r : Ret Nat Nat} {y : SRes Nat}
    (h1 : step exM2 (.find 1023) (.load 1022 0) T = (T, .cont (.load 1023 0)))
    (h2 : step exM2 (.find 1023) (.load 1023 0) T = (T, .done r))
    (hy : Sync.answer (.find 1023) r = some y) (hok : ok (.find 1023)) :
    ∃ s', Exec (XStep u w ok) s0 (l ++ [.call 0 (.find 1023)] ++ [.ret 0 (.find 1023) y]) s' ∧
      s'.p.glob = 1 ∧ s'.p.epoch = 1 ∧ s'.env 1 = exM2 ∧ s'.torn = torn := by
  obtain ⟨⟨glob, epoch, help, heap, pc, cur⟩, env, mem, torn, jobs, thr⟩ := s
  obtain ⟨a1, a2, a3, a4, a5, a6, a7⟩ := hA
  obtain ⟨b1, b2, b3, b4, b5⟩ := hH
  simp only at a1 a2 a3 a4 a5 a6 a7 b1 b2 b3 b4 b5 hT
  subst a1 a2 a3 b1 b5
  have g1 := hX.vis ⟨.call (t := 0) (op := .find 1023) a4 b2 hok, exEnv2_small, hw⟩
  have g2 := g1.silent ⟨.quiet (Step.gtOld (t := 0) (h := ⟨0, 0⟩) a4 (show 0 < 1 by decide)), exEnv2_small, hw⟩
  have g3 := g2.silent ⟨.quiet (Step.unprot (t := 0) (h := ⟨0, 0⟩) rfl), exEnv2_small, hw⟩
  have g4 := g3.silent ⟨.quiet (Step.prot (t := 0) rfl a7), exEnv2_small, hw⟩
  have g5 := g4.silent ⟨.enter (op := .find 1023) (a := 1) (Step.ldUse (t := 0) rfl a7 ho1)
    (setAt_same thr 0 (.pend (.find 1023))), exEnv2_small, hw⟩
  have e : start (upd (fun _ => exM) 1 exM2 1) (.find 1023 : Op Nat Nat) = .load 1022 0 := by
    rw [upd_same, start, ← exM2_facts.2.2.2.2.2.2.2.2.2.2]; rfl
  simp only [e] at g5
  obtain ⟨mem1, m1, m2, g6, -⟩ := opX g5 exEnv2_small hw (t := 0) (h := ⟨1, o1.ver⟩) rfl a7 rfl hT
    (setAt_same (setAt thr 0 (.pend (.find 1023))) 0 _) h1
  have g6 := g6 _ rfl
  obtain ⟨mem2, m3, m4, -, g7⟩ := opX g6 exEnv2_small hw (t := 0) (h := ⟨1, o1.ver⟩) rfl a7 rfl m1
    rfl h2
  have g7 := g7 _ y rfl hy
  have g8 := g7.silent ⟨.exit (Step.exitDone (t := 0) (h := ⟨1, o1.ver⟩) rfl)
    (.inr ⟨.find 1023, y, rfl⟩) nofun, exEnv2_small, hw⟩
  have g9 := g8.vis ⟨.ret (t := 0) (h := ⟨1, o1.ver⟩) (op := .find 1023) (x := y) rfl rfl,
    exEnv2_small, hw⟩
  exact ⟨_, g9, rfl, rfl, rfl, rfl⟩

/-- Thread 0, whose handle still refers to the old table, makes a call and enters the new table. -/
theorem enterNew {u w : Bool} {ok : Op Nat Nat → Prop} {s0 s : DSt Nat Nat Nat Nat}
    {l : List (Ev Nat (Op Nat Nat) (SRes Nat))} (hX : Exec (XStep u w ok) s0 l s) {pc1 : PC Nat}
    {o0 : Option (Obj Nat)} {o1 : Obj Nat} (ho1 : o1.ver = 1)
    (hA : At s 1 1 0 (.idle ⟨0, 0⟩) pc1 o0 (some o1)) {x : UThr Nat Nat} {src : Tbl Nat Nat} {torn : Bool}
    (hH : Has s (upd (fun _ => exM) 1 exM2) .idle x src torn) (hw : w = true → torn = false)
    {op : Op Nat Nat} (hok : ok op) :
    ∃ s' o', Exec (XStep u w ok) s0 (l ++ [.call 0 op]) s' ∧
      At s' 1 1 0 (.use ⟨1, 1⟩) pc1 o' (some o1) ∧
      Has s' (upd (fun _ => exM) 1 exM2) (.busy op (start exM2 op)) x src torn ∧ s'.mem 1 = s.mem 1 := by
  obtain ⟨⟨glob, epoch, help, heap, pc, cur⟩, env, mem, torn, jobs, thr⟩ := s
  obtain ⟨a1, a2, a3, a4, a5, a6, a7⟩ := hA
  obtain ⟨b1, b2, b3, b4, b5⟩ := hH
  simp only at a1 a2 a3 a4 a5 a6 a7 b1 b2 b3 b4 b5
  subst a1 a2 a3 b1 b5
  have g1 := hX.vis ⟨.call (t := 0) (op := op) a4 b2 hok, exEnv2_small, hw⟩
  have g2 := g1.silent ⟨.quiet (Step.gtOld (t := 0) (h := ⟨0, 0⟩) a4 (show 0 < 1 by decide)), exEnv2_small, hw⟩
  have g3 := g2.silent ⟨.quiet (Step.unprot (t := 0) (h := ⟨0, 0⟩) rfl), exEnv2_small, hw⟩
  have g4 := g3.silent ⟨.quiet (Step.prot (t := 0) rfl a7), exEnv2_small, hw⟩
  have g5 := g4.silent ⟨.enter (op := op) (a := 1) (Step.ldUse (t := 0) rfl a7 ho1)
    (setAt_same thr 0 (.pend op)), exEnv2_small, hw⟩
  refine ⟨_, _, g5, ⟨rfl, rfl, rfl, ?_, ?_, rfl, ?_⟩, ⟨rfl, ?_, b3, b4, rfl⟩, rfl⟩
  · show PC.use ⟨1, o1.ver⟩ = _
    rw [ho1]
  · exact a5
  · exact a7
  · show UThr.busy op (start (upd (fun _ => exM) 1 exM2 1) op) = _
    rw [upd_same]

/-- A step of the operation of thread 0 on the new table. -/
theorem opX1 {u w : Bool} {ok : Op Nat Nat → Prop} {s0 s : DSt Nat Nat Nat Nat}
    {l : List (Ev Nat (Op Nat Nat) (SRes Nat))}
    (hX : Exec (XStep u w ok) s0 l s) {glob e help a : Nat} {pc1 : PC Nat} {o0 : Option (Obj Nat)}
    {o1 : Obj Nat} (hA : At s glob e help (.use ⟨1, a⟩) pc1 o0 (some o1)) {env : Nat → Env Nat}
    {x : UThr Nat Nat} {src T : Tbl Nat Nat} {torn : Bool} {op : Op Nat Nat} {pc : Growt.PC Nat Nat}
    (hH : Has s env (.busy op pc) x src torn) (hT : published (s.mem 1) = T)
    (k : ∀ a, (env a).M.cp = false ∧ (env a).M.addr < 2 ^ 32) (hw : w = true → torn = false)
    {g : Tbl Nat Nat} {out : Out Nat Nat} (hst : step (env 1) op pc T = (g, out)) :
    (∀ pc', out = .cont pc' → ∃ s', Exec (XStep u w ok) s0 l s' ∧
      At s' glob e help (.use ⟨1, a⟩) pc1 o0 (some o1) ∧ Has s' env (.busy op pc') x src torn ∧
      published (s'.mem 1) = g) ∧
    (∀ r y, out = .done r → Sync.answer op r = some y → ∃ s', Exec (XStep u w ok) s0 (l ++ [.ret 0 op y]) s' ∧
      At s' glob e help (.idle ⟨1, a⟩) pc1 o0 (some o1) ∧ Has s' env .idle x src torn ∧
      published (s'.mem 1) = g) := by
  obtain ⟨p, env', mem, torn', jobs, thr⟩ := s
  obtain ⟨a1, a2, a3, a4, a5, a6, a7⟩ := hA
  obtain ⟨b1, b2, b3, b4, b5⟩ := hH
  simp only at a1 a2 a3 a4 a5 a6 a7 b1 b2 b3 b4 b5 hT
  subst b1 b5
  obtain ⟨mem', m1, m2, h1, h2⟩ := opX hX k hw (h := ⟨1, a⟩) a4 a7 rfl hT b2 hst
  have m3 : published (mem' 0) = src := by rw [m2 0 Nat.zero_ne_one]; exact b4
  constructor
  · intro pc' ho
    exact ⟨_, h1 pc' ho, ⟨a1, a2, a3, a4, a5, a6, a7⟩, ⟨rfl, rfl, b3, m3, rfl⟩, m1⟩
  · intro r y ho hy
    have h3 := (h2 r y ho hy).silent ⟨.exit (Step.exitDone (t := 0) (h := ⟨1, a⟩) a4)
      (.inr ⟨op, y, setAt_same thr 0 _⟩) nofun, k, hw⟩
    have h4 := h3.vis ⟨.ret (t := 0) (h := ⟨1, a⟩) rfl (setAt_same thr 0 (.fin op y)), k, hw⟩
    exact ⟨_, h4, ⟨a1, a2, a3, rfl, a5, a6, a7⟩, ⟨rfl, rfl, b3, m3, rfl⟩, m1⟩

/-- The history of both executions, up to the answer of the last call. (example, no code) -/
def exHist (y : SRes Nat) : List (Ev Nat (Op Nat Nat) (SRes Nat)) :=
  [.call 0 (.insert 511 7), .ret 0 (.insert 511 7) ⟨true, none⟩,
   .call 0 (.insert 1023 8), .ret 0 (.insert 1023 8) ⟨true, none⟩,
   .call 0 (.find 1023), .ret 0 (.find 1023) y]

theorem _root_.Growt.NoLin.solo {T O R D : Type} [DecidableEq T] {S : Growt.Obj O R D}
    {p : T → Growt.Phase O R} (hp : ∀ j, p j = .idle) {d : D} {h : List (Ev T O R)} {i : T} {o : O} {r : R}
    (hn : ∀ d1, S.legal d o r d1 → NoLin S p d1 h) : NoLin S p d (.call i o :: .ret i o r :: h) := by
  refine NoLin.call (fun _ => ?_) (fun j o' r' d1 hj _ => by rw [hp j] at hj; cases hj)
  refine NoLin.ret (fun h1 => by simp at h1) (fun j o' r' d1 hj hl => ?_)
  have hji : j = i := by
    refine Decidable.byContradiction fun hne => ?_
    rw [setAt_other hne, hp j] at hj
    cases hj
  subst hji
  simp only [setAt_same, Growt.Phase.called.injEq] at hj
  subst hj
  refine NoLin.ret (fun h1 => ?_) (fun k o' r'' d2 hk _ => ?_)
  · simp only [setAt_same, Growt.Phase.effected.injEq] at h1
    obtain ⟨-, rfl⟩ := h1
    have e : setAt (setAt (setAt p j (.called o)) j (.effected o r')) j .idle = p := by
      funext k
      unfold setAt
      split
      · rename_i hk; rw [hk, hp j]
      · rfl
    rw [e]
    exact hn d1 hl
  · exfalso
    by_cases hkj : k = j
    · subst hkj; simp at hk
    · rw [setAt_other hkj, setAt_other hkj, hp k] at hk; cases hk

theorem exHist_not_linearizable : ¬ Linearizable (Sync.growObj true) (exHist ⟨false, none⟩) := by
  apply not_linearizable
  refine NoLin.solo (fun _ => rfl) (fun d1 h1 => ?_)
  refine NoLin.solo (fun _ => rfl) (fun d2 h2 => ?_)
  refine NoLin.solo (fun _ => rfl) (fun d3 h3 => ?_)
  rcases h1 with ⟨h1, -⟩ | ⟨⟨_, _, _, _, e, -⟩, -⟩
  · rcases h2 with ⟨h2, -⟩ | ⟨⟨_, _, _, _, e, -⟩, -⟩
    · rcases h3 with ⟨-, h3, -⟩ | ⟨⟨_, _, _, _, e, -⟩, -⟩
      · subst h1 h2
        exact absurd h3 (by decide)
      · cases e
    · cases e
  · cases e

/-- The insertion of thread 0 while thread 1 migrates. -/
theorem insertX {u w : Bool} {ok : Op Nat Nat → Prop} {s0 s : DSt Nat Nat Nat Nat} {l : List (Ev Nat (Op Nat Nat) (SRes Nat))}
    (hX : Exec (XStep u w ok) s0 l s) {pc1 : PC Nat} {o0 : Obj Nat} {o1 : Option (Obj Nat)}
    (hA : At s 0 0 1 (.use ⟨0, 0⟩) pc1 (some o0) o1)
    (hH : Has s (upd (fun _ => exM) 1 exM2) (.busy (.insert 1023 8) (.load 512 0)) .idle src1 false) :
    ∃ s', Exec (XStep u w ok) s0 (l ++ [.ret 0 (.insert 1023 8) ⟨true, none⟩]) s' ∧
      At s' 0 0 1 (.idle ⟨0, 0⟩) pc1 (some o0) o1 ∧
      Has s' (upd (fun _ => exM) 1 exM2) .idle .idle src2 false ∧ s'.jobs = s.jobs ∧ s'.mem 1 = s.mem 1 := by
  obtain ⟨s2, h2, hA2, hH2, hj2, hm2⟩ := (opX0 hX hA hH exEnv2_small (fun _ => rfl)
    (g := src1) (out := .cont (.act 512 0 Cell.emptyCell)) rfl).1 _ rfl
  obtain ⟨s3, h3, hA3, hH3, hj3, hm3⟩ := (opX0 h2 hA2 hH2 exEnv2_small (fun _ => rfl)
    (g := src2) (out := .done ⟨some .SUCCESS_IN, some (512, Cell.emptyCell)⟩) rfl).2 _ ⟨true, none⟩ rfl rfl
  exact ⟨s3, h3, hA3, hH3, by rw [hj3, hj2], by rw [hm3, hm2]⟩

/-- **C24, not vacuous**: an execution with two handles in which an element is inserted into a table
that is being migrated, and later found in the new table (of 1024 addressable slots, at another
address). -/
theorem C24_not_vacuous : ∃ s : DSt Nat Nat Nat Nat,
    Exec (DStepW false (fun op => op.isSafe)) (DSt.init exM 0) (exHist ⟨true, some 8⟩) s ∧
    s.p.glob = 1 ∧ s.p.epoch = 1 ∧ (s.env 1).M.addr = 1024 := by
  obtain ⟨s, h, hA, hH, hj⟩ := part_a false true (ok := fun op => op.isSafe) (fun _ _ => trivial)
  obtain ⟨s, h, hA, hH, hm, hj⟩ := part_b h hA hH hj
  obtain ⟨s, h, hA, hH, hm, hj⟩ := blockX h hA (m := ⟨src0, freshTarget exM2, false⟩) hH hm hj (job_to_tail false)
    (fun _ => rfl)
  obtain ⟨s', h, hA, hH, hj', hm'⟩ := insertX h hA hH
  obtain ⟨src3, hr⟩ := job_good false
  obtain ⟨s, h, hA, hH, hm, hj⟩ := blockX h hA (m := ⟨src2, tgt1, false⟩) hH (by rw [hm']; exact hm)
    (by rw [hj']; exact hj) hr (fun _ => rfl)
  obtain ⟨s', o, h, hA, hH, hm'⟩ := part_d h rfl hA hH hj rfl (fun _ => rfl)
  obtain ⟨s', h, h1, h2, h3, h4⟩ := findX h rfl hA hH (T := published tgt2) (y := ⟨true, some 8⟩)
    (by rw [hm', hm]) (fun _ => rfl) find_good.1 find_good.2 rfl trivial
  exact ⟨s', h.mono (fun _ _ _ => XStep.stepW), h1, h2, by rw [h3]; exact exM2_facts.1⟩

/-- **C24 is false**: an element that was inserted - with success - into the last run of slots of a table
that is being migrated is lost, if the helper had already loaded its slot and not yet marked it
(`base_linear.hpp:1171-1192`: after the mark failed, the helper goes on with the content loaded before).
One thread makes all the calls, one after the other; the other one migrates. -/
theorem C24_torn_mark_loses_element : ∃ s : DSt Nat Nat Nat Nat,
    Exec (DStep false (fun op => op.isSafe)) (DSt.init exM 0) (exHist ⟨false, none⟩) s ∧
    ¬ Linearizable (Sync.growObj true) (exHist ⟨false, none⟩) := by
  obtain ⟨s, h, hA, hH, hj⟩ := part_a false false (ok := fun op => op.isSafe) (fun _ _ => trivial)
  obtain ⟨s, h, hA, hH, hm, hj⟩ := part_b h hA hH hj
  obtain ⟨s, h, hA, hH, hm, hj⟩ := blockX h hA (m := ⟨src0, freshTarget exM2, false⟩) hH hm hj
    ((job_to_tail false).trans (.one rfl (job_load false))) (fun _ => rfl)
  obtain ⟨s', h, hA, hH, hj', hm'⟩ := insertX h hA hH
  obtain ⟨s, h, hA, hH, hm, hj⟩ := blockX h hA (m := ⟨src2, tgt1, false⟩) hH (by rw [hm']; exact hm)
    (by rw [hj']; exact hj) job_torn nofun
  obtain ⟨s', o, h, hA, hH, hm'⟩ := part_d h rfl hA hH hj rfl nofun
  obtain ⟨s', h, h1, h2, h3, h4⟩ := findX h rfl hA hH (T := published tgt1) (y := ⟨false, none⟩)
    (by rw [hm', hm]) nofun find_torn.1 find_torn.2 rfl trivial
  exact ⟨s', h.mono (fun _ _ _ hs => hs.1), exHist_not_linearizable⟩

/-- An execution in which the mark is torn and the copy is updated, up to the replacement of the table:
the element of key 1023 is in two slots of the new table.  Only insertions are called. -/
theorem dup_run {ok : Op Nat Nat → Prop} (hok : ∀ k d, ok (.insert k d)) :
    ∃ (s : DSt Nat Nat Nat Nat) (o : Obj Nat) (o1 : Obj Nat) (src : Tbl Nat Nat),
    Exec (XStep true false ok) (DSt.init exM 0)
      [.call 0 (.insert 511 7), .ret 0 (.insert 511 7) ⟨true, none⟩,
       .call 0 (.insert 1023 8), .ret 0 (.insert 1023 8) ⟨true, none⟩] s ∧ o1.ver = 1 ∧
    At s 1 1 0 (.idle ⟨0, 0⟩) (.eg5 ⟨0, 0⟩) (some o) (some o1) ∧
    Has s (upd (fun _ => exM) 1 exM2) .idle .idle src true ∧ s.mem 1 = tgt3 := by
  obtain ⟨s, h, hA, hH, hj⟩ := part_a true false hok
  obtain ⟨s, h, hA, hH, hm, hj⟩ := part_b h hA hH hj
  obtain ⟨s, h, hA, hH, hm, hj⟩ := blockX h hA (m := ⟨src0, freshTarget exM2, false⟩) hH hm hj
    ((job_to_tail true).trans (.one rfl (job_load true))) (fun _ => rfl)
  obtain ⟨s', h, hA, hH, hj', hm'⟩ := insertX h hA hH
  obtain ⟨src, hr⟩ := job_dup
  obtain ⟨s, h, hA, hH, hm, hj⟩ := blockX h hA (m := ⟨src2, tgt1, false⟩) hH (by rw [hm']; exact hm)
    (by rw [hj']; exact hj) hr nofun
  obtain ⟨s', o, h, hA, hH, hm'⟩ := part_d h rfl hA hH hj rfl nofun
  exact ⟨s', o, _, src, h, rfl, hA, hH, by rw [hm', hm]⟩

/-- The history of the third execution. (example, no code) -/
def exHist3 : List (Ev Nat (Op Nat Nat) (SRes Nat)) :=
  [.call 0 (.insert 511 7), .ret 0 (.insert 511 7) ⟨true, none⟩,
   .call 0 (.insert 1023 8), .ret 0 (.insert 1023 8) ⟨true, none⟩,
   .call 0 (.erase 1023), .ret 0 (.erase 1023) ⟨true, none⟩,
   .call 0 (.find 1023), .ret 0 (.find 1023) ⟨true, some 8⟩]

theorem exHist3_not_linearizable : ¬ Linearizable (Sync.growObj true) exHist3 := by
  apply not_linearizable
  refine NoLin.solo (fun _ => rfl) (fun d1 h1 => ?_)
  refine NoLin.solo (fun _ => rfl) (fun d2 h2 => ?_)
  refine NoLin.solo (fun _ => rfl) (fun d3 h3 => ?_)
  refine NoLin.solo (fun _ => rfl) (fun d4 h4 => ?_)
  rcases h1 with ⟨h1, -⟩ | ⟨⟨_, _, _, _, e, -⟩, -⟩
  · rcases h2 with ⟨h2, -⟩ | ⟨⟨_, _, _, _, e, -⟩, -⟩
    · rcases h3 with ⟨h3, -⟩ | ⟨⟨_, _, _, _, e, -⟩, -⟩
      · rcases h4 with ⟨-, h4, -⟩ | ⟨⟨_, _, _, _, e, -⟩, -⟩
        · subst h1 h2 h3
          exact absurd h4 (by decide)
        · cases e
      · cases e
    · cases e
  · cases e

/-- **C24 is false** for the other slot kinds too (a failed compare-and-swap updates the expected copy:
`single_word_slot.hpp:352-367`): the element that is inserted between the load and the mark of its slot
is copied twice.  After it was erased - with success - it is found again. -/
theorem C24_torn_mark_duplicates_element : ∃ s : DSt Nat Nat Nat Nat,
    Exec (DStep true (fun op => op.isSafe)) (DSt.init exM 0) exHist3 s ∧
    ¬ Linearizable (Sync.growObj true) exHist3 := by
  obtain ⟨s, o, o1, src, h, ho1, hA, hH, hm⟩ := dup_run (ok := fun op => op.isSafe) (fun _ _ => trivial)
  have k := exEnv2_small
  have hw : false = true → true = false := nofun
  have e1 : upd (fun _ => exM) 1 exM2 1 = exM2 := upd_same ..
  have e2 : ∀ op : Op Nat Nat, op.key = 1023 → start exM2 op = .load 1022 0 := by
    intro op ho; rw [start, ho, ← exM2_facts.2.2.2.2.2.2.2.2.2.2]
  obtain ⟨s, o', h, hA, hH, hm'⟩ := enterNew h ho1 hA hH hw (op := .erase 1023) trivial
  rw [hm] at hm'
  rw [e2 _ rfl] at hH
  obtain ⟨s, h, hA, hH, hT⟩ := (opX1 h hA hH (T := published tgt3) (by rw [hm']) k hw
    (g := published tgt3) (out := .cont (.load 1023 0)) (by rw [e1]; exact erase_dup.1)).1 _ rfl
  obtain ⟨s, h, hA, hH, hT⟩ := (opX1 h hA hH hT k hw
    (g := published tgt3) (out := .cont (.act 1023 0 ⟨false, .live 1023 8⟩)) (by rw [e1]; exact erase_dup.2.1)).1 _ rfl
  obtain ⟨s, h, hA, hH, hT⟩ := (opX1 h hA hH hT k hw
    (g := (published tgt3).set 1023 Cell.deletedCell) (out := .done ⟨some .SUCCESS_DEL, none⟩)
    (by rw [e1]; exact erase_dup.2.2.1)).2 _ ⟨true, none⟩ rfl rfl
  obtain ⟨s', h, hA, hH, hj, hm⟩ := enterX h hA hH k hw (op := .find 1023) trivial
  rw [← hm] at hT
  rw [e1, e2 _ rfl] at hH
  obtain ⟨s, h, hA, hH, hT⟩ := (opX1 h hA hH hT k hw
    (g := (published tgt3).set 1023 Cell.deletedCell) (out := .cont (.load 1023 0)) (by rw [e1]; exact erase_dup.2.2.2.1)).1 _ rfl
  obtain ⟨s, h, hA, hH, hT⟩ := (opX1 h hA hH hT k hw
    (g := (published tgt3).set 1023 Cell.deletedCell) (out := .cont (.load 1024 0)) (by rw [e1]; exact erase_dup.2.2.2.2.1)).1 _ rfl
  obtain ⟨s, h, hA, hH, hT⟩ := (opX1 h hA hH hT k hw
    (g := (published tgt3).set 1023 Cell.deletedCell)
    (out := .done ⟨none, some (1024, ⟨false, .live 1023 8⟩)⟩) (by rw [e1]; exact erase_dup.2.2.2.2.2)).2 _ ⟨true, some 8⟩ rfl rfl
  exact ⟨s, h.mono (fun _ _ _ hs => hs.1), exHist3_not_linearizable⟩

end Async
end Growt
