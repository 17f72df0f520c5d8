import Verif.Props.AsyncRun

/-!
# C20: an execution in which a table is published that was not initialised completely

The table has two blocks.  The helper of the first block has loaded the first slot behind the block, which is
empty; before it marks the slot, two elements are inserted in this slot and in the next one.  The mark fails
and the helper returns, because its copy is empty (`base_linear.hpp:1171-1192`).  The second block begins with
the first empty slot in it, which is behind both elements.  So nobody initialises the two target slots that
belong to the second element.
-/

set_option linter.unusedSectionVars false

namespace Growt
namespace Async

/-- A markable default table with 8192 addressable slots; key `k` has home slot `k`. (example, no code) -/
def exB : Env Nat := ⟨⟨false, false, 9216, 51, 0⟩, fun k => k * 2251799813685248 % 2 ^ 64, true⟩

theorem exB_M : exB.M = Mapper.mk' false false (2 ^ 13) 0 := by
  have h1 : logLoop 8192 = 13 := logLoop_two_pow 13
  simp [exB, Mapper.mk', computeRightShift, h1, lpBuffer]

theorem exB_ok : exB.OK :=
  ⟨⟨13, by rw [exB_M]; exact Mapper.wf_mk' (by omega) (by omega)⟩, fun _ => Nat.mod_lt _ (by decide)⟩

/-- The table to which it grows. (example, no code) -/
def exB2 : Env Nat := { exB with M := exB.M.resize 8000 0 }

theorem exB2_M : exB2.M = ⟨false, false, 17408, 50, 1⟩ := by
  have h1 : logLoop 16384 = 14 := logLoop_two_pow 14
  have h2 : Mapper.fillAboveExact (Mapper.sub64 8000 0) 8192 = true := by decide
  have h3 : (⟨false, false, 9216, 51, 0⟩ : Mapper).addr = 8192 := by decide
  simp [exB2, Mapper.resize, h2, h3, Mapper.mk', computeRightShift, h1, lpBuffer, exB]

theorem exB2_facts : exB2.M.total = 17408 ∧ Sync.blocksOf exB2.M = 4 ∧ exB.M.addr = 2 ^ 13 ∧
    exB.M.total = 9216 ∧ blockEnd (2 ^ 13) 0 = 4096 ∧ blockEnd (2 ^ 13) 4096 = 8192 ∧
    initRange exB2.M 0 4096 = List.range' 0 8192 ∧ initSlot exB2.M 4096 = [8192, 8193] ∧
    initRange exB2.M 4098 8192 = List.range' 8196 8188 ∧ initSlot exB2.M 8192 = [16384, 16385] ∧
    exB2.M.map (exB2.h 4097) = 8194 ∧ Sync.blocksOf exB.M = 2 ∧ exB2.M.cp = false ∧ exB2.M.addr = 16384 := by
  rw [exB2_M]
  refine ⟨by decide, by decide, by decide, by decide, by decide, by decide, ?_, by decide, ?_, by decide,
    by decide, by decide, by decide, by decide⟩
  · rfl
  · rfl


/-- The migration of the example: slots whose failed compare-and-swap leaves the expected copy alone.
(example, no code) -/
def exGB : MEnv Nat := ⟨exB, exB2, false⟩

theorem exB_remap (i : Nat) : exB.M.remap i = i := rfl

/-- The source when the first block is marked. (example, no code) -/
def bsrc1 : Tbl Nat Nat := fun q => if q < 4096 then ⟨true, .empty⟩ else Cell.emptyCell

/-- The target when the first block has been initialised, and the slots that belong to source slot 4096.
(example, no code) -/
def btgt1 : MTbl Nat Nat := fun q =>
  if q < 8194 ∨ (16384 ≤ q ∧ q < 17408) then some Cell.emptyCell else none

/-- The source with the two elements. (example, no code) -/
def bsrc2 : Tbl Nat Nat := bsrc1.set 4096 ⟨false, .live 4096 7⟩

/-- As above. (example, no code) -/
def bsrc3 : Tbl Nat Nat := bsrc2.set 4097 ⟨false, .live 4097 8⟩

/-- The source in the end: the two elements are not marked. (example, no code) -/
def bsrc4 : Tbl Nat Nat := fun q => if 4098 ≤ q ∧ q ≤ 8192 then ⟨true, .empty⟩ else bsrc3 q

/-- The target in the end. (example, no code) -/
def btgt2 : MTbl Nat Nat := fun q =>
  if q < 17408 ∧ q ≠ 8194 ∧ q ≠ 8195 then some Cell.emptyCell else none

attribute [local irreducible] blockEnd

/-- A slot of an empty table is marked. -/
theorem mark_empty_tail {G : MEnv Nat} {k b st i : Nat} (hm : G.src.m = true) (hr : ∀ i, G.src.M.remap i = i)
    {m : MMem Nat Nat} (hi : i < G.src.M.total) (he : m.src i = Cell.emptyCell) :
    Runs G k b m (.load st true i) ⟨m.src.set i ⟨true, .empty⟩, m.tgt, m.torn⟩ (.fin st i) := by
  refine .step rfl (m' := m) (pc' := .mark st true i Cell.emptyCell)
    (by simp only [jobStep, hr]; rw [if_pos hi, he]) ?_
  refine .one rfl ?_
  simp only [jobStep, hr, atomicMark, hm, he]
  rw [if_pos hi]
  simp [process, Cell.emptyCell, Cell.mark, Cell.isEmpty]

/-- The last slot of a block is empty. -/
theorem mark_empty_last {G : MEnv Nat} {k b st i : Nat} {qs : List Nat} (hm : G.src.m = true)
    (hr : ∀ i, G.src.M.remap i = i)
    {m : MMem Nat Nat} (hi : i < G.src.M.total) (he : m.src i = Cell.emptyCell)
    (hl : blockEnd (2 ^ k) b = i + 1) (hq : initSlot G.tgt.M (i + 1) = qs) :
    Runs G k b m (.load st false i) ⟨m.src.set i ⟨true, .empty⟩, m.tgt, m.torn⟩
      (.fill st qs true (i + 1)) := by
  refine .step rfl (m' := m) (pc' := .mark st false i Cell.emptyCell)
    (by simp only [jobStep, hr]; rw [if_pos hi, he]) ?_
  refine .one rfl ?_
  simp only [jobStep, hr, atomicMark, hm, he, hl]
  rw [if_pos hi]
  simp [process, Cell.emptyCell, Cell.mark, Cell.isEmpty, loopHead, hr, hq]

/-- A slot that the search for the start of the cluster has marked is marked again. -/
theorem again_empty {G : MEnv Nat} {k b st i : Nat} (hm : G.src.m = true) (hr : ∀ i, G.src.M.remap i = i)
    {m : MMem Nat Nat} (hi : i < G.src.M.total) (he : m.src i = ⟨true, .empty⟩)
    (hl : i + 1 < blockEnd (2 ^ k) b) : Runs G k b m (.load st false i) m (.load st false (i + 1)) := by
  refine .step rfl (m' := m) (pc' := .mark st false i ⟨true, .empty⟩)
    (by simp only [jobStep, hr]; rw [if_pos hi, he]) ?_
  refine .one rfl ?_
  have e : m.src.set i ⟨true, .empty⟩ = m.src := by
    funext q
    simp only [Tbl.set]
    split
    · next h => rw [h, he]
    · rfl
  simp only [jobStep, hr, atomicMark, hm, he]
  rw [if_pos hi]
  simp [process, Cell.mark, Cell.isEmpty, loopHead, hl, e]

/-- The helper of the first block arrives at the slot behind it and loads it. -/
theorem job0_a : Runs exGB 13 0 ⟨fun _ => Cell.emptyCell, freshTarget exB2, false⟩
    (jobStart exGB 0 (blockEnd (2 ^ 13) 0)) ⟨bsrc1, btgt1, false⟩ (.mark 0 true 4096 Cell.emptyCell) := by
  obtain ⟨f1, f2, f3, f4, f5, f6, f7, f8, f9, f10, f11, f12, f13, f14⟩ := exB2_facts
  have e0 : (jobStart exGB 0 (blockEnd (2 ^ 13) 0) : JobPC Nat Nat) =
      .fill 0 (List.range' 0 8192) false 0 := by
    rw [f5, ← f7]; rfl
  rw [e0]
  refine (fill_runs (G := exGB) _ _ (fun q hq => ?_)).trans ?_
  · show q < exB2.M.total
    rw [List.mem_range'_1] at hq
    omega
  refine (empties_run (G := exGB) rfl exB_remap (by rw [f5]; show 4096 ≤ exB.M.total; omega) 4095 0 _
    (by omega) (fun q _ hq => rfl)).trans ?_
  refine (mark_empty_last (G := exGB) rfl exB_remap (by show 0 + 4095 < exB.M.total; omega) ?_ f5 f8).trans ?_
  · show (if 0 ≤ 0 + 4095 ∧ 0 + 4095 < 0 + 4095 then (⟨true, .empty⟩ : Cell Nat Nat) else Cell.emptyCell) = _
    rw [if_neg (by omega)]
  refine (fill_runs (G := exGB) _ _ (fun q hq => ?_)).trans ?_
  · show q < exB2.M.total
    simp only [List.mem_cons, List.not_mem_nil, or_false] at hq
    omega
  have e1 : Tbl.set (fun q => if 0 ≤ q ∧ q < 0 + 4095 then (⟨true, .empty⟩ : Cell Nat Nat) else Cell.emptyCell)
      (0 + 4095) ⟨true, .empty⟩ = bsrc1 := by
    funext q
    simp only [Tbl.set, bsrc1]
    repeat' split
    all_goals first | rfl | omega
  have e2 : (fun q => if q ∈ [8192, 8193] then some Cell.emptyCell else
      (fun q => if q ∈ List.range' 0 8192 then some (Cell.emptyCell : Cell Nat Nat) else freshTarget exB2 q) q) = btgt1 := by
    funext q
    simp only [btgt1, freshTarget, f1, f13, f14, List.mem_range'_1, List.mem_cons, List.not_mem_nil, or_false,
      true_and]
    by_cases h1 : q = 8192 ∨ q = 8193
    · rw [if_pos h1, if_pos (by omega)]
    · rw [if_neg h1]
      by_cases h2 : 0 ≤ q ∧ q < 0 + 8192
      · rw [if_pos h2, if_pos (by omega)]
      · rw [if_neg h2]
        by_cases h3 : 16384 ≤ q ∧ q < 17408
        · rw [if_pos h3, if_pos (by omega)]
        · rw [if_neg h3, if_neg (by omega)]
  simp only [e1, e2]
  refine .one rfl ?_
  have hq : bsrc1 4096 = Cell.emptyCell := rfl
  simp only [jobStep, exGB, exB_remap, f4, hq]
  rw [if_pos (by decide)]

/-- The mark fails, and the helper returns. -/
theorem job0_b : Runs exGB 13 0 ⟨bsrc3, btgt1, false⟩ (.mark 0 true 4096 Cell.emptyCell)
    ⟨bsrc3, btgt1, true⟩ (.fin 0 4096) := by
  have e : bsrc3.set 4096 ⟨false, .live 4096 7⟩ = bsrc3 := by
    funext q
    simp only [bsrc3, bsrc2, Tbl.set]
    repeat' split
    all_goals first | rfl | omega
  have h : Runs exGB 13 0 ⟨bsrc3, btgt1, false⟩ (.mark 0 true 4096 Cell.emptyCell)
      ⟨bsrc3.set 4096 ⟨false, .live 4096 7⟩, btgt1, true⟩ (.fin 0 4096) := .one rfl rfl
  rw [e] at h
  exact h

/-- The helper of the second block. -/
theorem job1 : Runs exGB 13 4096 ⟨bsrc3, btgt1, true⟩ (jobStart exGB 4096 (blockEnd (2 ^ 13) 4096))
    ⟨bsrc4, btgt2, true⟩ (.fin 4098 8192) := by
  obtain ⟨f1, f2, f3, f4, f5, f6, f7, f8, f9, f10, f11, f12, f13, f14⟩ := exB2_facts
  have e0 : (jobStart exGB 4096 (blockEnd (2 ^ 13) 4096) : JobPC Nat Nat) = .scan 4096 := by
    rw [f6]; rfl
  rw [e0]
  refine .step rfl (m' := ⟨bsrc3, btgt1, true⟩) (pc' := .scan 4097) (by rw [f6]; rfl) ?_
  refine .step rfl (m' := ⟨bsrc3, btgt1, true⟩) (pc' := .scan 4098) (by rw [f6]; rfl) ?_
  refine .step rfl (m' := ⟨bsrc3, btgt1, true⟩) (pc' := .scanMark 4098 Cell.emptyCell) rfl ?_
  refine .step rfl (m' := ⟨bsrc3.set 4098 ⟨true, .empty⟩, btgt1, true⟩)
    (pc' := .fill 4098 (List.range' 8196 8188) false 4098) (by rw [f6, ← f9]; rfl) ?_
  refine (fill_runs (G := exGB) _ _ (fun q hq => ?_)).trans ?_
  · show q < exB2.M.total
    rw [List.mem_range'_1] at hq
    omega
  refine (again_empty (G := exGB) rfl exB_remap (by show 4098 < exB.M.total; omega) rfl (by omega)).trans ?_
  refine (empties_run (G := exGB) rfl exB_remap (by rw [f6]; show 8192 ≤ exB.M.total; omega) 4092 4099 _
    (by omega) (fun q h1 h2 => ?_)).trans ?_
  · show (bsrc3.set 4098 ⟨true, .empty⟩) q = _
    simp only [bsrc3, bsrc2, bsrc1, Tbl.set]
    rw [if_neg (by omega), if_neg (by omega), if_neg (by omega), if_neg (by omega)]
  refine (mark_empty_last (G := exGB) rfl exB_remap (by show 4099 + 4092 < exB.M.total; omega) ?_ f6 f10).trans ?_
  · show (if 4099 ≤ 4099 + 4092 ∧ 4099 + 4092 < 4099 + 4092 then (⟨true, .empty⟩ : Cell Nat Nat) else
      bsrc3.set 4098 ⟨true, .empty⟩ (4099 + 4092)) = _
    rw [if_neg (by omega)]
    rfl
  refine (fill_runs (G := exGB) _ _ (fun q hq => ?_)).trans ?_
  · show q < exB2.M.total
    simp only [List.mem_cons, List.not_mem_nil, or_false] at hq
    omega
  have e1 : Tbl.set (Tbl.set (fun q => if 4099 ≤ q ∧ q < 4099 + 4092 then (⟨true, .empty⟩ : Cell Nat Nat) else
      bsrc3.set 4098 ⟨true, .empty⟩ q) (4099 + 4092) ⟨true, .empty⟩) 8192 ⟨true, .empty⟩ = bsrc4 := by
    funext q
    simp only [Tbl.set, bsrc4]
    by_cases h1 : q = 8192
    · rw [if_pos h1, if_pos (by omega)]
    · rw [if_neg h1]
      by_cases h2 : q = 4099 + 4092
      · rw [if_pos h2, if_pos (by omega)]
      · rw [if_neg h2]
        by_cases h3 : 4099 ≤ q ∧ q < 4099 + 4092
        · rw [if_pos h3, if_pos (by omega)]
        · rw [if_neg h3]
          by_cases h4 : q = 4098
          · rw [if_pos h4, if_pos (by omega)]
          · rw [if_neg h4, if_neg (by omega)]
  have e2 : (fun q => if q ∈ [16384, 16385] then some Cell.emptyCell else
      (fun q => if q ∈ List.range' 8196 8188 then some (Cell.emptyCell : Cell Nat Nat) else btgt1 q) q) = btgt2 := by
    funext q
    simp only [btgt1, btgt2, List.mem_range'_1, List.mem_cons, List.not_mem_nil, or_false]
    by_cases h1 : q = 16384 ∨ q = 16385
    · rw [if_pos h1, if_pos (by omega)]
    · rw [if_neg h1]
      by_cases h2 : 8196 ≤ q ∧ q < 8196 + 8188
      · rw [if_pos h2, if_pos (by omega)]
      · rw [if_neg h2]
        by_cases h3 : q < 8194 ∨ (16384 ≤ q ∧ q < 17408)
        · rw [if_pos h3, if_pos (by omega)]
        · rw [if_neg h3, if_neg (by omega)]
  have h := mark_empty_tail (G := exGB) (k := 13) (b := 4096) (st := 4098) (i := 8192) rfl exB_remap
    (m := ⟨Tbl.set (fun q => if 4099 ≤ q ∧ q < 4099 + 4092 then (⟨true, .empty⟩ : Cell Nat Nat) else
      bsrc3.set 4098 ⟨true, .empty⟩ q) (4099 + 4092) ⟨true, .empty⟩, btgt2, true⟩)
    (by show 8192 < exB.M.total; omega) (by
      simp only [Tbl.set]
      rw [if_neg (by omega), if_neg (by omega), if_neg (by omega)]
      rfl)
  simp only [e1] at h
  simp only [e2]
  exact h

/-! ### The execution -/

theorem exB_small : exB.M.cp = false ∧ exB.M.addr < 2 ^ 32 := by decide

theorem exEnvB_small (a : Nat) : ((upd (fun _ => exB) 1 exB2 a).M.cp = false) ∧
    (upd (fun _ => exB) 1 exB2 a).M.addr < 2 ^ 32 := by
  obtain ⟨-, -, -, -, -, -, -, -, -, -, -, -, f13, f14⟩ := exB2_facts
  simp only [upd]
  split
  · exact ⟨f13, by rw [f14]; decide⟩
  · exact exB_small

/-- The helper alone at block `bk`. -/
theorem solo_blockB {ok : Op Nat Nat → Prop} {s0 : DSt Nat Nat Nat Nat} {t bk : Nat} {h : Hd Nat}
    {o o' : Obj Nat} {l : List (Ev Nat (Op Nat Nat) (SRes Nat))} {m m' : MMem Nat Nat}
    {pc pc' : JobPC Nat Nat} (hr : Runs exGB 13 (bk * blockSize) m pc m' pc') :
    ∀ s : DSt Nat Nat Nat Nat, Exec (XStep false false ok) s0 l s →
    s.p.pc t = .mg5 (some h) 0 1 bk → s.p.heap 0 = some o → s.p.heap 1 = some o' →
    s.env = upd (fun _ => exB) 1 exB2 → s.jobs 0 (bk * blockSize) = some pc →
    m = ⟨published (s.mem 0), s.mem 1, s.torn⟩ →
    ∃ (mem : Nat → MTbl Nat Nat) (jobs : Nat → Nat → Option (JobPC Nat Nat)),
      Exec (XStep false false ok) s0 l { s with mem := mem, torn := m'.torn, jobs := jobs } ∧
      jobs 0 (bk * blockSize) = some pc' ∧ published (mem 0) = m'.src ∧ mem 1 = m'.tgt := by
  induction hr with
  | refl m pc =>
    intro s hX _ _ _ _ hj hm
    subst hm
    exact ⟨s.mem, s.jobs, hX, hj, rfl, rfl⟩
  | @step m m1 m2 pc pc1 pc2 he hs hrest ih =>
    intro s hX hp ho ho' henv hj hm
    subst hm
    obtain ⟨p, env, mem, torn, jobs, thr⟩ := s
    simp only at hp ho ho' henv hj hs
    subst henv
    have h1 := hX.silent ⟨.work (k := bk) (pc := pc) (pc' := pc1) (m := m1) (Step.work hp ho ho')
      (by rw [hp]; rfl) hj he
      (by
        show jobStep exGB (blockEnd exB.M.addr (bk * blockSize)) _ _ = _
        rw [exB2_facts.2.2.1]
        exact hs), exEnvB_small, nofun⟩
    have e : published (upd (upd mem 0 (Sync.store (mem 0) m1.src)) 1 m1.tgt 0) = m1.src := by
      simp [upd, Sync.published_store]
    obtain ⟨mem', jobs', h2, h3, h4, h5⟩ := ih _ h1 hp ho ho' rfl
      (by simp only [upd_same]; exact upd1_self ..) (by
      show m1 = MMem.mk (published (upd (upd mem 0 (Sync.store (mem 0) m1.src)) 1 m1.tgt 0))
        (upd (upd mem 0 (Sync.store (mem 0) m1.src)) 1 m1.tgt 1) m1.torn
      rw [e]; simp [upd])
    exact ⟨mem', jobs', h2, h3, h4, h5⟩

/-- Thread 1 works on its block. -/
theorem blockB {ok : Op Nat Nat → Prop} {s0 s : DSt Nat Nat Nat Nat} {l : List (Ev Nat (Op Nat Nat) (SRes Nat))}
    (hX : Exec (XStep false false ok) s0 l s) {glob e help bk : Nat} {pc0 : PC Nat} {h : Hd Nat} {o0 o1 : Obj Nat}
    (hA : At s glob e help pc0 (.mg5 (some h) 0 1 bk) (some o0) (some o1)) {x y : UThr Nat Nat}
    {m m' : MMem Nat Nat} {pc pc' : JobPC Nat Nat}
    (hH : Has s (upd (fun _ => exB) 1 exB2) x y m.src m.torn) (hm : s.mem 1 = m.tgt)
    (hj : s.jobs 0 (bk * blockSize) = some pc) (hr : Runs exGB 13 (bk * blockSize) m pc m' pc') :
    ∃ s', Exec (XStep false false ok) s0 l s' ∧
      At s' glob e help pc0 (.mg5 (some h) 0 1 bk) (some o0) (some o1) ∧
      Has s' (upd (fun _ => exB) 1 exB2) x y m'.src m'.torn ∧ s'.mem 1 = m'.tgt ∧
      s'.jobs 0 (bk * blockSize) = some pc' := by
  obtain ⟨a1, a2, a3, a4, a5, a6, a7⟩ := hA
  obtain ⟨b1, b2, b3, b4, b5⟩ := hH
  obtain ⟨mem, jobs, g1, g2, g3, g4⟩ := solo_blockB hr s hX a5 a6 a7 b1 hj (by
    obtain ⟨m1, m2, m3⟩ := m
    simp only at b4 b5 hm
    rw [b4, b5, hm])
  exact ⟨_, g1, ⟨a1, a2, a3, a4, a5, a6, a7⟩, ⟨b1, b2, b3, g3, rfl⟩, g4, g2⟩

/-- The first table. (example, no code) -/
def tabB (claimed : Nat) (fin : Nat → Bool) (next : Option Nat) : Obj Nat :=
  ⟨0, 2, claimed, fin, next, false, false⟩

/-- Two handles are created. -/
theorem partB_a (ok : Op Nat Nat → Prop) : ∃ s, Exec (XStep false false ok) (DSt.init exB 0) [] s ∧
    At s 0 0 0 (.idle ⟨0, 0⟩) (.idle ⟨0, 0⟩) (some (tabB 0 (fun _ => false) none)) none ∧
    Has s (fun _ => exB) .idle .idle (fun _ => Cell.emptyCell) false ∧ s.jobs 0 = fun _ => none := by
  have k : ∀ a : Nat, (exB.M.cp = false) ∧ exB.M.addr < 2 ^ 32 := fun _ => exB_small
  have h0 : Exec (XStep false false ok) (DSt.init exB 0) [] (DSt.init exB 0) := .init
  have h1 := h0.silent ⟨.quiet (Step.create (t := 0) rfl), k, fun _ => rfl⟩
  have h2 := h1.silent ⟨.quiet (Step.prot (t := 0) rfl rfl), k, fun _ => rfl⟩
  have h3 := h2.silent ⟨.quiet (Step.ldDone (t := 0) rfl rfl rfl (by decide)), k, fun _ => rfl⟩
  have h4 := h3.silent ⟨.quiet (Step.create (t := 1) rfl), k, fun _ => rfl⟩
  have h5 := h4.silent ⟨.quiet (Step.prot (t := 1) rfl rfl), k, fun _ => rfl⟩
  have h6 := h5.silent ⟨.quiet (Step.ldDone (t := 1) rfl rfl rfl (by decide)), k, fun _ => rfl⟩
  refine ⟨_, h6, ⟨rfl, rfl, rfl, rfl, rfl, ?_, rfl⟩, ⟨rfl, rfl, rfl, ?_, rfl⟩, rfl⟩
  · obtain ⟨-, -, -, -, -, -, -, -, -, -, -, f12, -⟩ := exB2_facts
    unfold tabB; rw [← f12]; rfl
  · funext q
    show (if q < exB.M.total then some Cell.emptyCell else none).getD _ = _
    split <;> rfl

attribute [local irreducible] jobStart blockSize freshTarget Mapper.resize

/-- Thread 1 begins to grow the table and gets the first block. -/
theorem partB_b {ok : Op Nat Nat → Prop} {s0 s : DSt Nat Nat Nat Nat} {l : List (Ev Nat (Op Nat Nat) (SRes Nat))}
    {pc0 : PC Nat} {x : UThr Nat Nat} {src : Tbl Nat Nat} (h15 : Exec (XStep false false ok) s0 l s)
    (hA : At s 0 0 0 pc0 (.idle ⟨0, 0⟩) (some (tabB 0 (fun _ => false) none)) none)
    (hH : Has s (fun _ => exB) x .idle src false) (hj : s.jobs 0 = fun _ => none) :
    ∃ s, Exec (XStep false false ok) s0 l s ∧
    At s 0 0 1 pc0 (.mg5 (some ⟨0, 0⟩) 0 1 0) (some (tabB 1 (fun _ => false) (some 1)))
      (some ⟨1, 4, 0, fun _ => false, none, false, false⟩) ∧
    Has s (upd (fun _ => exB) 1 exB2) x .idle src false ∧ s.mem 1 = freshTarget exB2 ∧
    s.jobs 0 (0 * blockSize) = some (jobStart exGB 0 (blockEnd (2 ^ 13) 0)) := by
  have k : ∀ a : Nat, (exB.M.cp = false) ∧ exB.M.addr < 2 ^ 32 := fun _ => exB_small
  obtain ⟨⟨glob, epoch, help, heap, pc, cur⟩, env, mem, torn, jobs, thr⟩ := s
  obtain ⟨a1, a2, a3, a4, a5, a6, a7⟩ := hA
  obtain ⟨b1, b2, b3, b4, b5⟩ := hH
  simp only at a1 a2 a3 a4 a5 a6 a7 b1 b2 b3 b4 b5 hj
  subst a1 a2 a3 b1 b5
  have h16 := h15.silent ⟨.visit (Step.gtOk (t := 1) (h := ⟨0, 0⟩) a5 (Nat.le_refl _))
    (by intro op; show thr 1 ≠ _; rw [b3]; simp), k, fun _ => rfl⟩
  have h17 := h16.silent ⟨.exit (Step.exitGrow (t := 1) (h := ⟨0, 0⟩) rfl) (.inl b3) nofun, k, fun _ => rfl⟩
  have h18 := h17.silent ⟨.make (b := 1) 8000 0 (Step.grMake (t := 1) (h := ⟨0, 0⟩) (b := 1) 4 rfl a6 a7)
    rfl exB2_facts.2.1.symm, exEnvB_small, fun _ => rfl⟩
  have h19 := h18.silent ⟨.attach (Step.grCas (t := 1) (h := ⟨0, 0⟩) (b := 1) rfl a6 rfl rfl),
    exEnvB_small, fun _ => rfl⟩
  have h20 := h19.silent ⟨.quiet (Step.mgIn (t := 1) rfl), exEnvB_small, fun _ => rfl⟩
  have h21 := h20.silent ⟨.quiet (Step.mgProt (t := 1) rfl rfl), exEnvB_small, fun _ => rfl⟩
  have h22 := h21.silent ⟨.quiet (Step.mgSome (t := 1) (c := 0) (o := tabB 0 (fun _ => false) (some 1)) rfl rfl nofun),
    exEnvB_small, fun _ => rfl⟩
  have h23 := h22.silent ⟨.quiet (Step.mgNext (t := 1) (c := 0) (n := 1)
    (o := tabB 0 (fun _ => false) (some 1)) rfl rfl rfl rfl), exEnvB_small,
    fun _ => rfl⟩
  have h24 := h23.silent ⟨.claim (o := tabB 0 (fun _ => false) (some 1)) (Step.claim (t := 1) (c := 0) (n := 1)
    (o := tabB 0 (fun _ => false) (some 1)) rfl rfl (show 0 < 2 by decide)) rfl,
    exEnvB_small, fun _ => rfl⟩
  refine ⟨_, h24, ⟨rfl, rfl, rfl, a4, rfl, rfl, rfl⟩, ⟨rfl, b2, b3, b4, rfl⟩, ?_, ?_⟩
  · show upd mem 1 (freshTarget exB2) 1 = _
    exact upd_same ..
  show upd1 (jobs 0) (0 * blockSize) (some (jobStart exGB (0 * blockSize)
    (blockEnd exB.M.addr (0 * blockSize)))) (0 * blockSize) = _
  rw [upd1_self, exB2_facts.2.2.1, Nat.zero_mul]

/-- Thread 1 finishes the first block and gets the second one. -/
theorem partB_c {ok : Op Nat Nat → Prop} {s0 s : DSt Nat Nat Nat Nat} {l : List (Ev Nat (Op Nat Nat) (SRes Nat))}
    (hX : Exec (XStep false false ok) s0 l s) {pc0 : PC Nat} {o1 : Obj Nat}
    (hA : At s 0 0 1 pc0 (.mg5 (some ⟨0, 0⟩) 0 1 0) (some (tabB 1 (fun _ => false) (some 1))) (some o1))
    {x : UThr Nat Nat} {src : Tbl Nat Nat} {torn : Bool}
    (hH : Has s (upd (fun _ => exB) 1 exB2) x .idle src torn)
    {pc : JobPC Nat Nat} (hj : s.jobs 0 (0 * blockSize) = some pc) (he : pc.ended = true) :
    ∃ s', Exec (XStep false false ok) s0 l s' ∧
      At s' 0 0 1 pc0 (.mg5 (some ⟨0, 0⟩) 0 1 1)
        (some (tabB 2 (upd (fun _ => false) 0 true) (some 1))) (some o1) ∧
      Has s' (upd (fun _ => exB) 1 exB2) x .idle src torn ∧ s'.mem 1 = s.mem 1 ∧
      s'.jobs 0 (1 * blockSize) = some (jobStart exGB (1 * blockSize) (blockEnd (2 ^ 13) (1 * blockSize))) := by
  obtain ⟨⟨glob, epoch, help, heap, pc, cur⟩, env, mem, torn, jobs, thr⟩ := s
  obtain ⟨a1, a2, a3, a4, a5, a6, a7⟩ := hA
  obtain ⟨b1, b2, b3, b4, b5⟩ := hH
  simp only at a1 a2 a3 a4 a5 a6 a7 b1 b2 b3 b4 b5 hj
  subst a1 a2 a3 b1 b5
  have h1 := hX.silent ⟨.done (k := 0) (Step.done (t := 1) a5 a6) (by show PC.block (pc 1) = _; rw [a5]; rfl)
    hj he, exEnvB_small, nofun⟩
  have h2 := h1.silent ⟨.claim (o := tabB 1 (upd (fun _ => false) 0 true) (some 1)) (Step.claim (t := 1) (c := 0) (n := 1)
    (o := tabB 1 (upd (fun _ => false) 0 true) (some 1)) rfl rfl (show 1 < 2 by decide)) rfl,
    exEnvB_small, nofun⟩
  refine ⟨_, h2, ⟨rfl, rfl, rfl, a4, rfl, rfl, a7⟩, ⟨rfl, b2, b3, b4, rfl⟩, rfl, ?_⟩
  show upd1 (jobs 0) (1 * blockSize) (some (jobStart exGB (1 * blockSize)
    (blockEnd exB.M.addr (1 * blockSize)))) (1 * blockSize) = _
  rw [upd1_self, exB2_facts.2.2.1]

/-- When the second block is finished, thread 1 replaces the table. -/
theorem partB_d {ok : Op Nat Nat → Prop} {s0 s : DSt Nat Nat Nat Nat} {l : List (Ev Nat (Op Nat Nat) (SRes Nat))}
    (hX : Exec (XStep false false ok) s0 l s) {pc0 : PC Nat} {o1 : Obj Nat} (ho1 : o1.ver = 1) {fin : Nat → Bool}
    (hA : At s 0 0 1 pc0 (.mg5 (some ⟨0, 0⟩) 0 1 1) (some (tabB 2 fin (some 1))) (some o1)) {x : UThr Nat Nat}
    {src : Tbl Nat Nat} {torn : Bool} (hH : Has s (upd (fun _ => exB) 1 exB2) x .idle src torn)
    {pc : JobPC Nat Nat} (hj : s.jobs 0 (1 * blockSize) = some pc) (he : pc.ended = true) :
    ∃ s' o, Exec (XStep false false ok) s0 l s' ∧ At s' 1 1 0 pc0 (.eg5 ⟨0, 0⟩) (some o) (some o1) ∧
      Has s' (upd (fun _ => exB) 1 exB2) x .idle src torn ∧ s'.mem 1 = s.mem 1 := by
  obtain ⟨⟨glob, epoch, help, heap, pc, cur⟩, env, mem, torn, jobs, thr⟩ := s
  obtain ⟨a1, a2, a3, a4, a5, a6, a7⟩ := hA
  obtain ⟨b1, b2, b3, b4, b5⟩ := hH
  simp only at a1 a2 a3 a4 a5 a6 a7 b1 b2 b3 b4 b5 hj
  subst a1 a2 a3 b1 b5
  have h1 := hX.silent ⟨.done (k := 1) (Step.done (t := 1) a5 a6) (by show PC.block (pc 1) = _; rw [a5]; rfl)
    hj he, exEnvB_small, nofun⟩
  have h2 := h1.silent ⟨.leave (Step.leave (t := 1) (c := 0) (n := 1)
    (o := tabB 2 (upd fin 1 true) (some 1)) rfl rfl (Nat.le_refl 2)), exEnvB_small, nofun⟩
  have h3 := h2.silent ⟨.quiet (Step.mgOut (t := 1) rfl), exEnvB_small, nofun⟩
  have h4 := h3.silent ⟨.quiet (Step.mgUn (t := 1) (n := 1) rfl a7), exEnvB_small, nofun⟩
  have h5 := h4.silent ⟨.quiet (Step.mgUn2 (t := 1) (n := 1) rfl), exEnvB_small, nofun⟩
  have h6 := h5.silent ⟨.quiet (Step.egGo (t := 1) (h := ⟨0, 0⟩) rfl rfl), exEnvB_small, nofun⟩
  have h7 := h6.silent ⟨.quiet (Step.egNext (t := 1) (h := ⟨0, 0⟩)
    (o := ⟨0, 2, 3, upd fin 1 true, some 1, false, false⟩) rfl rfl), exEnvB_small, nofun⟩
  have h8 := h7.silent ⟨.publish (Step.egCas (t := 1) (h := ⟨0, 0⟩) (n := 1) rfl rfl), exEnvB_small, nofun⟩
  have h9 := h8.silent ⟨.switch (Step.egEpoch (t := 1) (h := ⟨0, 0⟩) (n := 1) rfl a7), exEnvB_small, nofun⟩
  exact ⟨_, _, h9, ⟨rfl, ho1, rfl, a4, rfl, rfl, a7⟩, ⟨rfl, b2, b3, b4, rfl⟩, rfl⟩

/-- Thread 0, whose handle still refers to the old table, makes a call and enters the new table. -/
theorem enterNewB {ok : Op Nat Nat → Prop} {s0 s : DSt Nat Nat Nat Nat}
    {l : List (Ev Nat (Op Nat Nat) (SRes Nat))} (hX : Exec (XStep false false ok) s0 l s) {pc1 : PC Nat}
    {o0 : Option (Obj Nat)} {o1 : Obj Nat} (ho1 : o1.ver = 1)
    (hA : At s 1 1 0 (.idle ⟨0, 0⟩) pc1 o0 (some o1)) {x : UThr Nat Nat} {src : Tbl Nat Nat} {torn : Bool}
    (hH : Has s (upd (fun _ => exB) 1 exB2) .idle x src torn)
    {op : Op Nat Nat} (hok : ok op) :
    ∃ s' o', Exec (XStep false false ok) s0 (l ++ [.call 0 op]) s' ∧
      At s' 1 1 0 (.use ⟨1, 1⟩) pc1 o' (some o1) ∧
      Has s' (upd (fun _ => exB) 1 exB2) (.busy op (start exB2 op)) x src torn ∧ s'.mem 1 = s.mem 1 := by
  obtain ⟨⟨glob, epoch, help, heap, pc, cur⟩, env, mem, torn, jobs, thr⟩ := s
  obtain ⟨a1, a2, a3, a4, a5, a6, a7⟩ := hA
  obtain ⟨b1, b2, b3, b4, b5⟩ := hH
  simp only at a1 a2 a3 a4 a5 a6 a7 b1 b2 b3 b4 b5
  subst a1 a2 a3 b1 b5
  have g1 := hX.vis ⟨.call (t := 0) (op := op) a4 b2 hok, exEnvB_small, nofun⟩
  have g2 := g1.silent ⟨.quiet (Step.gtOld (t := 0) (h := ⟨0, 0⟩) a4 (show 0 < 1 by decide)), exEnvB_small, nofun⟩
  have g3 := g2.silent ⟨.quiet (Step.unprot (t := 0) (h := ⟨0, 0⟩) rfl), exEnvB_small, nofun⟩
  have g4 := g3.silent ⟨.quiet (Step.prot (t := 0) rfl a7), exEnvB_small, nofun⟩
  have g5 := g4.silent ⟨.enter (op := op) (a := 1) (Step.ldUse (t := 0) rfl a7 ho1)
    (setAt_same thr 0 (.pend op)), exEnvB_small, nofun⟩
  refine ⟨_, _, g5, ⟨rfl, rfl, rfl, ?_, ?_, rfl, ?_⟩, ⟨rfl, ?_, b3, b4, rfl⟩, rfl⟩
  · show PC.use ⟨1, o1.ver⟩ = _
    rw [ho1]
  · exact a5
  · exact a7
  · show UThr.busy op (start (upd (fun _ => exB) 1 exB2 1) op) = _
    rw [upd_same]

/-- `insert(4096, 7)` and `insert(4097, 8)` of thread 0 while thread 1 migrates. -/
theorem insertsB {ok : Op Nat Nat → Prop} {s0 s : DSt Nat Nat Nat Nat} {l : List (Ev Nat (Op Nat Nat) (SRes Nat))}
    (hX : Exec (XStep false false ok) s0 l s) (hok : ∀ k d, ok (.insert k d))
    {pc1 : PC Nat} {o0 : Obj Nat} {o1 : Option (Obj Nat)}
    (hA : At s 0 0 1 (.idle ⟨0, 0⟩) pc1 (some o0) o1)
    (hH : Has s (upd (fun _ => exB) 1 exB2) .idle .idle bsrc1 false) :
    ∃ s', Exec (XStep false false ok) s0 (l ++ [.call 0 (.insert 4096 7)] ++
        [.ret 0 (.insert 4096 7) ⟨true, none⟩] ++ [.call 0 (.insert 4097 8)] ++
        [.ret 0 (.insert 4097 8) ⟨true, none⟩]) s' ∧
      At s' 0 0 1 (.idle ⟨0, 0⟩) pc1 (some o0) o1 ∧
      Has s' (upd (fun _ => exB) 1 exB2) .idle .idle bsrc3 false ∧ s'.jobs = s.jobs ∧ s'.mem 1 = s.mem 1 := by
  have e1 : start (upd (fun _ => exB) 1 exB2 0) (.insert 4096 7 : Op Nat Nat) = .load 4096 0 := rfl
  have e2 : start (upd (fun _ => exB) 1 exB2 0) (.insert 4097 8 : Op Nat Nat) = .load 4097 0 := rfl
  obtain ⟨s1, h1, hA1, hH1, hj1, hm1⟩ := enterX hX hA hH exEnvB_small nofun (op := .insert 4096 7) (hok _ _)
  rw [e1] at hH1
  obtain ⟨s2, h2, hA2, hH2, hj2, hm2⟩ := (opX0 h1 hA1 hH1 exEnvB_small nofun
    (g := bsrc1) (out := .cont (.act 4096 0 Cell.emptyCell)) rfl).1 _ rfl
  obtain ⟨s3, h3, hA3, hH3, hj3, hm3⟩ := (opX0 h2 hA2 hH2 exEnvB_small nofun
    (g := bsrc2) (out := .done ⟨some .SUCCESS_IN, some (4096, Cell.emptyCell)⟩) rfl).2 _ ⟨true, none⟩ rfl rfl
  obtain ⟨s4, h4, hA4, hH4, hj4, hm4⟩ := enterX h3 hA3 hH3 exEnvB_small nofun (op := .insert 4097 8) (hok _ _)
  rw [e2] at hH4
  obtain ⟨s5, h5, hA5, hH5, hj5, hm5⟩ := (opX0 h4 hA4 hH4 exEnvB_small nofun
    (g := bsrc2) (out := .cont (.act 4097 0 Cell.emptyCell)) rfl).1 _ rfl
  obtain ⟨s6, h6, hA6, hH6, hj6, hm6⟩ := (opX0 h5 hA5 hH5 exEnvB_small nofun
    (g := bsrc3) (out := .done ⟨some .SUCCESS_IN, some (4097, Cell.emptyCell)⟩) rfl).2 _ ⟨true, none⟩ rfl rfl
  exact ⟨s6, h6, hA6, hH6, by rw [hj6, hj5, hj4, hj3, hj2, hj1], by rw [hm6, hm5, hm4, hm3, hm2, hm1]⟩

/-- **C20 is false**: there is an execution at the end of which a slot of the table that all handles use is
still in the state that `malloc` left it in, and a lookup is about to read it
(`base_linear.hpp:890-893`). The table is new and has `2^13` addressable slots of 16 bytes. One thread makes
all the calls, one after the other: it inserts two elements during the migration, with success, and then
looks for one of them. The other thread migrates, alone. -/
theorem C20_torn_mark_leaves_uninitialised : ∃ s : DSt Nat Nat Nat Nat,
    Exec (DStep false (fun op => op.isSafe)) (DSt.init exB 0)
      [.call 0 (.insert 4096 7), .ret 0 (.insert 4096 7) ⟨true, none⟩,
       .call 0 (.insert 4097 8), .ret 0 (.insert 4097 8) ⟨true, none⟩, .call 0 (.find 4097)] s ∧
    s.p.glob = 1 ∧ s.p.epoch = 1 ∧ s.p.nHelper = 0 ∧ 8194 < (s.env 1).M.total ∧ s.mem 1 8194 = none ∧
    s.p.pc 0 = .use ⟨1, 1⟩ ∧ s.thr 0 = .busy (.find 4097) (.load 8194 0) := by
  have z : (0 : Nat) * blockSize = 0 := Nat.zero_mul _
  have z1 : (1 : Nat) * blockSize = 4096 := by unfold blockSize; rfl
  obtain ⟨s, h, hA, hH, hj⟩ := partB_a (fun op => op.isSafe)
  obtain ⟨s, h, hA, hH, hm, hj⟩ := partB_b h hA hH hj
  obtain ⟨s, h, hA, hH, hm, hj⟩ := blockB h hA (m := ⟨fun _ => Cell.emptyCell, freshTarget exB2, false⟩) hH hm hj
    (by rw [z]; exact job0_a)
  obtain ⟨s', h, hA, hH, hj', hm'⟩ := insertsB h (fun _ _ => trivial) hA hH
  obtain ⟨s, h, hA, hH, hm, hj⟩ := blockB h hA (m := ⟨bsrc3, btgt1, false⟩) hH (by rw [hm']; exact hm)
    (by rw [hj']; exact hj) (by rw [z]; exact job0_b)
  obtain ⟨s', h, hA, hH, hm', hj⟩ := partB_c h hA hH hj rfl
  obtain ⟨s, h, hA, hH, hm, hj⟩ := blockB h hA (m := ⟨bsrc3, btgt1, true⟩) hH (by rw [hm']; exact hm) hj
    (by rw [z1]; exact job1)
  obtain ⟨s', o, h, hA, hH, hm'⟩ := partB_d h rfl hA hH hj rfl
  obtain ⟨s, o', h, hA, hH, hm''⟩ := enterNewB h rfl hA hH (op := .find 4097) trivial
  have e : start exB2 (.find 4097 : Op Nat Nat) = .load 8194 0 := by
    rw [start, ← exB2_facts.2.2.2.2.2.2.2.2.2.2.1]; rfl
  refine ⟨s, h.mono (fun _ _ _ hx => hx.1), hA.glob, hA.epoch, hA.help, ?_, ?_, hA.pc0, ?_⟩
  · rw [hH.env, upd_same, exB2_facts.1]; decide
  · rw [hm'', hm', hm]; rfl
  · rw [hH.thr0, e]

end Async
end Growt
