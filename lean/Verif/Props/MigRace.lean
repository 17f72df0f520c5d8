import Verif.MigRace
import Verif.Props.Migrate

/-!
# Do the helpers of a migration race on the new table? (C63)
-/

set_option linter.unusedSectionVars false

namespace Growt

section
variable {T K V : Type} [DecidableEq T] [DecidableEq K] [DecidableEq V] [Inhabited V]

/-- **C63 (part).**  Of two different jobs of a migration - at the same time or one after the other - only their
initialisations can concern the same slot of the new table, and such a slot never gets an element: everything else
that a job does with a slot of the new table (searching for a free slot, storing an element) it does alone.  So the
contents of the new table do not depend on the order in which the plain accesses of different threads take effect.
Any number of helpers, any interleaving, the source being modified meanwhile.

Missing (hence `_partial`): the initialisations do race, see `C63_initialisations_race`; executions with a torn
mark (C24). -/
theorem C63_slots_have_one_user_partial {G : MEnv K} (hG : G.OK) {t : Tbl K V} (hI : Inv G.src t) (hm : NoMarks t)
    {s s' : MSt T K V} (hs : MReach G t s) (hl : MLater G s s') (ht : s'.mem.torn = false)
    {b b' : Nat} {pc pc' : JobPC K V} (hj : s.jobs b = some pc) (hj' : s'.jobs b' = some pc') (hb : b ≠ b')
    {q : Nat} {a a' : Access} (ha : pc.access G = some (q, a)) (ha' : pc'.access G = some (q, a')) :
    a = .init ∧ a' = .init ∧ (s'.mem.tgt q = none ∨ s'.mem.tgt q = some Cell.emptyCell) := by
  obtain ⟨k, g, hS⟩ := hG.shape
  have hc : Cert G k s'.mem s'.jobs b q a := by
    induction hl generalizing b' pc' with
    | refl => exact ((MInv.reach hS hI hm hs).core ht).cert hS hj ha
    | @step s1 s2 h1 h2 ih =>
      have hr1 := h1.reach hs
      have ht1 := h2.torn_back ht
      have I1 := MInv.reach hS hI hm hr1
      have key : Cert G k s1.mem s1.jobs b q a := by
        clear ih ha' hj'
        revert ht1
        clear ht h2
        intro ht1
        have I0 := MInv.reach hS hI hm hs
        have : ∀ {s1 : MSt T K V}, MLater G s s1 → s1.mem.torn = false → Cert G k s1.mem s1.jobs b q a := by
          intro s1 hl
          induction hl with
          | refl => intro ht; exact (I0.core ht).cert hS hj ha
          | @step s3 s4 h3 h4 ih =>
            intro ht
            refine (ih (h4.torn_back ht)).step (fun b2 hn => ?_) h4
            exact (((MInv.reach hS hI hm (h3.reach hs)).claimed b2).1 hn).2.1
        exact this h1 ht1
      exact key.step (fun b2 hn => ((I1.claimed b2).1 hn).2.1) h2
  have hC := (MInv.reach hS hI hm (hl.reach hs)).core ht
  obtain ⟨h1, h2, h3⟩ := hC.shared hS hc (hC.cert hS hj' ha') hb
  exact ⟨h1, h2, hC.over_empty hS h3⟩

end

section
variable {K V : Type} [DecidableEq K] [DecidableEq V] [Inhabited V]

theorem Runs.content {G : MEnv K} {k b : Nat} {m m' : MMem K V} {pc pc' : JobPC K V} (h : Runs G k b m pc m' pc')
    (p : Nat) : (m'.src p).c = (m.src p).c := by
  induction h with
  | refl => rfl
  | @step m m1 m2 pc pc1 pc2 he hs _ ih =>
    have := jobStep_content G (blockEnd (2 ^ k) b) pc m p
    rw [hs] at this
    rw [ih]; exact this

/-- The last round of a job: it initialises the slots over its last index. -/
theorem Runs.last_round {G : MEnv K} {k b : Nat} {m m' : MMem K V} {pc pc' : JobPC K V} (h : Runs G k b m pc m' pc')
    {st i : Nat} (hf : pc' = .fin st i) :
    (pc = .fin st i ∨ (∃ qs, pc = .fill st qs true i) ∨ pc = .load st true i ∨ ∃ curr, pc = .mark st true i curr) ∨
    ∃ m1, Runs G k b m pc m1 (.fill st (initSlot G.tgt.M (G.src.M.remap i)) true i) := by
  induction h with
  | refl => exact .inl (.inl hf)
  | @step m m1 m2 pc pc1 pc2 he hs hr ih =>
    refine (ih hf).elim (fun h1 => ?_) (fun ⟨m3, h1⟩ => .inr ⟨m3, .step he hs h1⟩)
    have one : pc1 = .fill st (initSlot G.tgt.M (G.src.M.remap i)) true i →
        ∃ m1, Runs G k b m pc m1 (.fill st (initSlot G.tgt.M (G.src.M.remap i)) true i) := by
      intro h; subst h; exact ⟨m1, .step he hs (.refl _ _)⟩
    have head : ∀ st' tail i', pc1 = loopHead G (blockEnd (2 ^ k) b) st' tail i' →
        ∃ m1, Runs G k b m pc m1 (.fill st (initSlot G.tgt.M (G.src.M.remap i)) true i) := by
      intro st' tail i' h
      apply one
      rw [h] at h1 ⊢
      unfold loopHead at h1 ⊢
      split at h1
      · rcases h1 with h1 | ⟨_, h1⟩ | h1 | ⟨_, h1⟩ <;> cases h1
      · rename_i hc
        rw [if_neg hc]
        rcases h1 with h1 | ⟨_, h1⟩ | h1 | ⟨_, h1⟩ <;> cases h1
        rfl
    have proc : ∀ st' tail i' nxt (curr : Cell K V),
        process G (blockEnd (2 ^ k) b) st' tail i' nxt curr = .cont pc1 →
        (tail = true ∧ st' = st ∧ i' = i) ∨
        ∃ m1, Runs G k b m pc m1 (.fill st (initSlot G.tgt.M (G.src.M.remap i)) true i) := by
      intro st' tail i' nxt curr h
      unfold process at h
      split at h
      · split at h
        · cases h
          rename_i ht
          rcases h1 with h1 | ⟨_, h1⟩ | h1 | ⟨_, h1⟩ <;> cases h1
          exact .inl ⟨ht, rfl, rfl⟩
        · injection h with h; exact .inr (head _ _ _ h.symm)
      · split at h
        · injection h with h; exact .inr (head _ _ _ h.symm)
        · split at h
          · cases h
            rcases h1 with h1 | ⟨_, h1⟩ | h1 | ⟨_, h1⟩ <;> cases h1
          · cases h
    cases pc with
    | scan j =>
      simp only [jobStep] at hs
      split at hs
      · split at hs
        · cases hs; rcases h1 with h1 | ⟨_, h1⟩ | h1 | ⟨_, h1⟩ <;> cases h1
        · split at hs <;> cases hs <;> rcases h1 with h1 | ⟨_, h1⟩ | h1 | ⟨_, h1⟩ <;> cases h1
      · cases hs
    | scanMark j curr =>
      simp only [jobStep] at hs
      split at hs
      · split at hs <;> cases hs <;> rcases h1 with h1 | ⟨_, h1⟩ | h1 | ⟨_, h1⟩ <;> cases h1
      · cases hs
    | fill st' qs tail j =>
      cases qs with
      | nil =>
        cases hs
        rcases h1 with h1 | ⟨_, h1⟩ | h1 | ⟨_, h1⟩ <;> cases h1
        exact .inl (.inr (.inl ⟨[], rfl⟩))
      | cons q qs =>
        simp only [jobStep] at hs
        split at hs <;> cases hs
        rcases h1 with h1 | ⟨_, h1⟩ | h1 | ⟨_, h1⟩ <;> cases h1
        exact .inl (.inr (.inl ⟨_, rfl⟩))
    | load st' tail j =>
      simp only [jobStep] at hs
      split at hs <;> cases hs
      rcases h1 with h1 | ⟨_, h1⟩ | h1 | ⟨_, h1⟩ <;> cases h1
      exact .inl (.inr (.inr (.inl rfl)))
    | mark st' tail j curr =>
      simp only [jobStep] at hs
      split at hs
      · split at hs
        · rename_i ht
          rcases proc _ _ _ _ _ (congrArg Prod.snd hs) with ⟨h2, h3, h4⟩ | h2
          · subst h3 h4
            rw [ht]
            exact .inl (.inr (.inr (.inr ⟨curr, rfl⟩)))
          · exact .inr h2
        · rename_i ht
          split at hs
          · rcases proc _ _ _ _ _ (congrArg Prod.snd hs) with ⟨h2, h3, h4⟩ | h2
            · cases h2
            · exact .inr h2
          · cases hs
            rcases h1 with h1 | ⟨_, h1⟩ | h1 | ⟨_, h1⟩ <;> cases h1
      · cases hs
    | probe st' tail j u x =>
      simp only [jobStep] at hs
      split at hs
      · split at hs
        · cases hs
        · split at hs <;> cases hs <;> rcases h1 with h1 | ⟨_, h1⟩ | h1 | ⟨_, h1⟩ <;> cases h1
      · cases hs
    | put st' tail j u x =>
      simp only [jobStep] at hs
      split at hs
      · injection hs with _ hs
        injection hs with hs
        exact .inr (head _ _ _ hs.symm)
      · cases hs
    | fin st' j => cases he
    | nothing => cases he

/-- Both initialisations begin with the same slot. -/
theorem init_heads {G : MEnv K} {k g : Nat} (hS : Shape G k g) {i e : Nat} (hi : i < e) (he : e ≤ 2 ^ k) :
    ∃ q l1 l2, initSlot G.tgt.M i = q :: l1 ∧ initRange G.tgt.M i e = q :: l2 := by
  cases hcm : G.tgt.M.cm with
  | true =>
    have hcp : G.tgt.M.cp = true := by rw [hS.cp]; exact hS.combo (by rw [← hS.cm]; exact hcm)
    have hb : i ≤ G.tgt.M.bitmask := by
      have h1 := hS.wf'.addr_eq
      have h2 : 2 ^ k ≤ 2 ^ (k + g) := Nat.pow_le_pow_right (by omega) (by omega)
      have h3 : G.tgt.M.addr = G.tgt.M.bitmask + 1 := by
        unfold Mapper.addr Mapper.bitmask; rw [hcp]; rfl
      omega
    have hcf : ∀ n, i < n → ∃ l, cyclicFill G.tgt.M.bitmask G.tgt.M.growHelper (G.tgt.M.bitmask + 1) i n = i :: l := by
      intro n hn
      unfold cyclicFill
      rw [if_pos hb, show n - i = (n - i - 1) + 1 by omega, List.range'_succ]
      exact ⟨_, rfl⟩
    obtain ⟨l1, h1⟩ := hcf (i + 1) (by omega)
    obtain ⟨l2, h2⟩ := hcf e hi
    refine ⟨i, l1, l2, ?_, ?_⟩
    · unfold initSlot
      rw [if_pos hcm, if_neg (by rw [hcp]; simp), h1]
    · unfold initRange
      rw [if_pos hcm, h2]
  | false =>
    have h2 : 0 < 2 ^ G.tgt.M.growHelper := Nat.two_pow_pos _
    have len : ∀ n, i < n → ∃ r, (n <<< G.tgt.M.growHelper) - (i <<< G.tgt.M.growHelper) = r + 1 := by
      intro n hn
      have := Nat.mul_lt_mul_of_pos_right hn h2
      rw [Nat.shiftLeft_eq, Nat.shiftLeft_eq]
      exact ⟨n * 2 ^ G.tgt.M.growHelper - i * 2 ^ G.tgt.M.growHelper - 1, by omega⟩
    obtain ⟨r1, e1⟩ := len (i + 1) (by omega)
    obtain ⟨r2, e2⟩ := len e hi
    refine ⟨i <<< G.tgt.M.growHelper, List.range' (i <<< G.tgt.M.growHelper + 1) r1,
      List.range' (i <<< G.tgt.M.growHelper + 1) r2, ?_, ?_⟩
    · unfold initSlot
      rw [hcm, if_neg (by simp), e1, List.range'_succ]
    · unfold initRange
      rw [hcm, if_neg (by simp), e2, List.range'_succ]

/-- **C63 is false.**  Two threads race on a slot of the new table in every migration of two blocks: for every
table whose second block has an empty slot (with circular probing also the first one) there is an execution that
leads to a state in which two helpers are both about to initialise the same slot with a plain store.  The helper of
the first block initialises the slots over the first empty slot behind its block
(`base_linear.hpp:1177`, before it looks at it), and the helper of the second block begins with this slot
(`base_linear.hpp:1144`). -/
theorem C63_initialisations_race {G : MEnv K} (hG : G.OK) (hbig : 8192 ≤ G.src.M.addr) {t : Tbl K V}
    (hI : Inv G.src t) (hm : NoMarks t) {p : Nat} (hp1 : 4096 ≤ p) (hp2 : p < 8192) (hp : (t p).c = .empty)
    (h0 : G.src.M.cp = true → ∃ p, p < 4096 ∧ (t p).c = .empty) :
    ∃ (s : MSt Bool K V) (pc pc' : JobPC K V) (q : Nat), MQuiet G t s ∧
      s.thr false = .work 0 ∧ s.jobs 0 = some pc ∧ pc.access G = some (q, .init) ∧
      s.thr true = .work 4096 ∧ s.jobs 4096 = some pc' ∧ pc'.access G = some (q, .init) := by
  obtain ⟨k, g, hS⟩ := hG.shape
  have hA := hS.addr
  rw [hA] at hbig
  obtain ⟨s0, q0, m0, t1, t0, j1, j0⟩ := two_claims G t (by rw [hA]; omega)
  rw [hA] at j1 j0
  have e0 : blockEnd (2 ^ k) 0 = 4096 := by
    rw [hS.blockEnd_eq (by omega)]; unfold blockSize; omega
  have e1 : blockEnd (2 ^ k) 4096 = 8192 := by
    rw [hS.blockEnd_eq (by omega)]; unfold blockSize; omega
  have I0 := MInv.reach hS hI hm q0.reach
  have htorn : s0.mem.torn = false := by rw [m0]
  have hjobs : upd1 s0.jobs 0 (some (jobStart G 0 (blockEnd (2 ^ k) 0))) = s0.jobs := by
    funext b
    unfold upd1
    split
    · rename_i h; rw [h, j0]
    · rfl
  have hal : Alone G k 0 s0.jobs s0.mem (jobStart G 0 (blockEnd (2 ^ k) 0)) := by
    refine ⟨by rw [hjobs]; exact I0.core htorn, htorn, ?_⟩
    intro st tl i curr h
    unfold jobStart at h
    (repeat' split at h) <;> cases h
  obtain ⟨m1, pc1, r1, a1, d1⟩ := Alone.start hS (b := 0) hal
  have hc1 : ∀ x, (m1.src x).c = (t x).c := by
    intro x
    rw [r1.content x, m0]
  have hJ := (a1.core.job 0 pc1 (upd1_self ..)).2.2
  rw [e0] at hJ
  obtain ⟨st, i, rfl⟩ : ∃ st i, pc1 = .fin st i := by
    cases pc1 with
    | fin st i => exact ⟨st, i, rfl⟩
    | nothing =>
      obtain ⟨hn, hcp⟩ := hJ
      rcases hcp with hcp | hcp
      · obtain ⟨x, hx1, hx2⟩ := h0 hcp
        exact absurd (by rw [hc1]; exact hx2) (hn x (Nat.zero_le _) hx1)
      · omega
    | _ => cases d1
  obtain ⟨hC, hei, -, -, hem⟩ := hJ
  have hip : i ≤ p := by
    refine Classical.byContradiction fun hn => ?_
    have := hC.tailne p hp1 (by omega)
    rw [hS.remap_small (by have := hS.le_total; omega), hc1] at this
    exact this hp
  have hlt : ∀ x, x < 8192 → x < G.src.M.total := by
    intro x hx
    have := hS.le_total
    omega
  have hri : G.src.M.remap i = i := hS.remap_small (hlt i (by omega))
  rw [hri, hc1] at hem
  obtain ⟨q, l1, l2, hq1, hq2⟩ := init_heads hS (i := i) (e := 8192) (by omega) hbig
  have hstart : jobStart (V := V) G 0 (blockEnd (2 ^ k) 0) = .scan 0 ∨
      jobStart (V := V) G 0 (blockEnd (2 ^ k) 0) = .fill 0 (initRange G.tgt.M 0 4096) false 0 := by
    rw [e0]
    unfold jobStart
    split
    · exact .inl rfl
    · exact .inr rfl
  obtain ⟨m2, r2⟩ : ∃ m2, Runs G k 0 s0.mem (jobStart G 0 (blockEnd (2 ^ k) 0)) m2
      (.fill st (q :: l1) true i) := by
    rcases r1.last_round rfl with h | ⟨m2, h⟩
    · exfalso
      rcases hstart with h' | h' <;> rw [h'] at h <;> rcases h with h | ⟨_, h⟩ | h | ⟨_, h⟩ <;> cases h
    · rw [hri, hq1] at h; exact ⟨m2, h⟩
  have hc2 : ∀ x, (m2.src x).c = (t x).c := by
    intro x
    rw [r2.content x, m0]
  have s2 := r2.msteps hA s0 false q0 t0 rfl j0
  have hi1 : 4096 ≤ i := hei
  have j1' : upd1 s0.jobs 0 (some (JobPC.fill st (q :: l1) true i)) 4096 = some (.scan 4096) := by
    rw [upd1_ne (by omega), j1, e1]
    unfold jobStart
    rw [if_pos (.inr (by omega)), if_pos (by omega)]
  have r3 : Runs G k 4096 m2 (.scan 4096) m2 (.scan (4096 + (i - 4096))) := by
    refine scan_runs m2 (by rw [e1]; have := hS.le_total; omega) _ _ (fun j h1 h2 => ?_) (by rw [e1]; omega)
    have := hC.tailne j h1 (by omega)
    rw [hS.remap_small (hlt j (by omega)), hc1] at this
    rw [hc2]; exact this
  rw [show 4096 + (i - 4096) = i by omega] at r3
  have hem2 : (m2.src i).isEmpty = true := Cell.isEmpty_iff.2 (by rw [hc2]; exact hem)
  have r4 : ∃ m3, Runs G k 4096 m2 (.scan i) m3 (.fill i (q :: l2) false i) := by
    have hti := hlt i (by omega)
    refine ⟨_, .step (pc' := .scanMark i (m2.src i)) rfl (m' := m2) (by
      simp only [jobStep, if_pos hti, hem2, if_true]) (.step rfl (m' := { m2 with
        src := m2.src.set i (atomicMark G.src.m G.upd (m2.src i) (m2.src i)).1 }) ?_ (.refl _ _))⟩
    have : (atomicMark G.src.m G.upd (m2.src i) (m2.src i)).2.2 = true := by
      unfold atomicMark
      split
      · simp
      · rfl
    simp only [jobStep, if_pos hti, this, if_true, e1, hq2]
  obtain ⟨m3, r4⟩ := r4
  have s3 := (Runs.trans r3 r4).msteps hA _ true s2 t1 rfl j1'
  refine ⟨_, .fill st (q :: l1) true i, .fill i (q :: l2) false i, q, s3, t0, ?_, rfl, t1, ?_, rfl⟩
  · show upd1 (upd1 s0.jobs 0 (some (JobPC.fill st (q :: l1) true i))) 4096 (some (JobPC.fill i (q :: l2) false i)) 0 =
      some (JobPC.fill st (q :: l1) true i)
    rw [upd1_ne (by omega), upd1_self]
  · show upd1 (upd1 s0.jobs 0 (some (JobPC.fill st (q :: l1) true i))) 4096 (some (JobPC.fill i (q :: l2) false i)) 4096 =
      some (JobPC.fill i (q :: l2) false i)
    rw [upd1_self]

end

/-! ## Concrete cases -/

/-- 8192 slots, linear mapping and probing; doubles. (example, no code) -/
def raceG : MEnv Nat :=
  ⟨⟨Mapper.mk' false false 8192 0, fun k => k * 2 ^ 51 % 2 ^ 64, true⟩,
   ⟨(Mapper.mk' false false 8192 0).resize 4000 0, fun k => k * 2 ^ 51 % 2 ^ 64, true⟩, false⟩

theorem raceG_ok : raceG.OK := by
  refine ⟨⟨⟨13, by decide, by decide, by decide +kernel⟩, fun x => Nat.mod_lt _ (by decide)⟩, rfl, rfl, ⟨_, _, rfl⟩,
    ⟨14, by decide, by decide, by decide +kernel⟩, (fun h => by cases h), by decide⟩

/-- The race in a migration of an empty table, and the same state for the part that is proved. -/
example : ∃ (s : MSt Bool Nat Nat) (pc pc' : JobPC Nat Nat) (q : Nat), MReach raceG emptyTbl s ∧
    s.mem.torn = false ∧ s.jobs 0 = some pc ∧ pc.access raceG = some (q, .init) ∧ s.jobs 4096 = some pc' ∧
    pc'.access raceG = some (q, .init) := by
  have hI : Inv raceG.src (emptyTbl : Tbl Nat Nat) := Inv.emptyTbl _
  have hm : NoMarks (emptyTbl : Tbl Nat Nat) := fun _ => rfl
  obtain ⟨s, pc, pc', q, h1, -, h2, h3, -, h4, h5⟩ := C63_initialisations_race raceG_ok (by decide) hI hm
    (p := 5000) (by omega) (by omega) rfl (fun h => by cases h)
  exact ⟨s, pc, pc', q, h1.reach, h1.good.1, h2, h3, h4, h5⟩

end Growt
