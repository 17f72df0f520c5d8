import Verif.MigStep

/-!
# Reachable states of a migration and what holds when it is finished
-/

set_option linter.unusedSectionVars false

namespace Growt

attribute [local irreducible] blockEnd

section
variable {T K V : Type} [DecidableEq T] [DecidableEq K] [DecidableEq V] [Inhabited V]

/-- Invariant of all reachable states. (proof, no code) -/
structure MInv (G : MEnv K) (k : Nat) (s : MSt T K V) : Prop where
  core : s.mem.torn = false → Core G k s.mem s.jobs
  nd : blockSize ∣ s.next
  claimed : ∀ b, s.jobs b ≠ none ↔ (blockSize ∣ b ∧ b < s.next ∧ b < 2 ^ k)
  worker : ∀ i b, s.thr i = .work b → s.jobs b ≠ none
  one : ∀ i j b, s.thr i = .work b → s.thr j = .work b → i = j
  busy : ∀ b pc, s.jobs b = some pc → pc.ended = false → ∃ i, s.thr i = .work b

theorem jobStep_torn (G : MEnv K) (e : Nat) (pc : JobPC K V) (m : MMem K V)
    (h : (jobStep G e pc m).1.torn = false) : m.torn = false := by
  cases pc with
  | scan i => simp only [jobStep] at h; split at h <;> (try split at h) <;> exact h
  | scanMark i curr => simp only [jobStep] at h; split at h <;> exact h
  | fill st qs tail i =>
    cases qs with
    | nil => exact h
    | cons q qs => simp only [jobStep] at h; split at h <;> exact h
  | load st tail i => simp only [jobStep] at h; split at h <;> exact h
  | mark st tail i curr =>
    simp only [jobStep] at h
    split at h
    · split at h
      · simp only [Bool.or_eq_false_iff] at h; exact h.1
      · split at h <;> exact h
    · exact h
  | probe st tail nxt u x =>
    simp only [jobStep] at h
    split at h
    · split at h <;> exact h
    · exact h
  | put st tail nxt u x => simp only [jobStep] at h; split at h <;> exact h
  | fin st i => exact h
  | nothing => exact h

theorem Core.init {G : MEnv K} {k g : Nat} (hS : Shape G k g) {t : Tbl K V} (hI : Inv G.src t)
    (hm : NoMarks t) : Core G k ⟨t, freshTarget G.tgt, false⟩ (fun _ => none) := by
  have hfr : ∀ q x, freshTarget (V := V) G.tgt q = some x → x = Cell.emptyCell ∧ q < G.tgt.M.total := by
    intro q x hx
    unfold freshTarget at hx
    split at hx
    · rename_i hc; exact ⟨by simpa using hx.symm, hc.2.2⟩
    · cases hx
  refine ⟨hI, (fun b pc h => by cases h), ?_, (fun b pc st cur ins ic key v h => by cases h), ?_,
    fun _ => hm, ?_, ?_, ?_⟩
  · intro q x hx hne
    rw [(hfr q x hx).1] at hne; exact absurd rfl hne
  · intro p h; have := hm p; rw [this] at h; cases h
  · intro q hq
    cases hx : freshTarget (V := V) G.tgt q with
    | none => exact absurd hx hq
    | some x => exact (hfr q x hx).2
  · intro hc q h1 h2
    have hc' : G.tgt.M.cp = false := by rw [hS.cp, hc]
    simp [freshTarget, hc', h1, h2]
  · intro q x hx _
    rw [(hfr q x hx).1]; rfl

theorem EnvStep.upd {G : MEnv K} {t t' : Tbl K V} (h : EnvStep G.src t t') : Upd G t t' := by
  refine ⟨h.inv, h.evolves, fun p hf => ?_, fun hm => ?_, fun p hp => by rw [h.marks, hp]⟩
  · rw [h.frozen p hf]; exact ⟨rfl, hf⟩
  · funext p; exact h.frozen p (.inl hm)

theorem Core.env {G : MEnv K} {k : Nat} {m : MMem K V} {jobs : Nat → Option (JobPC K V)}
    (h : Core G k m jobs) {t' : Tbl K V} (he : EnvStep G.src m.src t') :
    Core G k { m with src := t' } jobs := by
  have hu := he.upd
  have hfr : ∀ b2 pc st cur ins ic, jobs b2 = some pc → pc.ext = some (st, cur, ins) → st ≤ ic →
      ic < ins → (t' (G.src.M.remap ic)).c = (m.src (G.src.M.remap ic)).c := by
    intro b2 pc st cur ins ic h1 h2 h3 h4
    obtain ⟨-, -, hji⟩ := h.job b2 pc h1
    obtain ⟨hc, hle⟩ := hji.cells h2
    exact (hu.froz _ (hc.froz ic h3 (by omega))).1
  refine ⟨hu.inv, ?_, ?_, ?_, ?_, ?_, h.dom, h.buf, h.emp⟩
  · intro b pc hj
    obtain ⟨h1, h2, h3⟩ := h.job b pc hj
    exact ⟨h1, h2, h3.stable hu (TLe.refl _) (fun _ _ _ _ _ _ => rfl)⟩
  · intro q x h1 h2
    obtain ⟨h4, key, v, h5, b2, pc, st, cur, ins, ic, d, i, hp⟩ := h.sound q x h1 h2
    refine ⟨h4, key, v, h5, b2, pc, st, cur, ins, ic, d, i, hp.job, hp.ext, hp.lo, hp.hi, ?_, hp.pos,
      hp.passed.evolve hu.ev, hp.slot, hp.fib, hp.walked, hp.buf⟩
    show (t' _).c = _
    rw [hfr b2 pc st cur ins ic hp.job hp.ext hp.lo hp.hi]; exact hp.cell
  · intro b pc st cur ins ic key v h1 h2 h3 h4 h5
    refine h.compl b pc st cur ins ic key v h1 h2 h3 h4 ?_
    rw [← hfr b pc st cur ins ic h1 h2 h3 h4]; exact h5
  · intro p h1 h2
    have h1' : (m.src p).marked = true := by rw [← he.marks]; exact h1
    refine h.marks p h1' ?_
    have := he.frozen p (.inr h1')
    rw [← this]; exact h2
  · intro hm p
    show (t' p).marked = false
    rw [he.marks]; exact h.nomark hm p

theorem MInv.reach {G : MEnv K} {k g : Nat} (hS : Shape G k g) {t : Tbl K V} (hI : Inv G.src t)
    (hm : NoMarks t) {s : MSt T K V} (h : MReach G t s) : MInv G k s := by
  induction h with
  | init =>
    refine ⟨fun _ => Core.init hS hI hm, ⟨0, rfl⟩, fun b => ?_, (fun i b h => by cases h),
      (fun i j b h => by cases h), (fun b pc h => by cases h)⟩
    simp [MSt.init]
  | @step s _ _ hs ih =>
    cases hs with
    | @claim i hc hlt =>
      rw [hS.addr] at hlt
      have hnone : s.jobs s.next = none := by
        cases hx : s.jobs s.next with
        | none => rfl
        | some pc =>
          have := (ih.claimed s.next).1 (by simp [hx])
          omega
      refine ⟨fun ht => ?_, ?_, ?_, ?_, ?_, ?_⟩
      · simp only [hS.addr]
        exact start_ok hS (ih.core ht) ih.nd hlt hnone
      · exact Nat.dvd_add ih.nd ⟨1, by omega⟩
      · intro b
        by_cases hb : b = s.next
        · subst hb
          simp only [upd1_self]
          refine ⟨fun _ => ⟨ih.nd, by unfold blockSize; omega, hlt⟩, fun _ => by simp⟩
        · simp only [upd1_ne hb]
          rw [ih.claimed b]
          constructor
          · rintro ⟨h1, h2, h3⟩; exact ⟨h1, by omega, h3⟩
          · rintro ⟨h1, h2, h3⟩
            refine ⟨h1, ?_, h3⟩
            obtain ⟨c, hc⟩ := h1
            obtain ⟨d, hd⟩ := ih.nd
            unfold blockSize at *
            omega
      · intro j b hj
        by_cases hb : b = s.next
        · subst hb; simp [upd1_self]
        · simp only [upd1_ne hb]
          by_cases hji : j = i
          · subst hji; simp only [upd1_self, Helper.work.injEq] at hj; exact absurd hj.symm hb
          · simp only [upd1_ne hji] at hj; exact ih.worker j b hj
      · have hno : ∀ j, s.thr j ≠ .work s.next := fun j hj => ih.worker j _ hj hnone
        intro j j2 b h1 h2
        by_cases hj : j = i
        · subst hj
          simp only [upd1_self, Helper.work.injEq] at h1
          subst h1
          by_cases hj2 : j2 = j
          · exact hj2.symm
          · simp only [upd1_ne hj2] at h2; exact absurd h2 (hno j2)
        · simp only [upd1_ne hj] at h1
          by_cases hj2 : j2 = i
          · subst hj2
            simp only [upd1_self, Helper.work.injEq] at h2
            subst h2
            exact absurd h1 (hno j)
          · simp only [upd1_ne hj2] at h2; exact ih.one j j2 b h1 h2
      · intro b pc hj he
        by_cases hb : b = s.next
        · subst hb; exact ⟨i, upd1_self _ _ _⟩
        · simp only [upd1_ne hb] at hj
          obtain ⟨j, hj2⟩ := ih.busy b pc hj he
          refine ⟨j, ?_⟩
          have : j ≠ i := by intro h; subst h; rw [hc] at hj2; cases hj2
          simp only [upd1_ne this, hj2]
    | @leave i hc hge =>
      rw [hS.addr] at hge
      refine ⟨ih.core, Nat.dvd_add ih.nd ⟨1, by omega⟩, ?_, ?_, ?_, ?_⟩
      · intro b
        rw [ih.claimed b]
        constructor
        · rintro ⟨h1, h2, h3⟩; exact ⟨h1, by show b < s.next + blockSize; omega, h3⟩
        · rintro ⟨h1, h2, h3⟩; exact ⟨h1, by omega, h3⟩
      · intro j b hj
        by_cases hji : j = i
        · subst hji; simp [upd1_self] at hj
        · simp only [upd1_ne hji] at hj; exact ih.worker j b hj
      · intro j j2 b h1 h2
        by_cases hji : j = i
        · subst hji; simp [upd1_self] at h1
        · by_cases hji2 : j2 = i
          · subst hji2; simp [upd1_self] at h2
          · simp only [upd1_ne hji] at h1; simp only [upd1_ne hji2] at h2; exact ih.one j j2 b h1 h2
      · intro b pc hj he
        obtain ⟨j, hj2⟩ := ih.busy b pc hj he
        refine ⟨j, ?_⟩
        have : j ≠ i := by intro h; subst h; rw [hc] at hj2; cases hj2
        simp only [upd1_ne this, hj2]
    | @enter i hl =>
      have hw : ∀ j b, upd1 s.thr i .claim j = .work b → s.thr j = .work b := by
        intro j b hj
        have : j ≠ i := by intro e; subst e; simp only [upd1_self] at hj; cases hj
        simpa only [upd1_ne this] using hj
      refine ⟨ih.core, ih.nd, ih.claimed, fun j b hj => ih.worker j b (hw j b hj),
        fun j1 j2 b h1 h2 => ih.one j1 j2 b (hw _ _ h1) (hw _ _ h2), fun b pc hj he => ?_⟩
      obtain ⟨j, hj2⟩ := ih.busy b pc hj he
      refine ⟨j, ?_⟩
      have : j ≠ i := by intro h; subst h; rw [hl] at hj2; cases hj2
      simp only [upd1_ne this, hj2]
    | @work i b pc pc' m' hw hj he hst =>
      rw [hS.addr] at hst
      refine ⟨fun ht => ?_, ih.nd, ?_, ?_, ih.one, ?_⟩
      · have htm : (jobStep G (blockEnd (2 ^ k) b) pc s.mem).1.torn = false := by rw [hst]; exact ht
        have hcore := ih.core (jobStep_torn G _ pc s.mem htm)
        obtain ⟨pc2, h1, h2⟩ := step_ok hS hcore hj he htm
        rw [hst] at h1 h2
        cases h1
        exact h2
      · intro c
        by_cases hcb : c = b
        · subst hcb
          simp only [upd1_self]
          rw [← ih.claimed c, hj]
          simp
        · simp only [upd1_ne hcb]; exact ih.claimed c
      · intro j c hjc
        by_cases hcb : c = b
        · subst hcb; simp [upd1_self]
        · simp only [upd1_ne hcb]; exact ih.worker j c hjc
      · intro c pc2 h1 h2
        by_cases hcb : c = b
        · subst hcb; exact ⟨i, hw⟩
        · simp only [upd1_ne hcb] at h1; exact ih.busy c pc2 h1 h2
    | @ret i b pc hw hj he =>
      refine ⟨ih.core, ih.nd, ih.claimed, ?_, ?_, ?_⟩
      · intro j c hjc
        by_cases hji : j = i
        · subst hji; simp [upd1_self] at hjc
        · simp only [upd1_ne hji] at hjc; exact ih.worker j c hjc
      · intro j j2 c h1 h2
        by_cases hji : j = i
        · subst hji; simp [upd1_self] at h1
        · by_cases hji2 : j2 = i
          · subst hji2; simp [upd1_self] at h2
          · simp only [upd1_ne hji] at h1; simp only [upd1_ne hji2] at h2; exact ih.one j j2 c h1 h2
      · intro c pc2 h1 h2
        obtain ⟨j, hj2⟩ := ih.busy c pc2 h1 h2
        refine ⟨j, ?_⟩
        have : j ≠ i := by
          intro h; subst h
          rw [hw] at hj2
          cases hj2
          rw [hj] at h1; cases h1
          rw [he] at h2; cases h2
        simp only [upd1_ne this, hj2]
    | @env t' henv =>
      exact ⟨fun ht => (ih.core ht).env henv, ih.nd, ih.claimed, ih.worker, ih.one, ih.busy⟩

/-! ## The end of a migration -/

/-- The helpers are done: no block is left to claim and nobody works on a block.  (`n_helper == 0`
with every helper gone, `estrat_async.hpp:325`.) -/
def MSt.finished (G : MEnv K) (s : MSt T K V) : Prop :=
  G.src.M.addr ≤ s.next ∧ ∀ i b, s.thr i ≠ .work b

/-- The published table; slots outside the allocation read as empty.
(`base_linear.hpp:1114-1227`, the slots of the target) -/
def published (g : MTbl K V) : Tbl K V := fun q => (g q).getD Cell.emptyCell

section
variable {G : MEnv K} {k g : Nat} (hS : Shape G k g)
include hS

theorem head_exists {t : Tbl K V} (hI : Inv G.src t) (he : HasRoom G.src t) {p : Nat}
    (hp : p < G.src.M.total) (hne : (t p).c ≠ .empty) :
    ∃ a n, Head t G.src.M.total p a n ∧ 1 ≤ n := by
  have hN := hS.tot_pos
  obtain ⟨e0, h0, h1⟩ : ∃ e0, e0 < G.src.M.total ∧ (t e0).c = .empty := by
    cases hc : G.src.M.cp with
    | true => exact he hc
    | false =>
      refine ⟨G.src.M.total - 1, by omega, hS.last_empty hI hc ?_⟩
      have := hS.total
      rw [hc] at this
      simp only [Bool.false_eq_true, if_false] at this
      omega
  have key : ∀ l, (t ((e0 + l) % G.src.M.total)).c ≠ .empty →
      ∃ a n, Head t G.src.M.total ((e0 + l) % G.src.M.total) a n := by
    intro l
    induction l with
    | zero => intro h; rw [Nat.add_zero, Nat.mod_eq_of_lt h0] at h; exact absurd h1 h
    | succ l ih =>
      intro hl
      have hx : ((e0 + l) % G.src.M.total + 1) % G.src.M.total = (e0 + (l + 1)) % G.src.M.total := by
        rw [← Nat.add_assoc]; simp
      have hone : ∀ j, 1 ≤ j → j ≤ 1 → (t (((e0 + l) % G.src.M.total + j) % G.src.M.total)).c ≠ .empty := by
        intro j hj1 hj2
        have : j = 1 := by omega
        subst this
        rwa [hx]
      by_cases hem : (t ((e0 + l) % G.src.M.total)).c = .empty
      · exact ⟨(e0 + l) % G.src.M.total, 1, Nat.mod_lt _ hN, hem, hx, hone⟩
      · obtain ⟨a, n, hh⟩ := ih hem
        have := hh.extend hone
        rw [hx] at this
        exact ⟨a, n + 1, this⟩
  have hpe : (e0 + (p + G.src.M.total - e0)) % G.src.M.total = p := by
    have : e0 + (p + G.src.M.total - e0) = p + G.src.M.total := by omega
    rw [this, Nat.add_mod_right, Nat.mod_eq_of_lt hp]
  obtain ⟨a, n, hh⟩ := key (p + G.src.M.total - e0) (by rwa [hpe])
  rw [hpe] at hh
  refine ⟨a, n, hh, ?_⟩
  by_cases hn : n = 0
  · subst hn
    have := hh.eq
    rw [Nat.add_zero, Nat.mod_eq_of_lt hh.lt] at this
    subst this
    exact absurd hh.empty hne
  · omega

variable {m : MMem K V} {jobs : Nat → Option (JobPC K V)} (h : Core G k m jobs)
include h

/-- Every slot that matters was processed by a job. -/
theorem processed (hall : ∀ b, blockSize ∣ b → b < 2 ^ k → ∃ pc, jobs b = some pc ∧ pc.ended = true)
    (he : HasRoom G.src m.src) {p : Nat} (hp : p < G.src.M.total)
    (hcase : p < 2 ^ k ∨ ∃ key v, (m.src p).c = .live key v) :
    ∃ b st i ic, jobs b = some (.fin st i) ∧ st ≤ ic ∧ ic ≤ i ∧ G.src.M.remap ic = p ∧
      ((m.src p).c ≠ .empty → ic < i) := by
  -- the job of the block of an empty slot
  have hfin : ∀ a, a < 2 ^ k → (m.src a).c = .empty → ∃ b st i, jobs b = some (.fin st i) ∧
      st ≤ a ∧ a < blockEnd (2 ^ k) b ∧ blockEnd (2 ^ k) b ≤ i ∧ (m.src (G.src.M.remap i)).c = .empty ∧
      (G.src.M.cp = true ∨ i < G.src.M.total) := by
    intro a ha hem
    obtain ⟨h1, h2, h3, h4⟩ := hS.owner_block ha
    obtain ⟨pc, hj, hen⟩ := hall _ h1 h2
    obtain ⟨-, -, hji⟩ := h.job _ pc hj
    cases pc <;> simp [JobPC.ended] at hen
    · rename_i st i
      obtain ⟨hJ, hei, -, -, hemp⟩ := hji
      have hsta : st ≤ a := by
        by_cases hlt : st ≤ a
        · exact hlt
        · exact absurd hem (hJ.pre a h3 (by omega))
      exact ⟨_, st, i, hj, hsta, h4, hei, hemp,
        (hJ.shape hJ.le (.inl (Nat.le_refl _))).cur_ok hS h.inv (hS.blockEnd_le h2) (Nat.le_refl i)⟩
    · exact absurd hem (hji.1 a h3 h4)
  have hleT := hS.le_total
  by_cases hem : (m.src p).c = .empty
  · have hpk : p < 2 ^ k := by
      rcases hcase with h1 | ⟨key, v, h1⟩
      · exact h1
      · rw [h1] at hem; cases hem
    obtain ⟨b, st, i, hj, h1, h2, h3, -, -⟩ := hfin p hpk hem
    exact ⟨b, st, i, p, hj, h1, by omega, hS.remap_small (by omega), fun hn => absurd hem hn⟩
  · obtain ⟨a, n, hh, hn⟩ := head_exists hS h.inv he hp hem
    by_cases ha : a < 2 ^ k
    · obtain ⟨b, st, i, hj, h1, h2, h3, h4, h5⟩ := hfin a ha hh.empty
      have hlt : a + n < i := by
        by_cases hlt : a + n < i
        · exact hlt
        · exfalso
          have := hh.full (i - a) (by omega) (by omega)
          have e : a + (i - a) = i := by omega
          rw [e, ← hS.remap_mod h5] at this
          exact this h4
      refine ⟨b, st, i, a + n, hj, by omega, by omega, ?_, fun _ => hlt⟩
      rw [hS.remap_mod, hh.eq]
      rcases h5 with h5 | h5
      · exact .inl h5
      · exact .inr (by omega)
    · -- linear probing, the nearest empty slot lies in the buffer
      have hlin : G.src.M.cp = false := by
        cases hc : G.src.M.cp with
        | false => rfl
        | true =>
          have := hS.total
          rw [hc] at this
          simp only [if_true] at this
          have := hh.lt
          omega
      have htot := hS.total
      rw [hlin] at htot
      simp only [Bool.false_eq_true, if_false] at htot
      have hlast : (m.src (G.src.M.total - 1)).c = .empty := hS.last_empty h.inv hlin (by omega)
      have halt := hh.lt
      have hwrap : a + n ≥ G.src.M.total := by
        by_cases hw : a + n ≥ G.src.M.total
        · exact hw
        · exfalso
          have hpe := hh.eq
          rw [Nat.mod_eq_of_lt (by omega)] at hpe
          rcases hcase with h1 | ⟨key, v, h1⟩
          · omega
          · obtain ⟨i, hi, hpass⟩ := h.inv.reach p key v hp h1
            rw [Mapper.remap_lin hlin] at hi
            subst hi
            have hml := hS.wf.map_lt (hS.h64 key)
            rw [hS.addr] at hml
            have := (hpass.2 a (by omega) (by omega)).1
            rw [Mapper.remap_lin hlin] at this
            exact this hh.empty
      have haN : a = G.src.M.total - 1 := by
        by_cases h1 : a = G.src.M.total - 1
        · exact h1
        · exfalso
          have := hh.full (G.src.M.total - 1 - a) (by omega) (by omega)
          have e : a + (G.src.M.total - 1 - a) = G.src.M.total - 1 := by omega
          rw [e, Nat.mod_eq_of_lt (by omega)] at this
          exact this hlast
      have hnN : n < G.src.M.total := by
        by_cases h1 : n < G.src.M.total
        · exact h1
        · exfalso
          have := hh.full G.src.M.total (by omega) (by omega)
          rw [Nat.add_mod_right, Nat.mod_eq_of_lt halt] at this
          exact this hh.empty
      have hpn : p = n - 1 := by
        have := hh.eq
        have e : a + n = (n - 1) + G.src.M.total := by omega
        rw [e, Nat.add_mod_right, Nat.mod_eq_of_lt (by omega)] at this
        omega
      have hfull : ∀ j, j ≤ p → (m.src j).c ≠ .empty := by
        intro j hj
        have := hh.full (j + 1) (by omega) (by omega)
        have e : a + (j + 1) = j + G.src.M.total := by omega
        rwa [e, Nat.add_mod_right, Nat.mod_eq_of_lt (by omega)] at this
      obtain ⟨pc, hj, hen⟩ := hall 0 ⟨0, rfl⟩ (Nat.two_pow_pos k)
      obtain ⟨-, -, hji⟩ := h.job 0 pc hj
      cases pc <;> simp [JobPC.ended] at hen
      · rename_i st i
        obtain ⟨hJ, hei, -, -, hemp⟩ := hji
        have hst : st = 0 := hJ.zero hlin rfl
        rw [Mapper.remap_lin hlin] at hemp
        have hlt : p < i := by
          by_cases h1 : p < i
          · exact h1
          · exact absurd hemp (hfull i (by omega))
        exact ⟨0, st, i, p, hj, by omega, by omega, by rw [Mapper.remap_lin hlin], fun _ => hlt⟩
      · rcases hji.2 with h1 | h1
        · rw [hlin] at h1; cases h1
        · omega

/-- When all blocks are done: everything is initialised, the target satisfies the table invariant,
has no marks and no tombstones, and holds exactly what the source holds. -/
theorem end_ok (hall : ∀ b, blockSize ∣ b → b < 2 ^ k → ∃ pc, jobs b = some pc ∧ pc.ended = true)
    (he : HasRoom G.src m.src) :
    (∀ q, q < G.tgt.M.total → m.tgt q ≠ none) ∧ Inv G.tgt (published m.tgt) ∧
    NoMarks (published m.tgt) ∧ (∀ q v, (published m.tgt q).c ≠ .deleted v) ∧
    ∀ key v, (∃ q, q < G.tgt.M.total ∧ (published m.tgt q).c = .live key v) ↔
      ∃ p, p < G.src.M.total ∧ (m.src p).c = .live key v := by
  have hget : ∀ q, (published m.tgt q).c ≠ .empty → ∃ x, m.tgt q = some x ∧ published m.tgt q = x := by
    intro q hq
    unfold published at hq ⊢
    cases hx : m.tgt q with
    | none => rw [hx] at hq; exact absurd rfl hq
    | some x => exact ⟨x, rfl, rfl⟩
  have hpub : ∀ q x, m.tgt q = some x → published m.tgt q = x := by
    intro q x hx; simp [published, hx]
  refine ⟨?_, ⟨?_, ?_⟩, ?_, ?_, ?_⟩
  · intro q hq
    have hfl := hS.fiber_lt hq
    by_cases hlt : fiber G q < 2 ^ k
    · obtain ⟨b, st, i, ic, hj, h1, h2, h3, -⟩ := processed hS h hall he hfl (.inl hlt)
      obtain ⟨-, -, -, -, hin, -⟩ := h.job b _ hj
      exact hin ic h1 (by omega) q hq h3.symm
    · have hlin : G.src.M.cp = false := by
        cases hc : G.src.M.cp with
        | false => rfl
        | true =>
          have := hS.total
          rw [hc] at this
          simp only [if_true] at this
          omega
      have hcm : G.src.M.cm = false := by
        cases h : G.src.M.cm with
        | false => rfl
        | true => have := hS.combo h; simp [hlin] at this
      refine h.buf hlin q ?_ hq
      rw [hS.addr']
      unfold fiber at hlt
      rw [hS.gh, hcm] at hlt
      simp only [Bool.false_eq_true, if_false] at hlt
      rcases hS.gpow with h | h <;> rw [h] at hlt ⊢ <;> omega
  · intro q key v hq hc
    obtain ⟨x, hx, hpx⟩ := hget q (by rw [hc]; simp)
    rw [hpx] at hc
    obtain ⟨-, key2, v2, h2, b, pc, st, cur, ins, ic, d, i, hp⟩ := h.sound q x hx (by rw [hc]; simp)
    rw [hc] at h2
    cases h2
    refine ⟨tHome G key + d, hp.slot.symm, by show tHome G key ≤ _; omega, ?_⟩
    intro j h1 h2
    have h1 : tHome G key ≤ j := h1
    obtain ⟨y, h3, h4, h5⟩ := hp.walked (j - tHome G key) (by omega)
    have e : tHome G key + (j - tHome G key) = j := by omega
    rw [e] at h3
    rw [hpub _ y h3]
    exact ⟨h4, h5⟩
  · intro hc q hq
    have hlin : G.src.M.cp = false := by rw [← hS.cp, hc]
    false_or_by_contra
    rename_i hne
    obtain ⟨x, hx, hpx⟩ := hget q hne
    rw [hpx] at hne
    obtain ⟨-, key, v, -, b, pc, st, cur, ins, ic, d, i, hp⟩ := h.sound q x hx hne
    have hcell := hp.cell
    rw [Mapper.remap_lin hlin] at hcell
    have hic : ic ≤ 2 ^ k + 300 := by
      by_cases h1 : ic ≤ 2 ^ k + 300
      · exact h1
      · rw [hS.last_empty h.inv hlin (by omega)] at hcell; cases hcell
    have := hp.buf hlin
    rw [hS.addr] at this
    omega
  · intro q
    cases hx : m.tgt q with
    | none => simp [published, hx, Cell.emptyCell]
    | some x =>
      rw [hpub q x hx]
      by_cases hem : x.c = .empty
      · exact h.emp q x hx hem
      · exact (h.sound q x hx hem).1
  · intro q v hv
    obtain ⟨x, hx, hpx⟩ := hget q (by rw [hv]; simp)
    rw [hpx] at hv
    obtain ⟨-, key, w, h2, -⟩ := h.sound q x hx (by rw [hv]; simp)
    rw [hv] at h2; cases h2
  · intro key v
    constructor
    · rintro ⟨q, hq, hc⟩
      obtain ⟨x, hx, hpx⟩ := hget q (by rw [hc]; simp)
      rw [hpx] at hc
      obtain ⟨-, key2, v2, h2, b, pc, st, cur, ins, ic, d, i, hp⟩ := h.sound q x hx (by rw [hc]; simp)
      rw [hc] at h2
      cases h2
      obtain ⟨-, hb, hji⟩ := h.job b pc hp.job
      obtain ⟨hJ, hle⟩ := hji.cells hp.ext
      have hhi := hp.hi
      exact ⟨_, hS.remap_lt ((hJ.shape hJ.le (.inl (Nat.le_refl _))).cur_ok hS h.inv
        (hS.blockEnd_le hb) (by omega)), hp.cell⟩
    · rintro ⟨p, hp, hc⟩
      obtain ⟨b, st, i, ic, hj, h1, h2, h3, h4⟩ := processed hS h hall he hp (.inr ⟨key, v, hc⟩)
      obtain ⟨q, x, hx, hxc⟩ := h.compl b _ st i i ic key v hj rfl h1 (h4 (by rw [hc]; simp))
        (by rw [h3]; exact hc)
      exact ⟨q, h.dom q (by simp [hx]), by rw [hpub q x hx, hxc]⟩

end

/-- A finished migration has done every block. -/
theorem MInv.all_done {G : MEnv K} {k g : Nat} (hS : Shape G k g) {s : MSt T K V} (h : MInv G k s)
    (hf : s.finished G) : ∀ b, blockSize ∣ b → b < 2 ^ k → ∃ pc, s.jobs b = some pc ∧ pc.ended = true := by
  intro b h1 h2
  have hA := hf.1
  rw [hS.addr] at hA
  have := (h.claimed b).2 ⟨h1, by omega, h2⟩
  cases hj : s.jobs b with
  | none => exact absurd hj this
  | some pc =>
    refine ⟨pc, rfl, ?_⟩
    cases he : pc.ended with
    | true => rfl
    | false =>
      obtain ⟨i, hi⟩ := h.busy b pc hj he
      exact absurd hi (hf.2 i b)

end
end Growt
