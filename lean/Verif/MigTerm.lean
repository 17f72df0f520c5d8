import Verif.MigCount

/-!
# A migration by a single helper ends
-/

set_option linter.unusedSectionVars false

namespace Growt

attribute [local irreducible] blockEnd

section
variable {K V : Type} [DecidableEq K] [DecidableEq V] [Inhabited V]

theorem upd1_upd1 {A B : Type} [DecidableEq A] (f : A → B) (a : A) (x y : B) :
    upd1 (upd1 f a x) a y = upd1 f a y := by
  funext c; unfold upd1; split <;> rfl

/-- Steps of the job of block `b` alone. (proof, no code) -/
inductive Runs (G : MEnv K) (k b : Nat) : MMem K V → JobPC K V → MMem K V → JobPC K V → Prop where
  | refl (m : MMem K V) (pc : JobPC K V) : Runs G k b m pc m pc
  | step {m m' m'' : MMem K V} {pc pc' pc'' : JobPC K V} (he : pc.ended = false)
      (hs : jobStep G (blockEnd (2 ^ k) b) pc m = (m', .cont pc')) (h : Runs G k b m' pc' m'' pc'') :
      Runs G k b m pc m'' pc''

/-- What is kept while a job runs alone. (proof, no code) -/
structure Alone (G : MEnv K) (k b : Nat) (jobs : Nat → Option (JobPC K V)) (m : MMem K V)
    (pc : JobPC K V) : Prop where
  core : Core G k m (upd1 jobs b (some pc))
  torn : m.torn = false
  fresh : Fresh G m.src pc

section
variable {G : MEnv K} {k g : Nat} (hS : Shape G k g) {b : Nat} {jobs : Nat → Option (JobPC K V)}
include hS

/-- A job alone can always make its next step. -/
theorem Alone.next {m : MMem K V} {pc : JobPC K V} (h : Alone G k b jobs m pc)
    (he : pc.ended = false) : ∃ m' pc', jobStep G (blockEnd (2 ^ k) b) pc m = (m', .cont pc') ∧
      Alone G k b jobs m' pc' := by
  have hst := step_ok hS h.core (upd1_self _ _ _) he
  have hcont : ∃ m' o, jobStep G (blockEnd (2 ^ k) b) pc m = (m', o) := ⟨_, _, rfl⟩
  obtain ⟨m', o, hj⟩ := hcont
  have htorn : m'.torn = false := by
    cases o with
    | cont pc' =>
      rw [(jobStep_quiet h.fresh hj).1]; exact h.torn
    | ub =>
      -- the flag is only raised by a mark step of a changed slot
      have : ∀ pc : JobPC K V, Fresh G m.src pc →
          (jobStep G (blockEnd (2 ^ k) b) pc m).1.torn = m.torn := by
        intro pc hf
        cases pc with
        | scan i => simp only [jobStep]; split <;> (try split) <;> rfl
        | scanMark i curr => simp only [jobStep]; split <;> rfl
        | fill st qs tail i =>
          cases qs with
          | nil => rfl
          | cons q qs => simp only [jobStep]; split <;> rfl
        | load st tail i => simp only [jobStep]; split <;> rfl
        | mark st tail i curr =>
          have hcc := hf st tail i curr rfl
          simp only [jobStep]
          split
          · split
            · simp [hcc]
            · split <;> rfl
          · rfl
        | probe st tail nxt u x =>
          simp only [jobStep]
          split
          · split <;> rfl
          · rfl
        | put st tail nxt u x => simp only [jobStep]; split <;> rfl
        | fin st i => rfl
        | nothing => rfl
      have h2 := this pc h.fresh
      rw [hj] at h2
      rw [show m'.torn = m.torn from h2]; exact h.torn
  obtain ⟨pc', h1, h2⟩ := hst (by rw [hj]; exact htorn)
  rw [hj] at h1 h2
  cases h1
  refine ⟨m', pc', hj, ?_, htorn, (jobStep_quiet h.fresh hj).2.2⟩
  rw [upd1_upd1] at h2
  exact h2

/-- Bound for the indices a job can reach. (proof, no code) -/
def idxBound (G : MEnv K) (st : Nat) : Nat := st + G.src.M.total + 1

theorem Alone.bound {m : MMem K V} {pc : JobPC K V} (h : Alone G k b jobs m pc) {st cur ins : Nat}
    (he : pc.ext = some (st, cur, ins)) : cur < idxBound G st := by
  obtain ⟨hd, hb, hji⟩ := h.core.job b pc (upd1_self _ _ _)
  obtain ⟨hJ, -⟩ := hji.cells he
  have hle := hS.blockEnd_le hb
  unfold idxBound
  cases hc : G.src.M.cp with
  | false =>
    have := (hJ.shape hJ.le (.inl (Nat.le_refl _))).cur_lin hS h.core.inv hle hc
    have ht := hS.total
    rw [hc] at ht
    simp only [Bool.false_eq_true, if_false] at ht
    omega
  | true =>
    by_cases hlt : cur < st + G.src.M.total + 1
    · exact hlt
    · exfalso
      have hhi := hJ.hi
      have hT := hS.le_total
      have hne := hJ.tailne (st + G.src.M.total) (by omega) (by omega)
      rw [hS.remap_mod (.inl hc), Nat.add_mod_right, Nat.mod_eq_of_lt (by omega)] at hne
      rcases hJ.head with ⟨h1, -⟩ | ⟨h1, -⟩
      · exact hne h1
      · rw [hc] at h1; cases h1

omit hS in
theorem Runs.one {m m' : MMem K V} {pc pc' : JobPC K V} (he : pc.ended = false)
    (hs : jobStep G (blockEnd (2 ^ k) b) pc m = (m', .cont pc')) : Runs G k b m pc m' pc' :=
  .step he hs (.refl _ _)

omit hS in
theorem Runs.trans {m m' m'' : MMem K V} {pc pc' pc'' : JobPC K V} (h : Runs G k b m pc m' pc')
    (h' : Runs G k b m' pc' m'' pc'') : Runs G k b m pc m'' pc'' := by
  induction h with
  | refl => exact h'
  | step he hs _ ih => exact .step he hs (ih h')

/-- Filling ends. -/
theorem Alone.fill {st : Nat} {tail : Bool} {i : Nat} : ∀ (qs : List Nat) (m : MMem K V),
    Alone G k b jobs m (.fill st qs tail i) →
    ∃ m', Runs G k b m (.fill st qs tail i) m' (.load st tail i) ∧
      Alone G k b jobs m' (.load st tail i) := by
  intro qs
  induction qs with
  | nil =>
    intro m h
    obtain ⟨m', pc', h1, h2⟩ := h.next hS rfl
    have : jobStep G (blockEnd (2 ^ k) b) (.fill st [] tail i) m = (m, .cont (.load st tail i)) := rfl
    rw [this] at h1
    cases h1
    exact ⟨m, .one rfl this, h2⟩
  | cons q qs ih =>
    intro m h
    obtain ⟨m', pc', h1, h2⟩ := h.next hS rfl
    have hpc : pc' = .fill st qs tail i := by
      simp only [jobStep] at h1
      split at h1
      · cases h1; rfl
      · cases h1
    subst hpc
    obtain ⟨m2, h3, h4⟩ := ih m' h2
    exact ⟨m2, .step rfl h1 h3, h4⟩

/-- Probing ends. -/
theorem Alone.probe {st : Nat} {tail : Bool} {nxt : Nat} {x : Cell K V} : ∀ (n u : Nat) (m : MMem K V),
    Alone G k b jobs m (.probe st tail nxt u x) → 2 * idxBound G 0 + 2 * 2 ^ k + 2 ≤ u + n →
    ∃ m', Runs G k b m (.probe st tail nxt u x) m' (loopHead G (blockEnd (2 ^ k) b) st tail nxt) ∧
      Alone G k b jobs m' (loopHead G (blockEnd (2 ^ k) b) st tail nxt) := by
  intro n
  induction n with
  | zero =>
    intro u m h hu
    exfalso
    obtain ⟨hd, hb, hJ, hin, i0, key, v, i, d, hi⟩ := h.core.job b _ (upd1_self _ _ _)
    -- probing further than the bound would pass the source position
    have hne : (m.src (G.src.M.remap i)).c ≠ .empty := by rw [hi.pos, hi.cell]; simp
    have hmap := hS.wf.map_lt (hS.h64 key)
    rw [hS.addr] at hmap
    have hib : i ≤ G.src.M.map (G.src.h key) + G.src.M.total := by
      by_cases hle : i ≤ G.src.M.map (G.src.h key) + G.src.M.total
      · exact hle
      · exfalso
        obtain ⟨hok, -⟩ := hS.chain h.core.inv hi.passed hne (Nat.le_refl _)
        rcases hok with hc | hc
        · have h1 := hi.passed.2 (i - G.src.M.total) (by omega) (by have := hS.tot_pos; omega)
          have : G.src.M.remap (i - G.src.M.total) = G.src.M.remap i := by
            rw [hS.remap_mod (.inl hc), hS.remap_mod (.inl hc)]
            exact (Nat.mod_eq_sub_mod (by omega)).symm
          rw [this, hi.pos, hi.cell] at h1
          exact h1.2 v rfl
        · omega
    have hfib := hi.fib
    have hat := hi.at_
    have hhome := hS.home_lt key
    rw [hS.addr'] at hhome
    have h2g : 2 ^ k * 2 ^ g ≤ 2 * 2 ^ k := by
      rcases hS.gpow with h | h <;> rw [h] <;> omega
    have := hS.fib_grows key (d / 2)
    have h3 := hS.fib_mono key (show 2 * (d / 2) ≤ d by omega)
    rw [hS.fib_zero] at this
    unfold idxBound at hu
    omega
  | succ n ih =>
    intro u m h hu
    obtain ⟨m', pc', h1, h2⟩ := h.next hS rfl
    have hpc : pc' = .put st tail nxt u x ∨ pc' = .probe st tail nxt (u + 1) x := by
      simp only [jobStep] at h1
      split at h1
      · split at h1
        · cases h1
        · injection h1 with _ h1
          injection h1 with h1
          split at h1
          · exact .inl h1.symm
          · exact .inr h1.symm
      · cases h1
    rcases hpc with hpc | hpc
    · subst hpc
      obtain ⟨m2, pc2, h3, h4⟩ := h2.next hS rfl
      have hpc2 : pc2 = loopHead G (blockEnd (2 ^ k) b) st tail nxt := by
        simp only [jobStep] at h3
        split at h3
        · cases h3; rfl
        · cases h3
      subst hpc2
      exact ⟨m2, .step rfl h1 (.one rfl h3), h4⟩
    · subst hpc
      obtain ⟨m2, h3, h4⟩ := ih (u + 1) m' h2 (by omega)
      exact ⟨m2, .step rfl h1 h3, h4⟩

/-- One round: from loading slot `i` the job comes to its end or to the next index. -/
theorem Alone.round {st : Nat} {tail : Bool} {i : Nat} {m : MMem K V}
    (h : Alone G k b jobs m (.load st tail i)) :
    (∃ m' pc', Runs G k b m (.load st tail i) m' pc' ∧ Alone G k b jobs m' pc' ∧ pc'.ended = true) ∨
    ∃ m' tail', Runs G k b m (.load st tail i) m' (.load st tail' (i + 1)) ∧
      Alone G k b jobs m' (.load st tail' (i + 1)) := by
  -- from a loop head to a load
  have hhead : ∀ (m' : MMem K V) tl, Runs G k b m (.load st tail i) m'
      (loopHead G (blockEnd (2 ^ k) b) st tl (i + 1)) →
      Alone G k b jobs m' (loopHead G (blockEnd (2 ^ k) b) st tl (i + 1)) →
      ∃ m' tail', Runs G k b m (.load st tail i) m' (.load st tail' (i + 1)) ∧
      Alone G k b jobs m' (.load st tail' (i + 1)) := by
    intro m' tl h1 h2
    unfold loopHead at h1 h2
    by_cases hc : tl = false ∧ i + 1 < blockEnd (2 ^ k) b
    · rw [if_pos hc] at h1 h2
      exact ⟨m', false, h1, h2⟩
    · rw [if_neg hc] at h1 h2
      obtain ⟨m2, h3, h4⟩ := h2.fill hS
      exact ⟨m2, true, h1.trans h3, h4⟩
  obtain ⟨m1, pc1, h1, h2⟩ := h.next hS rfl
  have hm1 : m1 = m ∧ pc1 = .mark st tail i (m.src (G.src.M.remap i)) := by
    simp only [jobStep] at h1
    split at h1
    · cases h1; exact ⟨rfl, rfl⟩
    · cases h1
  obtain ⟨rfl, rfl⟩ := hm1
  obtain ⟨m2, pc2, h3, h4⟩ := h2.next hS rfl
  have hrun : Runs G k b m1 (.load st tail i) m2 pc2 := .step rfl h1 (.one rfl h3)
  have hpr : process G (blockEnd (2 ^ k) b) st tail i (i + 1) (m1.src (G.src.M.remap i)) = .cont pc2 := by
    have hr : (atomicMark G.src.m G.upd (m1.src (G.src.M.remap i)) (m1.src (G.src.M.remap i))).2 =
        (m1.src (G.src.M.remap i), true) := by
      unfold atomicMark; split <;> simp
    simp only [jobStep, hr] at h3
    split at h3
    · cases tail with
      | true => simp only [if_true] at h3; injection h3
      | false => simp only [Bool.false_eq_true, if_false, if_true] at h3; injection h3
    · cases h3
  unfold process at hpr
  split at hpr
  · split at hpr
    · cases hpr
      exact .inl ⟨m2, _, hrun, h4, rfl⟩
    · cases hpr
      exact .inr (hhead m2 false hrun h4)
  · split at hpr
    · cases hpr
      exact .inr (hhead m2 tail hrun h4)
    · split at hpr
      · cases hpr
        obtain ⟨m3, h5, h6⟩ := h4.probe hS (2 * idxBound G 0 + 2 * 2 ^ k + 2) _ _ (by omega)
        exact .inr (hhead m3 tail (hrun.trans h5) h6)
      · cases hpr

theorem Alone.load {st : Nat} : ∀ (n : Nat) (tail : Bool) (i : Nat) (m : MMem K V),
    Alone G k b jobs m (.load st tail i) → idxBound G st ≤ i + n →
    ∃ m' pc', Runs G k b m (.load st tail i) m' pc' ∧ Alone G k b jobs m' pc' ∧ pc'.ended = true := by
  intro n
  induction n with
  | zero =>
    intro tail i m h hn
    have := h.bound hS (st := st) (cur := i) (ins := i) rfl
    omega
  | succ n ih =>
    intro tail i m h hn
    rcases h.round hS with h1 | ⟨m', tail', h1, h2⟩
    · exact h1
    · obtain ⟨m2, pc2, h3, h4, h5⟩ := ih tail' (i + 1) m' h2 (by omega)
      exact ⟨m2, pc2, h1.trans h3, h4, h5⟩

theorem Alone.fillEnds {st : Nat} {qs : List Nat} {tail : Bool} {i : Nat} {m : MMem K V}
    (h : Alone G k b jobs m (.fill st qs tail i)) :
    ∃ m' pc', Runs G k b m (.fill st qs tail i) m' pc' ∧ Alone G k b jobs m' pc' ∧
      pc'.ended = true := by
  obtain ⟨m1, h1, h2⟩ := h.fill hS
  obtain ⟨m2, pc2, h3, h4, h5⟩ := h2.load hS (idxBound G st) tail i m1 (by omega)
  exact ⟨m2, pc2, h1.trans h3, h4, h5⟩

theorem Alone.scan : ∀ (n i : Nat) (m : MMem K V), Alone G k b jobs m (.scan i) →
    blockEnd (2 ^ k) b ≤ i + n →
    ∃ m' pc', Runs G k b m (.scan i) m' pc' ∧ Alone G k b jobs m' pc' ∧ pc'.ended = true := by
  intro n
  induction n with
  | zero =>
    intro i m h hn
    obtain ⟨-, -, -, h2, -⟩ := h.core.job b _ (upd1_self _ _ _)
    omega
  | succ n ih =>
    intro i m h hn
    obtain ⟨m1, pc1, h1, h2⟩ := h.next hS rfl
    have hc : (m1 = m ∧ pc1 = .scanMark i (m.src i)) ∨ pc1 = .scan (i + 1) ∨ pc1 = .nothing := by
      simp only [jobStep] at h1
      split at h1
      · split at h1
        · cases h1; exact .inl ⟨rfl, rfl⟩
        · injection h1 with _ h1
          injection h1 with h1
          split at h1
          · exact .inr (.inl h1.symm)
          · exact .inr (.inr h1.symm)
      · cases h1
    rcases hc with ⟨rfl, rfl⟩ | rfl | rfl
    · obtain ⟨m2, pc2, h3, h4⟩ := h2.next hS rfl
      have hr : (atomicMark G.src.m G.upd (m1.src i) (m1.src i)).2 = (m1.src i, true) := by
        unfold atomicMark; split <;> simp
      have hpc : pc2 = .fill i (initRange G.tgt.M i (blockEnd (2 ^ k) b)) false i := by
        simp only [jobStep, hr, if_true] at h3
        split at h3
        · cases h3; rfl
        · cases h3
      subst hpc
      obtain ⟨m3, pc3, h5, h6, h7⟩ := h4.fillEnds hS
      exact ⟨m3, pc3, .step rfl h1 (.step rfl h3 h5), h6, h7⟩
    · obtain ⟨m3, pc3, h5, h6, h7⟩ := ih (i + 1) m1 h2 (by omega)
      exact ⟨m3, pc3, .step rfl h1 h5, h6, h7⟩
    · exact ⟨m1, _, .one rfl h1, h2, rfl⟩

/-- A job that runs alone from its start ends. -/
theorem Alone.start {m : MMem K V}
    (h : Alone G k b jobs m (jobStart G b (blockEnd (2 ^ k) b))) :
    ∃ m' pc', Runs G k b m (jobStart G b (blockEnd (2 ^ k) b)) m' pc' ∧ Alone G k b jobs m' pc' ∧
      pc'.ended = true := by
  unfold jobStart at h ⊢
  by_cases h1 : G.src.M.cp = true ∨ b > 0
  · rw [if_pos h1] at h ⊢
    by_cases h2 : b < blockEnd (2 ^ k) b
    · rw [if_pos h2] at h ⊢
      exact h.scan hS (blockEnd (2 ^ k) b) b m (by omega)
    · rw [if_neg h2] at h ⊢
      exact ⟨m, _, .refl _ _, h, rfl⟩
  · rw [if_neg h1] at h ⊢
    by_cases h2 : b < blockEnd (2 ^ k) b
    · rw [if_pos h2] at h ⊢
      exact h.fillEnds hS
    · rw [if_neg h2] at h ⊢
      exact ⟨m, _, .refl _ _, h, rfl⟩

end

/-- The steps of a job as steps of the helper working on it. -/
theorem Runs.msteps {T : Type} [DecidableEq T] {G : MEnv K} {k b : Nat}
    (hA : G.src.M.addr = 2 ^ k) {t : Tbl K V} {m m' : MMem K V} {pc pc' : JobPC K V}
    (h : Runs G k b m pc m' pc') :
    ∀ (s : MSt T K V) (i : T), MQuiet G t s → s.thr i = .work b → s.mem = m →
      s.jobs b = some pc → MQuiet G t ⟨m', s.next, s.thr, upd1 s.jobs b (some pc')⟩ := by
  induction h with
  | refl m pc =>
    intro s i hq hw hm hj
    have : upd1 s.jobs b (some pc) = s.jobs := by
      funext c; unfold upd1; split
      · rename_i h; subst h; exact hj.symm
      · rfl
    rw [this, ← hm]; exact hq
  | @step m m1 m2 pc pc1 pc2 he hs _ ih =>
    intro s i hq hw hm hj
    have hfr := hq.good.2.2 b pc hj
    subst hm
    have hst : MStep G s ⟨m1, s.next, s.thr, upd1 s.jobs b (some pc1)⟩ :=
      .work hw hj he (by rw [hA]; exact hs)
    have := ih ⟨m1, s.next, s.thr, upd1 s.jobs b (some pc1)⟩ i
      (.step hq hst (jobStep_quiet hfr hs).2.1) hw rfl (upd1_self _ _ _)
    simp only at this
    have e : upd1 (upd1 s.jobs b (some pc1)) b (some pc2) = upd1 s.jobs b (some pc2) := by
      funext c; unfold upd1; split <;> rfl
    rw [e] at this
    exact this

/-- A single helper migrates the whole table. -/
theorem single_helper_ends {G : MEnv K} {k g : Nat} (hS : Shape G k g) {t : Tbl K V}
    (hI : Inv G.src t) (hm : NoMarks t) :
    ∃ s : MSt Unit K V, MQuiet G t s ∧ s.finished G := by
  have key : ∀ n (s : MSt Unit K V), MQuiet G t s → s.thr () = .claim → 2 ^ k ≤ s.next + n →
      ∃ s' : MSt Unit K V, MQuiet G t s' ∧ s'.finished G := by
    intro n
    induction n with
    | zero =>
      intro s hq hc hn
      refine ⟨s, hq, by rw [hS.addr]; omega, fun i b => ?_⟩
      rw [show s.thr i = .claim from hc]; simp
    | succ n ih =>
      intro s hq hc hn
      by_cases hlt : s.next < 2 ^ k
      · have hst : MStep G s _ := .claim hc (by rw [hS.addr]; exact hlt)
        have hq1 := MQuiet.step hq hst (fun _ => rfl)
        have hinv := MInv.reach hS hI hm hq1.reach
        have hgood := hq1.good
        rw [hS.addr] at hq1 hinv hgood
        have hal : Alone G k s.next s.jobs s.mem (jobStart G s.next (blockEnd (2 ^ k) s.next)) :=
          ⟨hinv.core hgood.1, hgood.1, jobStart_fresh _ _ _ _⟩
        obtain ⟨m', pc', h1, h2, h3⟩ := hal.start hS
        have hq2 := h1.msteps hS.addr _ () hq1 (upd1_self s.thr () _) rfl (upd1_self _ _ _)
        have hst3 : MStep G _ _ := .ret (s := ⟨m', s.next + blockSize, upd1 s.thr () (.work s.next),
          upd1 (upd1 s.jobs s.next (some (jobStart G s.next (blockEnd (2 ^ k) s.next)))) s.next (some pc')⟩)
          (i := ()) (b := s.next) (upd1_self s.thr () _) (upd1_self _ _ _) h3
        have hq3 := MQuiet.step hq2 hst3 (fun _ => rfl)
        exact ih _ hq3 (upd1_self (upd1 s.thr () (.work s.next)) () _) (by show 2 ^ k ≤ s.next + blockSize + n; unfold blockSize; omega)
      · refine ⟨s, hq, by rw [hS.addr]; omega, fun i b => ?_⟩
        rw [show s.thr i = .claim from hc]; simp
  exact key (2 ^ k) (MSt.init G t) .init rfl (by simp [MSt.init])

end
end Growt
