import Verif.MigTerm

/-!
# Handing out blocks: facts about every reachable state of a migration, whatever the table
-/

set_option linter.unusedSectionVars false

namespace Growt

attribute [local irreducible] blockEnd

section
variable {T K V : Type} [DecidableEq T] [DecidableEq K] [DecidableEq V] [Inhabited V]

/-- What holds about the claimed blocks in every reachable state, for every table. (proof, no code) -/
structure ClaimInv (G : MEnv K) (s : MSt T K V) : Prop where
  nd : blockSize ∣ s.next
  claimed : ∀ b, s.jobs b ≠ none ↔ (blockSize ∣ b ∧ b < s.next ∧ b < G.src.M.addr)
  worker : ∀ i b, s.thr i = .work b → s.jobs b ≠ none
  one : ∀ i j b, s.thr i = .work b → s.thr j = .work b → i = j
  busy : ∀ b pc, s.jobs b = some pc → pc.ended = false → ∃ i, s.thr i = .work b

theorem ClaimInv.step {G : MEnv K} {s s' : MSt T K V} (h : ClaimInv G s) (hs : MStep G s s') :
    ClaimInv G s' := by
  have hbs : blockSize = 4096 := rfl
  have hdvd : blockSize ∣ s.next + blockSize := Nat.dvd_add h.nd (Nat.dvd_refl _)
  cases hs with
  | @claim i hc hlt =>
    have hnone : s.jobs s.next = none := by
      cases hj : s.jobs s.next with
      | none => rfl
      | some pc => exact absurd ((h.claimed s.next).1 (by simp [hj])).2.1 (by omega)
    refine ⟨hdvd, fun b => ?_, fun j b hj => ?_, fun j1 j2 b h1 h2 => ?_, fun b pc h1 h2 => ?_⟩
    · by_cases hb : b = s.next
      · subst hb
        simp only [upd1_self, ne_eq, reduceCtorEq, not_false_eq_true, true_iff]
        exact ⟨h.nd, by omega, hlt⟩
      · simp only [upd1_ne hb]
        rw [h.claimed b]
        constructor
        · rintro ⟨h1, h2, h3⟩; exact ⟨h1, by omega, h3⟩
        · rintro ⟨h1, h2, h3⟩
          refine ⟨h1, ?_, h3⟩
          obtain ⟨x, hx⟩ := h1
          obtain ⟨y, hy⟩ := h.nd
          rw [hbs] at hx hy h2
          omega
    · by_cases hij : j = i
      · subst hij
        simp only [upd1_self] at hj
        cases hj
        simp [upd1_self]
      · simp only [upd1_ne hij] at hj
        have hb := h.worker j b hj
        have : b ≠ s.next := by intro hb2; rw [hb2] at hb; exact hb hnone
        simp only [upd1_ne this]
        exact hb
    · by_cases h1i : j1 = i <;> by_cases h2i : j2 = i
      · rw [h1i, h2i]
      · subst h1i
        simp only [upd1_self] at h1
        simp only [upd1_ne h2i] at h2
        cases h1
        exact absurd hnone (h.worker _ _ h2)
      · subst h2i
        simp only [upd1_self] at h2
        simp only [upd1_ne h1i] at h1
        cases h2
        exact absurd hnone (h.worker _ _ h1)
      · simp only [upd1_ne h1i] at h1
        simp only [upd1_ne h2i] at h2
        exact h.one _ _ _ h1 h2
    · by_cases hb : b = s.next
      · subst hb; exact ⟨i, by simp only [upd1_self]⟩
      · simp only [upd1_ne hb] at h1
        obtain ⟨j, hj⟩ := h.busy b pc h1 h2
        refine ⟨j, ?_⟩
        have : j ≠ i := by intro e; subst e; rw [hc] at hj; cases hj
        simp only [upd1_ne this]
        exact hj
  | @leave i hc hge =>
    refine ⟨hdvd, fun b => ?_, fun j b hj => ?_, fun j1 j2 b h1 h2 => ?_, fun b pc h1 h2 => ?_⟩
    · rw [h.claimed b]
      constructor
      · rintro ⟨h1, h2, h3⟩; exact ⟨h1, (by show b < s.next + blockSize; omega), h3⟩
      · rintro ⟨h1, h2, h3⟩; exact ⟨h1, by omega, h3⟩
    · have : j ≠ i := by intro e; subst e; simp only [upd1_self] at hj; cases hj
      simp only [upd1_ne this] at hj
      exact h.worker j b hj
    · have e1 : j1 ≠ i := by intro e; subst e; simp only [upd1_self] at h1; cases h1
      have e2 : j2 ≠ i := by intro e; subst e; simp only [upd1_self] at h2; cases h2
      simp only [upd1_ne e1] at h1
      simp only [upd1_ne e2] at h2
      exact h.one _ _ _ h1 h2
    · obtain ⟨j, hj⟩ := h.busy b pc h1 h2
      refine ⟨j, ?_⟩
      have : j ≠ i := by intro e; subst e; rw [hc] at hj; cases hj
      simp only [upd1_ne this]
      exact hj
  | @work i b0 pc0 pc1 m' hw hj he hst =>
    refine ⟨h.nd, fun b => ?_, fun j b hjw => ?_, h.one, fun b pc h1 h2 => ?_⟩
    · by_cases hb : b = b0
      · subst hb
        rw [← h.claimed b]
        simp [upd1_self, hj]
      · simp only [upd1_ne hb]; exact h.claimed b
    · by_cases hb : b = b0
      · subst hb; simp [upd1_self]
      · simp only [upd1_ne hb]; exact h.worker j b hjw
    · by_cases hb : b = b0
      · subst hb; exact ⟨i, hw⟩
      · simp only [upd1_ne hb] at h1; exact h.busy b pc h1 h2
  | @ret i b0 pc0 hw hj he =>
    refine ⟨h.nd, h.claimed, fun j b hjw => ?_, fun j1 j2 b h1 h2 => ?_, fun b pc h1 h2 => ?_⟩
    · have : j ≠ i := by intro e; subst e; simp only [upd1_self] at hjw; cases hjw
      simp only [upd1_ne this] at hjw
      exact h.worker j b hjw
    · have e1 : j1 ≠ i := by intro e; subst e; simp only [upd1_self] at h1; cases h1
      have e2 : j2 ≠ i := by intro e; subst e; simp only [upd1_self] at h2; cases h2
      simp only [upd1_ne e1] at h1
      simp only [upd1_ne e2] at h2
      exact h.one _ _ _ h1 h2
    · obtain ⟨j, hjw⟩ := h.busy b pc h1 h2
      refine ⟨j, ?_⟩
      have : j ≠ i := by
        intro e; subst e
        rw [hw] at hjw
        cases hjw
        rw [hj] at h1
        cases h1
        rw [he] at h2
        cases h2
      simp only [upd1_ne this]
      exact hjw
  | @enter i hl =>
    have hw : ∀ j b, upd1 s.thr i .claim j = .work b → s.thr j = .work b := by
      intro j b hj
      have : j ≠ i := by intro e; subst e; simp only [upd1_self] at hj; cases hj
      simpa only [upd1_ne this] using hj
    refine ⟨h.nd, h.claimed, fun j b hj => h.worker j b (hw j b hj),
      fun j1 j2 b h1 h2 => h.one j1 j2 b (hw _ _ h1) (hw _ _ h2), fun b pc h1 h2 => ?_⟩
    obtain ⟨j, hj⟩ := h.busy b pc h1 h2
    refine ⟨j, ?_⟩
    have : j ≠ i := by intro e; subst e; rw [hl] at hj; cases hj
    simp only [upd1_ne this]
    exact hj
  | env h' => exact ⟨h.nd, h.claimed, h.worker, h.one, h.busy⟩

theorem ClaimInv.reach {G : MEnv K} {t : Tbl K V} {s : MSt T K V} (h : MReach G t s) :
    ClaimInv G s := by
  induction h with
  | init =>
    refine ⟨⟨0, rfl⟩, fun b => ?_, (fun i b h => by cases h), (fun i j b h => by cases h),
      (fun b pc h => by cases h)⟩
    simp [MSt.init]
  | step _ hs ih => exact ih.step hs

/-- A claimed block stays claimed and a job that has returned does not run again. -/
theorem MStep.jobs_grow {G : MEnv K} {s s' : MSt T K V} (h : ClaimInv G s) (hs : MStep G s s') :
    ∀ b pc, s.jobs b = some pc → (∃ pc', s'.jobs b = some pc') ∧
      (pc.ended = true → s'.jobs b = some pc) := by
  intro b pc hb
  cases hs with
  | @claim i hc hlt =>
    have : b ≠ s.next := by
      intro e; subst e
      exact absurd ((h.claimed s.next).1 (by simp [hb])).2.1 (by omega)
    simp only [upd1_ne this]
    exact ⟨⟨pc, hb⟩, fun _ => hb⟩
  | @leave i hc hge => exact ⟨⟨pc, hb⟩, fun _ => hb⟩
  | @enter i hl => exact ⟨⟨pc, hb⟩, fun _ => hb⟩
  | @work i b0 pc0 pc1 m' hw hj he hst =>
    by_cases e : b = b0
    · subst e
      simp only [upd1_self]
      rw [hj] at hb
      cases hb
      exact ⟨⟨_, rfl⟩, fun h => by rw [he] at h; cases h⟩
    · simp only [upd1_ne e]
      exact ⟨⟨pc, hb⟩, fun _ => hb⟩
  | @ret i b0 pc0 hw hj he => exact ⟨⟨pc, hb⟩, fun _ => hb⟩
  | env _ => exact ⟨⟨pc, hb⟩, fun _ => hb⟩

end
end Growt
