import Verif.SyncInv

/-! # Synchronised growth: registration of handles -/

set_option linter.unusedSectionVars false

namespace Growt
namespace Sync

/-- Flags that a thread holds or looks at. (proof, no code) -/
def PC.level {A : Type} : PC A → Nat
  | .out => 0
  | .reg i => i
  | .regTry i => i
  | .lost => maxHandles
  | p => (p.flags).getD 0

/-- Number of threads that satisfy a condition. (proof, no code) -/
def many {m : Nat} (p : Fin m → Bool) : Nat := (List.finRange m).countP p

theorem countP_mono {X : Type} {p q : X → Bool} (h : ∀ x, p x = true → q x = true) (l : List X) :
    l.countP p ≤ l.countP q := by
  induction l with
  | nil => exact Nat.le_refl _
  | cons a l ih =>
    simp only [List.countP_cons]
    have := h a
    cases hp : p a <;> cases hq : q a <;> simp_all <;> omega

theorem countP_strict {X : Type} {p q : X → Bool} (h : ∀ x, p x = true → q x = true) {l : List X}
    {y : X} (hy : y ∈ l) (hq : q y = true) (hp : p y = false) : l.countP p + 1 ≤ l.countP q := by
  induction l with
  | nil => cases hy
  | cons a l ih =>
    simp only [List.countP_cons]
    rcases List.mem_cons.1 hy with rfl | hy
    · have := countP_mono h l
      simp [hp, hq]; omega
    · have := ih hy
      have := h a
      cases hp : p a <;> cases hq : q a <;> simp_all <;> omega

theorem many_mono {m : Nat} {p q : Fin m → Bool} (h : ∀ x, p x = true → q x = true) :
    many p ≤ many q := countP_mono h _

theorem many_strict {m : Nat} {p q : Fin m → Bool} (h : ∀ x, p x = true → q x = true)
    (y : Fin m) (hq : q y = true) (hp : p y = false) : many p + 1 ≤ many q :=
  countP_strict h (List.mem_finRange y) hq hp

theorem many_le {m : Nat} (p : Fin m → Bool) : many p ≤ m := by
  have := List.countP_le_length (p := p) (l := List.finRange m)
  rwa [List.length_finRange] at this

theorem countP_insert {X : Type} [DecidableEq X] {q : X → Bool} {y : X} (hq : q y = false) {l : List X}
    (hn : l.Nodup) : l.countP (fun x => q x || decide (x = y)) = l.countP q + if y ∈ l then 1 else 0 := by
  induction l with
  | nil => rfl
  | cons a l ih =>
    have hn' := List.nodup_cons.1 hn
    simp only [List.countP_cons, ih hn'.2]
    by_cases ha : a = y
    · subst ha; simp [hq, hn'.1]
    · have : ¬ y = a := fun h => ha h.symm
      cases hqa : q a <;> simp [ha, this] <;> omega

theorem many_insert {m : Nat} {q : Fin m → Bool} {y : Fin m} (hq : q y = false) :
    many (fun x => q x || decide (x = y)) = many q + 1 := by
  unfold many
  rw [countP_insert hq (List.nodup_finRange m), if_pos (List.mem_finRange y)]

section
variable {A : Type} [DecidableEq A] {m : Nat}

/-- Number of threads beyond flags `i`. (proof, no code) -/
def St.beyond (s : St (Fin m) A) (i : Nat) : Nat := many fun t => decide (i < (s.pc t).level)

/-- Invariant: used flags belong to a thread, and few threads are at high flags. (proof, no code) -/
structure RInv (s : St (Fin m) A) : Prop where
  holds : ∀ i, s.used i = true → ∃ t, (s.pc t).flags = some i
  few : ∀ i, s.beyond i ≤ m - 1 - i

/-- No thread gets to higher flags. -/
theorem RInv.mono {s s' : St (Fin m) A} (hI : RInv s)
    (hh : ∀ i, s'.used i = true → ∃ t, (s'.pc t).flags = some i)
    (hl : ∀ t, (s'.pc t).level ≤ (s.pc t).level) : RInv s' where
  holds := hh
  few i := by
    refine Nat.le_trans (many_mono ?_) (hI.few i)
    intro t ht
    have := hl t
    simp only [decide_eq_true_eq] at ht ⊢
    omega

/-- A thread passes flags that are in use. -/
theorem RInv.pass {s s' : St (Fin m) A} (hI : RInv s) {t : Fin m} {i : Nat} (hp : s.pc t = .reg i)
    (hu : s.used i = true) (hpc : s'.pc = upd s.pc t (.reg (i + 1))) (hus : s'.used = s.used) :
    RInv s' := by
  have hat : ∀ t', s'.pc t' = if t' = t then .reg (i + 1) else s.pc t' := fun t' => by rw [hpc]; rfl
  have hold : ∀ j, j ≠ i → s'.beyond j ≤ s.beyond j := by
    intro j hj
    refine many_mono ?_
    intro t' ht'
    simp only [decide_eq_true_eq, hat] at ht' ⊢
    split at ht'
    · next h => subst h; rw [hp]; simp only [PC.level] at ht' ⊢; omega
    · exact ht'
  obtain ⟨u, hfu⟩ := hI.holds i hu
  have hut : u ≠ t := by rintro rfl; rw [hp] at hfu; cases hfu
  have hul : (s'.pc u).level = i := by
    rw [hat, if_neg hut]
    cases hq : s.pc u <;> rw [hq] at hfu <;> simp_all [PC.flags, PC.level]
  constructor
  · intro j hj
    rw [hus] at hj
    obtain ⟨w, hw⟩ := hI.holds j hj
    refine ⟨w, ?_⟩
    rw [hat, if_neg ?_]
    · exact hw
    · rintro rfl; rw [hp] at hw; cases hw
  · intro j
    by_cases hj : j = i
    · subst hj
      cases j with
      | zero =>
        have h1 : s'.beyond 0 + 1 ≤ many (m := m) fun _ => true :=
          many_strict (fun _ _ => rfl) u rfl (by simp [hul])
        have h2 := many_le (m := m) fun _ => true
        omega
      | succ j =>
        have h1 : s'.beyond (j + 1) + 1 ≤ s'.beyond j := by
          refine many_strict ?_ u ?_ ?_
          · intro x hx; simp only [decide_eq_true_eq] at hx ⊢; omega
          · simp [hul]
          · simp [hul]
        have h2 := hold j (by omega)
        have h3 := hI.few j
        omega
    · exact Nat.le_trans (hold j hj) (hI.few j)

/-- Steps that do not change who holds which flags. -/
theorem RInv.same {s s' : St (Fin m) A} (hI : RInv s) {t : Fin m} {p : PC A}
    (hpc : s'.pc = upd s.pc t p) (hus : s'.used = s.used) (hf : p.flags = (s.pc t).flags)
    (hl : p.level ≤ (s.pc t).level) : RInv s' := by
  refine hI.mono ?_ ?_
  · intro i hi
    rw [hus] at hi
    obtain ⟨u, hu⟩ := hI.holds i hi
    refine ⟨u, ?_⟩
    rw [hpc]; simp only [upd]
    split
    · next h => subst h; rw [hf]; exact hu
    · exact hu
  · intro t'
    rw [hpc]; simp only [upd]
    split
    · next h => subst h; exact hl
    · exact Nat.le_refl _

theorem reg_step {s s' : St (Fin m) A} {l : Lbl (Fin m) A} (hS : SInv s) (hI : RInv s)
    (hs : Step false s l s') : RInv s' := by
  have key : ∀ {t : Fin m} {p q : PC A}, s.pc t = q → s'.pc = upd s.pc t p → s'.used = s.used →
      p.flags = q.flags → p.level ≤ q.level → RInv s' := by
    intro t p q hq hpc hus hf hl
    subst hq
    exact hI.same hpc hus hf hl
  cases hs with
  | gtNull | opStep | grOpsWait | grMigWait | mgWait | mgWork | hgWait => exact hI
  | regCas => exact ⟨hI.holds, hI.few⟩
  | create hp => exact key hp rfl rfl rfl (Nat.le_refl _)
  | regUsed hp hi hu => exact hI.pass hp hu rfl rfl
  | regFree hp hi hu => exact key hp rfl rfl rfl (Nat.le_refl _)
  | @regNone t i hp hi => exact key hp rfl rfl rfl (by simp only [PC.level]; omega)
  | @reserve t i hp hu =>
    refine hI.mono ?_ ?_
    · intro j hj
      by_cases hji : j = i
      · exact ⟨t, by rw [hji]; show (upd s.pc t _ t).flags = _; rw [upd_self]; rfl⟩
      · simp only [upd_ne _ _ hji] at hj
        obtain ⟨u, hw⟩ := hI.holds j hj
        refine ⟨u, ?_⟩
        have : u ≠ t := by rintro rfl; rw [hp] at hw; cases hw
        show (upd s.pc t _ u).flags = _
        rw [upd_ne _ _ this]; exact hw
    · intro t'
      show (upd s.pc t _ t').level ≤ _
      simp only [upd]
      split
      · next h => subst h; rw [hp]; exact Nat.le_refl _
      · exact Nat.le_refl _
  | reserveFail hp hu => exact key hp rfl rfl rfl (Nat.le_refl _)
  | regLoad hp => exact key hp rfl rfl rfl (Nat.le_refl _)
  | regCasFail hp hn => exact key hp rfl rfl rfl (Nat.le_refl _)
  | regEnd hp hn => exact key hp rfl rfl rfl (Nat.le_refl _)
  | @destroy t h hp hsh =>
    refine hI.mono ?_ ?_
    · intro j hj
      by_cases hji : j = h.i
      · subst hji; simp only [upd_self] at hj; cases hj
      · simp only [upd_ne _ _ hji] at hj
        obtain ⟨u, hw⟩ := hI.holds j hj
        refine ⟨u, ?_⟩
        have : u ≠ t := by rintro rfl; rw [hp] at hw; cases hw; exact hji rfl
        show (upd s.pc t _ u).flags = _
        rw [upd_ne _ _ this]; exact hw
    · intro t'
      show (upd s.pc t _ t').level ≤ _
      simp only [upd]
      split
      · exact Nat.zero_le _
      · exact Nat.le_refl _
  | @move t t' h hp hsh hp' =>
    have htt : t' ≠ t := by rintro rfl; rw [hp] at hp'; cases hp'
    constructor
    · intro j hj
      obtain ⟨u, hw⟩ := hI.holds j hj
      by_cases hu : u = t
      · subst hu
        rw [hp] at hw
        refine ⟨t', ?_⟩
        show (upd (upd s.pc u _) t' _ t').flags = _
        rw [upd_self]; exact hw
      · have hu' : u ≠ t' := by rintro rfl; rw [hp'] at hw; cases hw
        refine ⟨u, ?_⟩
        show (upd (upd s.pc t _) t' _ u).flags = _
        rw [upd_ne _ _ hu', upd_ne _ _ hu]; exact hw
    · intro i
      refine Nat.le_trans ?_ (hI.few i)
      have hnew : ∀ x, ((s.at t (.out : PC A)).at t' (.idle h)).pc x =
          if x = t' then .idle h else if x = t then .out else s.pc x := fun x => rfl
      show (many fun x => decide (i < (((s.at t (.out : PC A)).at t' (.idle h)).pc x).level)) ≤
        many fun x => decide (i < (s.pc x).level)
      by_cases hi : i < h.i
      · have h1 := many_insert (q := fun x => decide (x ≠ t ∧ x ≠ t' ∧ i < (s.pc x).level)) (y := t) (by simp)
        have h2 := many_insert (q := fun x => decide (x ≠ t ∧ x ≠ t' ∧ i < (s.pc x).level)) (y := t') (by simp)
        rw [← h2] at h1
        refine Nat.le_trans (many_mono ?_) (Nat.le_trans (Nat.le_of_eq h1.symm) (many_mono ?_))
        · intro x hx
          rw [hnew] at hx
          by_cases hx' : x = t'
          · simp [hx']
          · by_cases hxt : x = t
            · subst hxt; simp [hx', PC.level] at hx
            · simp [hx', hxt] at hx ⊢; exact hx
        · intro x hx
          by_cases hxt : x = t
          · subst hxt; rw [hp]; simp [PC.level, PC.flags, hi]
          · simp [hxt] at hx ⊢; exact hx.2
      · refine many_mono ?_
        intro x hx
        rw [hnew] at hx
        by_cases hx' : x = t'
        · simp [hx', PC.level, PC.flags, hi] at hx
        · by_cases hxt : x = t
          · subst hxt; simp [hx', PC.level] at hx
          · simp [hx', hxt] at hx ⊢; exact hx
  | call hp => exact key hp rfl rfl rfl (Nat.le_refl _)
  | gtMark hp ht => exact key hp rfl rfl rfl (Nat.le_refl _)
  | gtLoad hp ht => exact key hp rfl rfl rfl (Nat.le_refl _)
  | gtStore hp => exact key hp rfl rfl rfl (Nat.le_refl _)
  | gtSame hp ht ho => exact key hp rfl rfl rfl (Nat.le_refl _)
  | gtOther hp ht => exact key hp rfl rfl rfl (Nat.le_refl _)
  | gtClear hp => exact key hp rfl rfl rfl (Nat.le_refl _)
  | @opEnd t h a v hp x =>
    have hb := (hS.base hp rfl).shell
    refine key hp rfl rfl ?_ ?_ <;> unfold Exit.next <;> rw [hb] <;> cases x <;>
      first | rfl | exact Nat.le_refl _
  | grEpoch hp => exact key hp rfl rfl rfl (Nat.le_refl _)
  | grNot hp he => exact key hp rfl rfl rfl (Nat.le_refl _)
  | grCas hp hv he => exact key hp rfl rfl rfl (Nat.le_refl _)
  | grLoad hp ht ho => exact key hp rfl rfl rfl (Nat.le_refl _)
  | grLoadMark hp ht => exact key hp rfl rfl rfl (Nat.le_refl _)
  | grMark hp ht => exact key hp rfl rfl rfl (Nat.le_refl _)
  | grMarkFail hp ht => exact key hp rfl rfl rfl (Nat.le_refl _)
  | grMake n hp ho hb => exact key hp rfl rfl rfl (Nat.le_refl _)
  | grOps hp => exact key hp rfl rfl rfl (Nat.le_refl _)
  | grOpsNext hp => exact key hp rfl rfl rfl (Nat.le_refl _)
  | grOpsEnd hp => exact key hp rfl rfl rfl (Nat.le_refl _)
  | grNext hp => exact key hp rfl rfl rfl (Nat.le_refl _)
  | grNull hp => exact key hp rfl rfl rfl (Nat.le_refl _)
  | grMig hp => exact key hp rfl rfl rfl (Nat.le_refl _)
  | grMigNext hp => exact key hp rfl rfl rfl (Nat.le_refl _)
  | grMigEnd hp => exact key hp rfl rfl rfl (Nat.le_refl _)
  | grPublish hp => exact key hp rfl rfl rfl (Nat.le_refl _)
  | grDelete hp => exact key hp rfl rfl rfl (Nat.le_refl _)
  | @mgNone t h c hp => cases c <;> exact key hp rfl rfl rfl (Nat.le_refl _)
  | mgLoad hp => exact key hp rfl rfl rfl (Nat.le_refl _)
  | mgStore hp => exact key hp rfl rfl rfl (Nat.le_refl _)
  | mgNext hp => exact key hp rfl rfl rfl (Nat.le_refl _)
  | mgClaim hp => exact key hp rfl rfl rfl (Nat.le_refl _)
  | mgLeave hp => exact key hp rfl rfl rfl (Nat.le_refl _)
  | mgDone hp => exact key hp rfl rfl rfl (Nat.le_refl _)
  | @mgEnd t h c a b v o hp => cases c <;> exact key hp rfl rfl rfl (Nat.le_refl _)
  | hgEnd hp => exact key hp rfl rfl rfl (Nat.le_refl _)

theorem Reach.rinv {a : A} {n : Nat} {s : St (Fin m) A} (h : Reach false a n s) : RInv s := by
  induction h with
  | init =>
    constructor
    · intro i hi; cases hi
    · intro i
      have : (St.init a n : St (Fin m) A).beyond i = 0 := by
        unfold St.beyond many
        rw [List.countP_eq_zero]
        intro t _
        simp [St.init, PC.level]
      omega
  | step h hs ih => exact reg_step h.inv ih hs

/-- With at most 256 threads registration never fails. -/
theorem Reach.not_lost {a : A} {n : Nat} {s : St (Fin m) A} (h : Reach false a n s)
    (hm : m ≤ maxHandles) (t : Fin m) : s.pc t ≠ .lost := by
  intro hp
  have h1 := h.rinv.few (maxHandles - 1)
  have h2 : many (m := m) (fun _ => false) + 1 ≤ s.beyond (maxHandles - 1) :=
    many_strict (fun _ h => by cases h) t (by rw [hp]; simp [PC.level, maxHandles]) rfl
  have : maxHandles = 256 := rfl
  omega

end
end Sync
end Growt
