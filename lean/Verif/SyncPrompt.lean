import Verif.SyncInv

/-!
# Synchronised growth: when helpers access deleted tables, and how many handles can be registered
-/

set_option linter.unusedSectionVars false

namespace Growt
namespace Sync
section
variable {T A : Type} [DecidableEq T] [DecidableEq A]

/-- Executions in which the growing thread sets the table to null (`estrat_sync.hpp:358`) only while
no thread is between the load of the table and the store of `mig_protect` in `migrate`
(`estrat_sync.hpp:400-407`). The code does not ensure this. -/
inductive Prompt (a : A) (n : Nat) : St T A → Prop where
  | init : Prompt a n (St.init a n)
  | step {s s' : St T A} {l : Lbl T A} (h : Prompt a n s) (hs : Step false s l s')
      (hq : s'.table = .null → s.table ≠ .null → ∀ t h c x v, s.pc t ≠ .mg2 h c x v) :
      Prompt a n s'

theorem Prompt.reach {a : A} {n : Nat} {s : St T A} (h : Prompt a n s) : Reach false a n s := by
  induction h with
  | init => exact .init
  | step _ hs _ ih => exact .step ih hs

/-- Helpers that wait for the successor. (proof, no code) -/
def St.growOK (s : St T A) (i : Nat) (a : A) (v : Nat) : Prop :=
  match s.phase with
  | .marked a' v' => a' = a ∧ v' = v
  | .made a' v' _ => a' = a ∧ v' = v
  | .waitOps a' v' _ _ _ => a' = a ∧ v' = v
  | .ready a' v' _ => a' = a ∧ v' = v
  | .migrating a' v' _ => a' = a ∧ v' = v
  | .drained a' v' _ => a' = a ∧ v' = v
  | .nulled a' v' _ => a' = a ∧ v' = v
  | .waitMig a' v' _ n j => (a' = a ∧ v' = v) ∧ j ≤ i ∧ i < n
  | _ => False

/-- Invariant of the helpers in prompt executions. (proof, no code) -/
def QC (s : St T A) : PC A → Prop
  | .mg2 _ _ a v => s.table = .mark a ∧ s.epoch = v
  | .mg3 h _ a v => s.growOK h.i a v
  | .mg4 h _ a v b => s.migOK h.i a v b
  | .mg6 h _ a v b => s.migOK h.i a v b
  | _ => True

theorem QC.frame {s s' : St T A} {q : PC A} (h : QC s q) (htab : s'.table = s.table)
    (hep : s'.epoch = s.epoch) (hph : s'.phase = s.phase) : QC s' q := by
  cases q <;> simp only [QC, St.growOK, St.migOK] at h ⊢ <;> simp only [htab, hep, hph] <;> exact h

/-- Steps of the growing thread, seen from the helpers. -/
theorem QC.other {s s' : St T A} {q : PC A} (h : QC s q)
    (h2 : ∀ h c a v, q = .mg2 h c a v → s.table = .mark a → s'.table = .mark a) (hep : s'.epoch = s.epoch)
    (h3 : ∀ h c a v, q = .mg3 h c a v → s.growOK h.i a v → s'.growOK h.i a v)
    (h4 : ∀ h c a v b, q = .mg4 h c a v b ∨ q = .mg6 h c a v b → s.migOK h.i a v b → s'.migOK h.i a v b) :
    QC s' q := by
  cases q with
  | mg2 hd c a v => exact ⟨h2 _ _ _ _ rfl h.1, by rw [hep]; exact h.2⟩
  | mg3 hd c a v => exact h3 _ _ _ _ rfl h
  | mg4 hd c a v b => exact h4 _ _ _ _ _ (.inl rfl) h
  | mg6 hd c a v b => exact h4 _ _ _ _ _ (.inr rfl) h
  | _ => trivial

theorem qc_build {s s' : St T A} (hI : ∀ t, QC s (s.pc t)) {t : T} {p : PC A}
    (hpc : s'.pc = upd s.pc t p) (hp : QC s' p)
    (ho : ∀ t', t' ≠ t → QC s (s.pc t') → QC s' (s.pc t')) : ∀ t, QC s' (s'.pc t) := by
  intro t'
  rw [hpc]
  by_cases h : t' = t
  · subst h; rw [upd_self]; exact hp
  · rw [upd_ne _ _ h]; exact ho t' h (hI t')

theorem qc_goto {s s' : St T A} (hI : ∀ t, QC s (s.pc t)) {t : T} {p : PC A}
    (hpc : s'.pc = upd s.pc t p) (htab : s'.table = s.table)
    (hep : s'.epoch = s.epoch) (hph : s'.phase = s.phase) (hp : QC s p) : ∀ t, QC s' (s'.pc t) :=
  qc_build hI hpc (hp.frame htab hep hph) fun _ _ h => h.frame htab hep hph

theorem qc_step {s s' : St T A} {l : Lbl T A} (hS : SInv s) (hI : ∀ t, QC s (s.pc t))
    (hs : Step false s l s')
    (hq : s'.table = .null → s.table ≠ .null → ∀ t h c x v, s.pc t ≠ .mg2 h c x v) :
    ∀ t, QC s' (s'.pc t) := by
  have hcore := hS.core
  cases hs with
  | gtNull | opStep | grOpsWait | grMigWait | mgWait | mgWork | hgWait => exact hI
  | regCas => intro t; exact (hI t).frame rfl rfl rfl
  | move hp hsh hp' =>
    intro t
    refine QC.frame (s := s) ?_ rfl rfl rfl
    simp only [St.at, upd]
    split
    · trivial
    · split
      · trivial
      · exact hI t
  | opEnd hp x =>
    refine qc_goto hI rfl rfl rfl rfl ?_
    unfold Exit.next
    split
    · trivial
    · cases x <;> trivial
  | @grCas t h v e hp hv he =>
    have hc : (v : Int) ≤ s.cap := by have := hcore t; rw [hp] at this; exact this
    have hph : s.phase = .quiet := by
      unfold St.cap at hc
      cases hph : s.phase <;> simp only [hph] at hc <;> first | rfl | (exfalso; omega)
    have hg := hS.glob
    simp only [Glob, hph] at hg
    obtain ⟨a, o, g1, -⟩ := hg
    refine qc_build hI rfl trivial ?_
    intro t' _ hq'
    cases hpc : s.pc t' <;> rw [hpc] at hq' <;> simp only [QC, St.growOK, St.migOK, hph, g1] at hq' ⊢
    exact absurd hq'.1 (by simp)
  | @grMark t h a v hp ht =>
    have hc : s.phase = .begun := by have := hcore t; rw [hp] at this; exact this.1
    refine qc_build hI rfl trivial ?_
    intro t' _ hq'
    cases hpc : s.pc t' <;> rw [hpc] at hq' <;> simp only [QC, St.growOK, St.migOK, hc, ht] at hq' ⊢
    exact absurd hq'.1 (by simp)
  | @grMake t h a b v o n hp ho hb =>
    have hc : s.phase = .marked a v := by have := hcore t; rw [hp] at this; exact this
    refine qc_build hI rfl trivial fun t' _ hq' => hq'.other (fun _ _ _ _ _ h => h) rfl ?_ ?_
    · intro h c a v hq h; simp only [St.growOK, hc] at h ⊢; exact h
    · intro h c a v b hq h; simp only [St.migOK, hc] at h
  | @grOps t h a b v hp =>
    have hc : s.phase = .made a v b := by have := hcore t; rw [hp] at this; exact this
    refine qc_build hI rfl trivial fun t' _ hq' => hq'.other (fun _ _ _ _ _ h => h) rfl ?_ ?_
    · intro h c a v hq h; simp only [St.growOK, hc] at h ⊢; exact h
    · intro h c a v b hq h; simp only [St.migOK, hc] at h
  | @grOpsNext t h a b v n j hp hj ho =>
    have hc : s.phase = .waitOps a v b n j := by have := hcore t; rw [hp] at this; exact this
    refine qc_build hI rfl trivial fun t' _ hq' => hq'.other (fun _ _ _ _ _ h => h) rfl ?_ ?_
    · intro h c a v hq h; simp only [St.growOK, hc] at h ⊢; exact h
    · intro h c a v b hq h; simp only [St.migOK, hc] at h
  | @grOpsEnd t h a b v n j hp hj =>
    have hc : s.phase = .waitOps a v b n j := by have := hcore t; rw [hp] at this; exact this
    refine qc_build hI rfl trivial fun t' _ hq' => hq'.other (fun _ _ _ _ _ h => h) rfl ?_ ?_
    · intro h c a v hq h; simp only [St.growOK, hc] at h ⊢; exact h
    · intro h c a v b hq h; simp only [St.migOK, hc] at h
  | @grNext t h a b v o hp ho =>
    have hc : s.phase = .ready a v b := by have := hcore t; rw [hp] at this; exact this
    refine qc_build hI rfl trivial fun t' _ hq' => hq'.other (fun _ _ _ _ _ h => h) rfl ?_ ?_
    · intro h c a v hq h; simp only [St.growOK, hc] at h ⊢; exact h
    · intro h c a v b hq h; simp only [St.migOK, hc] at h
  | @grNull t h a b v hp =>
    have hc : s.phase = .drained a v b := by have := hcore t; rw [hp] at this; exact this
    have hg := hS.glob
    simp only [Glob, hc] at hg
    refine qc_build hI rfl trivial fun t' _ hq' => hq'.other ?_ rfl ?_ ?_
    · intro h c a v hpc _
      exact absurd hpc (hq rfl (by rw [hg.1]; simp) t' h c a v)
    · intro h c a v hq h; simp only [St.growOK, hc] at h ⊢; exact h
    · intro h c a v b hq h; simp only [St.migOK, hc] at h ⊢; exact h
  | @grMig t h a b v hp =>
    have hc : s.phase = .nulled a v b := by have := hcore t; rw [hp] at this; exact this
    refine qc_build hI rfl trivial fun t' _ hq' => hq'.other (fun _ _ _ _ _ h => h) rfl ?_ ?_
    · intro h c a v hq h
      simp only [St.growOK, hc] at h ⊢
      exact ⟨h, Nat.zero_le _, (hS.base hq rfl).last⟩
    · intro h c a v b hq h
      simp only [St.migOK, hc] at h ⊢
      refine ⟨h, Nat.zero_le _, ?_⟩
      rcases hq with hq | hq <;> exact (hS.base hq rfl).last
  | @grMigNext t h a b v n j hp hj ho =>
    have hc : s.phase = .waitMig a v b n j := by have := hcore t; rw [hp] at this; exact this
    refine qc_build hI rfl trivial fun t' _ hq' => hq'.other (fun _ _ _ _ _ h => h) rfl ?_ ?_
    · intro h c a v hqq h1
      simp only [St.growOK, hc] at h1 ⊢
      have : h.i ≠ j := by
        rintro rfl; have := (hS.loc t').mg3 h c a v hqq; rw [ho] at this; cases this
      exact ⟨h1.1, by omega, h1.2.2⟩
    · intro h c a v b hqq h1
      simp only [St.migOK, hc] at h1 ⊢
      have : h.i ≠ j := by
        rintro rfl
        rcases hqq with hq | hq
        · have := (hS.loc t').mg4 h c a v b hq; rw [ho] at this; cases this
        · have := (hS.loc t').mg6 h c a v b hq; rw [ho] at this; cases this
      exact ⟨h1.1, by omega, h1.2.2⟩
  | @grMigEnd t h a b v n j hp hj =>
    have hc : s.phase = .waitMig a v b n j := by have := hcore t; rw [hp] at this; exact this
    refine qc_build hI rfl trivial fun t' _ hq' => hq'.other (fun _ _ _ _ _ h => h) rfl ?_ ?_
    · intro h c a v hq h1
      simp only [St.growOK, hc] at h1; omega
    · intro h c a v b hq h1
      simp only [St.migOK, hc] at h1; omega
  | @grPublish t h a b v hp =>
    have hc : s.phase = .empty a v b := by have := hcore t; rw [hp] at this; exact this
    have hg := hS.glob
    simp only [Glob, hc] at hg
    refine qc_build hI rfl trivial fun t' _ hq' => hq'.other ?_ rfl ?_ ?_
    · intro h c a v hpc h1; rw [hg.1] at h1; cases h1
    · intro h c a v hq h; simp only [St.growOK, hc] at h
    · intro h c a v b hq h; simp only [St.migOK, hc] at h
  | @mgNone t h c hp ht =>
    cases c with
    | help => exact qc_goto hI rfl rfl rfl rfl trivial
    | grow a v b =>
      have hc := hcore t
      rw [hp] at hc
      have hg := hS.glob
      simp only [Glob, hc a v b rfl] at hg
      exact absurd hg.1 (ht a)
  | @mgLoad t h c a o hp ht ho => exact qc_goto hI rfl rfl rfl rfl ⟨ht, hS.marked ht ho⟩
  | @mgStore t h c a v hp =>
    refine qc_goto hI rfl rfl rfl rfl ?_
    have h1 := hI t
    rw [hp] at h1
    obtain ⟨h1, h2⟩ := h1
    have hg := hS.glob
    unfold Glob at hg
    simp only [QC, St.growOK]
    cases hph : s.phase <;> simp only [hph, h1] at hg ⊢
    case marked => exact ⟨by have := hg.1; cases this; rfl, by omega⟩
    case quiet => obtain ⟨_, _, h, -⟩ := hg; cases h
    case begun => obtain ⟨_, _, h, -⟩ := hg; cases h
    case nulled => exact absurd hg.1 (by simp)
    case waitMig => exact absurd hg.1 (by simp)
    case empty => exact absurd hg.1 (by simp)
    all_goals
      obtain ⟨g1, g2, -⟩ := hg
      cases g1
      exact ⟨rfl, by omega⟩
  | @mgNext t h c a b v o hp ho hv hn =>
    refine qc_goto hI rfl rfl rfl rfl ?_
    have h1 := hI t
    rw [hp] at h1
    have hg := hS.glob
    unfold Glob St.two Obj.fresh at hg
    simp only [QC, St.growOK, St.migOK] at h1 ⊢
    cases hph : s.phase <;> simp only [hph] at hg h1 ⊢
    case marked =>
      obtain ⟨rfl, rfl⟩ := h1
      obtain ⟨-, -, o', g3, -, g5, -⟩ := hg
      rw [ho] at g3; cases g3; rw [hn] at g5; cases g5
    case made =>
      obtain ⟨rfl, rfl⟩ := h1
      obtain ⟨-, -, -, ⟨o', g3, -, g5, -⟩, -⟩ := hg
      rw [ho] at g3; cases g3; rw [hn] at g5; cases g5
    case waitOps =>
      obtain ⟨rfl, rfl⟩ := h1
      obtain ⟨-, -, -, ⟨o', g3, -, g5, -⟩, -⟩ := hg
      rw [ho] at g3; cases g3; rw [hn] at g5; cases g5
    case ready =>
      obtain ⟨rfl, rfl⟩ := h1
      obtain ⟨-, -, -, ⟨o', g3, -, g5, -⟩, -⟩ := hg
      rw [ho] at g3; cases g3; rw [hn] at g5; cases g5
    case migrating =>
      obtain ⟨rfl, rfl⟩ := h1
      obtain ⟨-, -, -, ⟨o', g3, -, g5⟩, -⟩ := hg
      rw [ho] at g3; cases g3; rw [hn] at g5; cases g5; exact ⟨rfl, rfl, rfl⟩
    case drained =>
      obtain ⟨rfl, rfl⟩ := h1
      obtain ⟨-, -, -, ⟨o', g3, -, g5, -⟩, -⟩ := hg
      rw [ho] at g3; cases g3; rw [hn] at g5; cases g5; exact ⟨rfl, rfl, rfl⟩
    case nulled =>
      obtain ⟨rfl, rfl⟩ := h1
      obtain ⟨-, -, -, ⟨o', g3, -, g5, -⟩, -⟩ := hg
      rw [ho] at g3; cases g3; rw [hn] at g5; cases g5; exact ⟨rfl, rfl, rfl⟩
    case waitMig =>
      obtain ⟨⟨rfl, rfl⟩, h2⟩ := h1
      obtain ⟨-, -, -, ⟨o', g3, -, g5, -⟩, -⟩ := hg
      rw [ho] at g3; cases g3; rw [hn] at g5; cases g5; exact ⟨⟨rfl, rfl, rfl⟩, h2⟩
  | @mgClaim t h c a b v o hp ho hv hcl => exact qc_goto hI rfl rfl rfl rfl trivial
  | @mgLeave t h c a b v o hp ho hv hcl =>
    refine qc_goto hI rfl rfl rfl rfl ?_
    have h1 := hI t
    rw [hp] at h1; exact h1
  | @mgDone t h c a b v k hp =>
    refine qc_goto hI rfl rfl rfl rfl ?_
    have h1 := hcore t
    rw [hp] at h1; exact h1.1
  | @mgEnd t h c a b v o' hp ho' hv' =>
    cases c with
    | help => exact qc_goto hI rfl rfl rfl rfl trivial
    | grow a' v1 b' =>
      have hc := hcore t
      rw [hp] at hc
      obtain ⟨q1, -⟩ := hc a' v1 b' rfl
      refine qc_build hI rfl trivial fun t' _ hq' => hq'.other (fun _ _ _ _ _ h => h) rfl ?_ ?_
      · intro h c a v hq h; simp only [St.growOK, q1] at h ⊢; exact h
      · intro h c a v b hq h; simp only [St.migOK, q1] at h ⊢; exact h
  | _ => exact qc_goto hI rfl rfl rfl rfl trivial

theorem Prompt.qc {a : A} {n : Nat} {s : St T A} (h : Prompt a n s) : ∀ t, QC s (s.pc t) := by
  induction h with
  | init => exact fun _ => trivial
  | step h hs hq ih => exact qc_step h.reach.inv ih hs hq

/-- The two tables of a growth step exist as long as a helper may work on them. -/
theorem SInv.alive {s : St T A} (hI : SInv s) {i : Nat} {a b : A} {v : Nat} (h : s.migOK i a v b) :
    (∃ o, s.heap a = some o ∧ o.ver = v) ∧ ∃ o, s.heap b = some o ∧ o.ver = v + 1 := by
  have hg := hI.glob
  unfold Glob St.two at hg
  unfold St.migOK at h
  cases hph : s.phase <;> simp only [hph] at hg h
  case migrating =>
    obtain ⟨rfl, rfl, rfl⟩ := h
    obtain ⟨-, -, -, ⟨o, g1, g2, -⟩, o', g3, g4, -⟩ := hg
    exact ⟨⟨o, g1, g2⟩, o', g3, g4⟩
  case drained =>
    obtain ⟨rfl, rfl, rfl⟩ := h
    obtain ⟨-, -, -, ⟨o, g1, g2, -⟩, o', g3, g4, -⟩ := hg
    exact ⟨⟨o, g1, g2⟩, o', g3, g4⟩
  case nulled =>
    obtain ⟨rfl, rfl, rfl⟩ := h
    obtain ⟨-, -, -, ⟨o, g1, g2, -⟩, o', g3, g4, -⟩ := hg
    exact ⟨⟨o, g1, g2⟩, o', g3, g4⟩
  case waitMig =>
    obtain ⟨⟨rfl, rfl, rfl⟩, -⟩ := h
    obtain ⟨-, -, -, ⟨o, g1, g2, -⟩, o', g3, g4, -⟩ := hg
    exact ⟨⟨o, g1, g2⟩, o', g3, g4⟩

theorem SInv.alive_grow {s : St T A} (hI : SInv s) {i : Nat} {a : A} {v : Nat} (h : s.growOK i a v) :
    ∃ o, s.heap a = some o ∧ o.ver = v := by
  have hg := hI.glob
  unfold Glob St.two at hg
  unfold St.growOK at h
  cases hph : s.phase <;> simp only [hph] at hg h
  case marked =>
    obtain ⟨rfl, rfl⟩ := h
    obtain ⟨-, -, o, g1, g2, -⟩ := hg
    exact ⟨o, g1, g2⟩
  case waitMig =>
    obtain ⟨⟨rfl, rfl⟩, -⟩ := h
    obtain ⟨-, -, -, ⟨o, g1, g2, -⟩, -⟩ := hg
    exact ⟨o, g1, g2⟩
  all_goals
    obtain ⟨rfl, rfl⟩ := h
    obtain ⟨-, -, -, ⟨o, g1, g2, -⟩, -⟩ := hg
    exact ⟨o, g1, g2⟩

/-- The threads that help and have not yet got, or no longer have, a block. (proof, no code) -/
def PC.idleHelper : PC A → Bool
  | .mg3 _ .help _ _ => true
  | .mg4 _ .help _ _ _ => true
  | .mg6 _ .help _ _ _ => true
  | _ => false

/-- All other threads only touch existing tables. -/
theorem SInv.touches {s : St T A} (hI : SInv s) {t : T} (hno : (s.pc t).idleHelper = false) {x : A} {v : Nat}
    (hx : (x, v) ∈ (s.pc t).touches) : ∃ o, s.heap x = some o ∧ o.ver = v := by
  have hc := hI.core t
  have hg := hI.glob
  generalize s.pc t = q at hc hno hx
  cases q with
  | op h a w => cases List.mem_singleton.1 hx; exact hc.1
  | gr5 h a w =>
    cases List.mem_singleton.1 hx
    simp only [Core] at hc
    simp only [Glob, hc] at hg
    obtain ⟨-, -, o, g1, g2, -⟩ := hg
    exact ⟨o, g1, g2⟩
  | gr8 h a w b =>
    cases List.mem_singleton.1 hx
    simp only [Core] at hc
    simp only [Glob, hc] at hg
    obtain ⟨-, -, -, ⟨o, g1, g2, -⟩, -⟩ := hg
    exact ⟨o, g1, g2⟩
  | gr14 h a w =>
    cases List.mem_singleton.1 hx
    obtain ⟨⟨o, g1, g2, -⟩, -⟩ := hc
    exact ⟨o, g1, g2⟩
  | mg5 h c a w b k =>
    have := hI.alive hc.1
    simp only [PC.touches, List.mem_cons, List.not_mem_nil, or_false] at hx
    rcases hx with hx | hx <;> cases hx
    · exact this.1
    · exact this.2
  | mg3 h c a w =>
    cases c with
    | help => cases hno
    | grow a' w' b' =>
      cases List.mem_singleton.1 hx
      obtain ⟨q1, rfl, rfl⟩ := hc.2 _ _ _ rfl
      exact (hI.alive (i := 0) (b := b') (by simp [St.migOK, q1])).1
  | mg4 h c a w b =>
    cases c with
    | help => cases hno
    | grow a' w' b' =>
      cases List.mem_singleton.1 hx
      obtain ⟨q1, rfl, rfl⟩ := hc.2.2 _ _ _ rfl
      exact (hI.alive (i := 0) (b := b') (by simp [St.migOK, q1])).1
  | mg6 h c a w b =>
    cases c with
    | help => cases hno
    | grow a' w' b' =>
      cases List.mem_singleton.1 hx
      obtain ⟨q1, rfl, rfl, o, q2, -, q3⟩ := hc _ _ _ rfl
      simp only [Glob, q1] at hg
      obtain ⟨-, -, -, ⟨o1, g1, -, g2⟩, o', g3, g4, -⟩ := hg
      rw [q2] at g1; cases g1
      rw [q3] at g2; cases g2
      exact ⟨o', g3, g4⟩
  | _ => cases hx

end
end Sync
end Growt
