import Verif.SyncPrompt

/-!
# Synchronised growth: nobody waits for something that cannot happen
(`data-structures/strategies/estrat_sync.hpp`)

The waiting loops of the strategy are `get_table` (lines 269-276), `wait_for_table_op` (473-486),
`migrate` (419), `wait_for_migration` (491-504) and `help_grow` (383-387).
-/

set_option linter.unusedSectionVars false

namespace Growt
namespace Sync
section
variable {T A : Type} [DecidableEq T] [DecidableEq A]

/-- The thread is inside an operation, a growth step or the registration of a handle: it has neither
no handle nor a handle between operations. (specification, no code) -/
def PC.busy : PC A → Bool
  | .out => false
  | .lost => false
  | .idle _ => false
  | _ => true

/-- Executions in which only threads that are busy already take steps, and which end the operation
of a thread at most once: threads between operations do not call, create, move or destroy anything.
The side condition is that of `Prompt`. (specification, no code) -/
inductive Run : St T A → St T A → Prop where
  | refl (s : St T A) : Run s s
  | step {s s1 s' : St T A} {l : Lbl T A} (u : T) (hu : (s.pc u).busy = true)
      (hs : Step false s l s1) (ho : ∀ t, t ≠ u → s1.pc t = s.pc t)
      (hq : s1.table = .null → s.table ≠ .null → ∀ t h c x v, s.pc t ≠ .mg2 h c x v)
      (hr : Run s1 s') : Run s s'

theorem Run.trans {s s1 s' : St T A} (h : Run s s1) (h' : Run s1 s') : Run s s' := by
  induction h with
  | refl => exact h'
  | step u hu hs ho hq _ ih => exact .step u hu hs ho hq (ih h')

theorem Run.prompt {a : A} {n : Nat} {s s' : St T A} (h : Run s s') (hp : Prompt a n s) :
    Prompt a n s' := by
  induction h with
  | refl => exact hp
  | step u hu hs ho hq _ ih => exact ih (hp.step hs hq)

/-- Threads that are not busy stay where they are. -/
theorem Run.rest {s s' : St T A} (h : Run s s') {t : T} (ht : (s.pc t).busy = false) :
    s'.pc t = s.pc t := by
  induction h with
  | refl => rfl
  | step u hu hs ho hq _ ih =>
    have hne : t ≠ u := by rintro rfl; rw [ht] at hu; cases hu
    have h1 := ho t hne
    rw [ih (by rw [h1]; exact ht), h1]

/-- Whose `ops_protect` (`estrat_sync.hpp:284, 291, 298`) is set. (proof, no code) -/
def PC.opsAt : PC A → Option Nat
  | .gt3 h _ => some h.i
  | .gt4 h => some h.i
  | .op h _ _ => some h.i
  | _ => none

/-- Whose `mig_protect` (`estrat_sync.hpp:407, 424`) is set. (proof, no code) -/
def PC.migAt : PC A → Option Nat
  | .mg3 h _ _ _ => some h.i
  | .mg4 h _ _ _ _ => some h.i
  | .mg5 h _ _ _ _ _ => some h.i
  | .mg6 h _ _ _ _ => some h.i
  | _ => none

/-- The table that will replace the current one. (proof, no code) -/
def Phase.succ : Phase A → Option A
  | .made _ _ b => some b
  | .waitOps _ _ b _ _ => some b
  | .ready _ _ b => some b
  | .migrating _ _ b => some b
  | .drained _ _ b => some b
  | .nulled _ _ b => some b
  | .waitMig _ _ b _ _ => some b
  | .empty _ _ b => some b
  | _ => none

/-- The tables the strategy still refers to. (proof, no code) -/
def St.refers (s : St T A) (x : A) : Prop :=
  s.table = .clear x ∨ s.phase.old = some x ∨ s.phase.succ = some x

/-- Everything that others may wait for, or that has to be deleted, belongs to a thread.
(proof, no code) -/
structure Holds (s : St T A) : Prop where
  ops : ∀ i, s.ops i ≠ none → ∃ t, (s.pc t).opsAt = some i
  mig : ∀ i, s.mig i ≠ none → ∃ t, (s.pc t).migAt = some i
  grow : s.phase ≠ .quiet → ∃ t, (s.pc t).grower = true
  live : ∀ x, s.heap x ≠ none → s.refers x ∨ ∃ t, (s.pc t).deletes = some x
  heap : ∃ L : List A, ∀ x, x ∉ L → s.heap x = none
  thr : ∃ L : List T, ∀ t, t ∉ L → s.pc t = .out

theorem Holds.build {s s' : St T A} (hI : Holds s) {t : T} {p q : PC A} (hpc : s'.pc = upd s.pc t p)
    (hp : s.pc t = q)
    (hops : ∀ i, s'.ops i ≠ none → p.opsAt = some i ∨ s.ops i ≠ none ∧ q.opsAt ≠ some i)
    (hmig : ∀ i, s'.mig i ≠ none → p.migAt = some i ∨ s.mig i ≠ none ∧ q.migAt ≠ some i)
    (hgr : s'.phase ≠ .quiet → p.grower = true ∨ s.phase ≠ .quiet ∧ q.grower = false)
    (hlive : ∀ x, s'.heap x ≠ none → s'.refers x ∨ p.deletes = some x ∨
      s.heap x ≠ none ∧ (s.refers x → s'.refers x) ∧ q.deletes ≠ some x)
    (hheap : ∃ L : List A, ∀ x, x ∉ L → s.heap x = none → s'.heap x = none) : Holds s' := by
  have hat : s'.pc t = p := by rw [hpc]; simp [upd]
  have hne : ∀ t', t' ≠ t → s'.pc t' = s.pc t' := fun t' h => by rw [hpc]; simp [upd, h]
  constructor
  · intro i hi
    rcases hops i hi with h | ⟨h, hn⟩
    · exact ⟨t, by rw [hat]; exact h⟩
    · obtain ⟨u, hu⟩ := hI.ops i h
      have : u ≠ t := by rintro rfl; rw [hp] at hu; exact hn hu
      exact ⟨u, by rw [hne u this]; exact hu⟩
  · intro i hi
    rcases hmig i hi with h | ⟨h, hn⟩
    · exact ⟨t, by rw [hat]; exact h⟩
    · obtain ⟨u, hu⟩ := hI.mig i h
      have : u ≠ t := by rintro rfl; rw [hp] at hu; exact hn hu
      exact ⟨u, by rw [hne u this]; exact hu⟩
  · intro hph
    rcases hgr hph with h | ⟨h, hn⟩
    · exact ⟨t, by rw [hat]; exact h⟩
    · obtain ⟨u, hu⟩ := hI.grow h
      have : u ≠ t := by rintro rfl; rw [hp, hn] at hu; cases hu
      exact ⟨u, by rw [hne u this]; exact hu⟩
  · intro x hx
    rcases hlive x hx with h | h | ⟨h, hr, hn⟩
    · exact .inl h
    · exact .inr ⟨t, by rw [hat]; exact h⟩
    · rcases hI.live x h with h | ⟨u, hu⟩
      · exact .inl (hr h)
      · have : u ≠ t := by rintro rfl; rw [hp] at hu; exact hn hu
        exact .inr ⟨u, by rw [hne u this]; exact hu⟩
  · obtain ⟨L, hL⟩ := hI.heap
    obtain ⟨b, hb⟩ := hheap
    exact ⟨b ++ L, fun x hx => hb x (fun h => hx (List.mem_append_left _ h))
      (hL x fun h => hx (List.mem_append_right _ h))⟩
  · obtain ⟨L, hL⟩ := hI.thr
    refine ⟨t :: L, fun u hu => ?_⟩
    rw [hne u (by rintro rfl; exact hu (List.mem_cons_self ..))]
    exact hL u fun h => hu (List.mem_cons_of_mem _ h)

/-- Steps that only move one thread. -/
theorem Holds.goto {s s' : St T A} (hI : Holds s) {t : T} {p q : PC A} (hpc : s'.pc = upd s.pc t p)
    (hp : s.pc t = q) (hops : s'.ops = s.ops) (hmig : s'.mig = s.mig) (hph : s'.phase = s.phase)
    (hhp : s'.heap = s.heap) (htab : s'.table = s.table) (h1 : p.opsAt = q.opsAt) (h2 : p.migAt = q.migAt)
    (h3 : p.grower = q.grower) (h4 : p.deletes = q.deletes) : Holds s' := by
  have hrf : ∀ x, s.refers x → s'.refers x := by
    intro x hx; unfold St.refers at hx ⊢; rw [hph, htab]; exact hx
  refine hI.build hpc hp ?_ ?_ ?_ ?_ ?_
  · intro i hi
    rw [hops] at hi
    by_cases h : p.opsAt = some i
    · exact .inl h
    · exact .inr ⟨hi, by rw [← h1]; exact h⟩
  · intro i hi
    rw [hmig] at hi
    by_cases h : p.migAt = some i
    · exact .inl h
    · exact .inr ⟨hi, by rw [← h2]; exact h⟩
  · intro hi
    rw [hph] at hi
    cases h : p.grower
    · exact .inr ⟨hi, by rw [← h3]; exact h⟩
    · exact .inl rfl
  · intro x hx
    rw [hhp] at hx
    by_cases h : p.deletes = some x
    · exact .inr (.inl h)
    · exact .inr (.inr ⟨hx, hrf x, by rw [← h4]; exact h⟩)
  · exact ⟨[], fun x _ hx => by rw [hhp]; exact hx⟩

/-- Steps of the growing thread that change the stage only. -/
theorem Holds.stage {s s' : St T A} (hI : Holds s) {t : T} {p q : PC A} (hpc : s'.pc = upd s.pc t p)
    (hp : s.pc t = q) (hops : s'.ops = s.ops) (hmig : s'.mig = s.mig)
    (hhp : ∀ x, s'.heap x ≠ none → s.heap x ≠ none) (hrf : ∀ x, s.refers x → s'.refers x)
    (h1 : p.opsAt = q.opsAt) (h2 : p.migAt = q.migAt)
    (h3 : p.grower = true) (h4 : p.deletes = q.deletes) : Holds s' := by
  refine hI.build hpc hp ?_ ?_ (fun _ => .inl h3) ?_ ?_
  · intro i hi
    rw [hops] at hi
    by_cases h : p.opsAt = some i
    · exact .inl h
    · exact .inr ⟨hi, by rw [← h1]; exact h⟩
  · intro i hi
    rw [hmig] at hi
    by_cases h : p.migAt = some i
    · exact .inl h
    · exact .inr ⟨hi, by rw [← h2]; exact h⟩
  · intro x hx
    by_cases h : p.deletes = some x
    · exact .inr (.inl h)
    · exact .inr (.inr ⟨hhp x hx, hrf x, by rw [← h4]; exact h⟩)
  · refine ⟨[], fun x _ hx => ?_⟩
    cases h : s'.heap x with
    | none => rfl
    | some o => exact absurd hx (hhp x (by rw [h]; nofun))

theorem holds_step {s s' : St T A} {l : Lbl T A} (hS : SInv s) (hI : Holds s) (hs : Step false s l s') :
    Holds s' := by
  have hcore := hS.core
  have hg := hS.glob
  cases hs with
  | gtNull | opStep | grOpsWait | grMigWait | mgWait | mgWork | hgWait => exact hI
  | regCas => exact ⟨hI.ops, hI.mig, hI.grow, hI.live, hI.heap, hI.thr⟩
  | @move t t' h hp hsh hp' =>
    have h1 : Holds (s.at t .out) := hI.goto rfl hp rfl rfl rfl rfl rfl rfl rfl rfl rfl
    have hne : t' ≠ t := by rintro rfl; rw [hp] at hp'; cases hp'
    exact h1.goto (t := t') (p := .idle h) (q := .out) rfl
      (by show upd s.pc t .out t' = _; rw [upd_ne _ _ hne]; exact hp')
      rfl rfl rfl rfl rfl rfl rfl rfl rfl
  | @gtStore t h a hp =>
    refine hI.build rfl hp ?_ ?_ ?_ ?_ ⟨[], fun x _ hx => hx⟩
    · intro i hi
      by_cases e : i = h.i
      · subst e; exact .inl rfl
      · exact .inr ⟨by simpa [upd_ne _ _ e] using hi, nofun⟩
    · intro i hi; exact .inr ⟨hi, nofun⟩
    · intro h; exact .inr ⟨h, rfl⟩
    · intro x hx; exact .inr (.inr ⟨hx, id, nofun⟩)
  | @gtClear t h hp =>
    refine hI.build rfl hp ?_ ?_ ?_ ?_ ⟨[], fun x _ hx => hx⟩
    · intro i hi
      have e : i ≠ h.i := by rintro rfl; exact hi (upd_self ..)
      exact .inr ⟨by simpa [upd_ne _ _ e] using hi, by simpa [PC.opsAt] using Ne.symm e⟩
    · intro i hi; exact .inr ⟨hi, nofun⟩
    · intro h; exact .inr ⟨h, rfl⟩
    · intro x hx; exact .inr (.inr ⟨hx, id, nofun⟩)
  | @opEnd t h a v hp x =>
    refine hI.build rfl hp ?_ ?_ ?_ ?_ ⟨[], fun x _ hx => hx⟩
    · intro i hi
      have e : i ≠ h.i := by rintro rfl; exact hi (upd_self ..)
      exact .inr ⟨by simpa [upd_ne _ _ e] using hi, by simpa [PC.opsAt] using Ne.symm e⟩
    · intro i hi; exact .inr ⟨hi, nofun⟩
    · intro h; exact .inr ⟨h, rfl⟩
    · intro x hx; exact .inr (.inr ⟨hx, id, nofun⟩)
  | @grCas t h v e hp hv he =>
    have hc : (v : Int) ≤ s.cap := by have := hcore t; rw [hp] at this; exact this
    have hph : s.phase = .quiet := by
      unfold St.cap at hc
      cases hph : s.phase <;> simp only [hph] at hc <;> first | rfl | (exfalso; omega)
    refine hI.stage rfl hp rfl rfl (fun _ h => h) ?_ rfl rfl rfl rfl
    intro x hx
    simp only [St.refers, hph] at hx ⊢
    exact hx
  | @grLoadMark t h a hp ht =>
    have hc : s.phase = .begun := by have := hcore t; rw [hp] at this; exact this
    simp only [Glob, hc] at hg
    obtain ⟨a', o, g1, -⟩ := hg
    rw [ht] at g1; cases g1
  | @grMark t h a v hp ht =>
    have hc : s.phase = .begun := by have := hcore t; rw [hp] at this; exact this.1
    refine hI.stage rfl hp rfl rfl (fun _ h => h) ?_ rfl rfl rfl rfl
    intro x hx
    simp only [St.refers, hc, ht] at hx ⊢
    rcases hx with hx | hx | hx
    · cases hx; exact .inr (.inl rfl)
    · cases hx
    · cases hx
  | @grMarkFail t h a v hp ht =>
    have hc := hcore t
    rw [hp] at hc
    exact absurd hc.2.1 ht
  | @grMake t h a b v o n hp ho hb =>
    have hc : s.phase = .marked a v := by have := hcore t; rw [hp] at this; exact this
    refine hI.build rfl hp (fun i hi => .inr ⟨hi, nofun⟩) (fun i hi => .inr ⟨hi, nofun⟩)
      (fun _ => .inl rfl) ?_ ⟨[b], ?_⟩
    · intro x hx
      by_cases e : x = b
      · subst e; exact .inl (.inr (.inr rfl))
      · refine .inr (.inr ⟨by simpa [upd_ne _ _ e] using hx, ?_, nofun⟩)
        intro hx
        simp only [St.refers, hc] at hx
        rcases hx with hx | hx | hx
        · exact .inl hx
        · exact .inr (.inl hx)
        · cases hx
    · intro x hx h
      show upd s.heap b _ x = none
      rw [upd_ne _ _ (by simpa using hx)]; exact h
  | @grOps t h a b v hp =>
    have hc : s.phase = .made a v b := by have := hcore t; rw [hp] at this; exact this
    exact hI.stage rfl hp rfl rfl (fun _ h => h) (fun x hx => by simp only [St.refers, hc] at hx ⊢; exact hx)
      rfl rfl rfl rfl
  | @grOpsNext t h a b v n j hp hj ho =>
    have hc : s.phase = .waitOps a v b n j := by have := hcore t; rw [hp] at this; exact this
    exact hI.stage rfl hp rfl rfl (fun _ h => h) (fun x hx => by simp only [St.refers, hc] at hx ⊢; exact hx)
      rfl rfl rfl rfl
  | @grOpsEnd t h a b v n j hp hj =>
    have hc : s.phase = .waitOps a v b n j := by have := hcore t; rw [hp] at this; exact this
    exact hI.stage rfl hp rfl rfl (fun _ h => h) (fun x hx => by simp only [St.refers, hc] at hx ⊢; exact hx)
      rfl rfl rfl rfl
  | @grNext t h a b v o hp ho =>
    have hc : s.phase = .ready a v b := by have := hcore t; rw [hp] at this; exact this
    refine hI.stage rfl hp rfl rfl ?_ (fun x hx => by simp only [St.refers, hc] at hx ⊢; exact hx)
      rfl rfl rfl rfl
    intro x hx
    by_cases e : x = a
    · subst e; rw [ho]; nofun
    · simpa [upd_ne _ _ e] using hx
  | @grNull t h a b v hp =>
    have hc : s.phase = .drained a v b := by have := hcore t; rw [hp] at this; exact this
    simp only [Glob, hc] at hg
    refine hI.stage rfl hp rfl rfl (fun _ h => h) (fun x hx => ?_) rfl rfl rfl rfl
    simp only [St.refers, hc, hg.1] at hx ⊢
    rcases hx with hx | hx
    · cases hx
    · exact .inr hx
  | @grMig t h a b v hp =>
    have hc : s.phase = .nulled a v b := by have := hcore t; rw [hp] at this; exact this
    exact hI.stage rfl hp rfl rfl (fun _ h => h) (fun x hx => by simp only [St.refers, hc] at hx ⊢; exact hx)
      rfl rfl rfl rfl
  | @grMigNext t h a b v n j hp hj ho =>
    have hc : s.phase = .waitMig a v b n j := by have := hcore t; rw [hp] at this; exact this
    exact hI.stage rfl hp rfl rfl (fun _ h => h) (fun x hx => by simp only [St.refers, hc] at hx ⊢; exact hx)
      rfl rfl rfl rfl
  | @grMigEnd t h a b v n j hp hj =>
    have hc : s.phase = .waitMig a v b n j := by have := hcore t; rw [hp] at this; exact this
    exact hI.stage rfl hp rfl rfl (fun _ h => h) (fun x hx => by simp only [St.refers, hc] at hx ⊢; exact hx)
      rfl rfl rfl rfl
  | @grPublish t h a b v hp =>
    have hc : s.phase = .empty a v b := by have := hcore t; rw [hp] at this; exact this
    simp only [Glob, hc] at hg
    refine hI.build rfl hp (fun i hi => .inr ⟨hi, nofun⟩) (fun i hi => .inr ⟨hi, nofun⟩)
      (fun h => absurd rfl h) ?_ ⟨[], fun x _ h => h⟩
    intro x hx
    by_cases e : x = a
    · subst e; exact .inr (.inl rfl)
    · by_cases e' : x = b
      · subst e'; exact .inl (.inl rfl)
      · refine .inr (.inr ⟨hx, ?_, nofun⟩)
        intro h
        simp only [St.refers, hc, hg.1] at h
        rcases h with h | h | h
        · cases h
        · cases h; exact absurd rfl e
        · cases h; exact absurd rfl e'
  | @grDelete t h a v hp =>
    refine hI.build rfl hp (fun i hi => .inr ⟨hi, nofun⟩) (fun i hi => .inr ⟨hi, nofun⟩)
      (fun h => .inr ⟨h, rfl⟩) ?_ ⟨[], ?_⟩
    · intro x hx
      have e : x ≠ a := by rintro rfl; exact hx (upd_self ..)
      exact .inr (.inr ⟨by simpa [upd_ne _ _ e] using hx, id, by simpa [PC.deletes] using Ne.symm e⟩)
    · intro x _ h
      show upd s.heap a none x = none
      by_cases e : x = a
      · subst e; exact upd_self ..
      · rw [upd_ne _ _ e]; exact h
  | @mgNone t h c hp ht =>
    cases c with
    | help => exact hI.goto rfl hp rfl rfl rfl rfl rfl rfl rfl rfl rfl
    | grow a v b =>
      have hc := hcore t
      rw [hp] at hc
      simp only [Glob, hc a v b rfl] at hg
      exact absurd hg.1 (ht a)
  | @mgLoad t h c a o hp ht ho => cases c <;> exact hI.goto rfl hp rfl rfl rfl rfl rfl rfl rfl rfl rfl
  | @mgStore t h c a v hp =>
    refine hI.build rfl hp (fun i hi => .inr ⟨hi, nofun⟩) ?_ ?_ ?_ ⟨[], fun x _ hx => hx⟩
    · intro i hi
      by_cases e : i = h.i
      · subst e; exact .inl rfl
      · exact .inr ⟨by simpa [upd_ne _ _ e] using hi, nofun⟩
    · intro h
      cases c
      · exact .inr ⟨h, rfl⟩
      · exact .inl rfl
    · intro x hx; exact .inr (.inr ⟨hx, id, nofun⟩)
  | @mgNext t h c a b v o hp ho hv hn =>
    cases c <;> exact hI.goto rfl hp rfl rfl rfl rfl rfl rfl rfl rfl rfl
  | @mgClaim t h c a b v o hp ho hv hcl =>
    refine hI.build rfl hp (fun i hi => .inr ⟨hi, nofun⟩) ?_ ?_ ?_ ⟨[a], ?_⟩
    · intro i hi
      by_cases e : i = h.i
      · subst e; exact .inl rfl
      · exact .inr ⟨hi, by simpa [PC.migAt] using Ne.symm e⟩
    · intro h
      cases c
      · exact .inr ⟨h, rfl⟩
      · exact .inl rfl
    · intro x hx
      refine .inr (.inr ⟨?_, id, nofun⟩)
      by_cases e : x = a
      · subst e; rw [ho]; nofun
      · simpa [upd_ne _ _ e] using hx
    · intro x hx h
      show upd s.heap a _ x = none
      rw [upd_ne _ _ (by simpa using hx)]; exact h
  | @mgLeave t h c a b v o hp ho hv hcl =>
    refine hI.build rfl hp (fun i hi => .inr ⟨hi, nofun⟩) ?_ ?_ ?_ ⟨[a], ?_⟩
    · intro i hi
      by_cases e : i = h.i
      · subst e; exact .inl rfl
      · exact .inr ⟨hi, by simpa [PC.migAt] using Ne.symm e⟩
    · intro h
      cases c
      · exact .inr ⟨h, rfl⟩
      · exact .inl rfl
    · intro x hx
      refine .inr (.inr ⟨?_, id, nofun⟩)
      by_cases e : x = a
      · subst e; rw [ho]; nofun
      · simpa [upd_ne _ _ e] using hx
    · intro x hx h
      show upd s.heap a _ x = none
      rw [upd_ne _ _ (by simpa using hx)]; exact h
  | @mgDone t h c a b v k hp =>
    cases c <;> exact hI.goto rfl hp rfl rfl rfl rfl rfl rfl rfl rfl rfl
  | @mgEnd t h c a b v o' hp ho' hv' =>
    have hm : ∀ i, upd s.mig h.i none i ≠ none → s.mig i ≠ none ∧ (PC.mg6 h c a v b).migAt ≠ some i := by
      intro i hi
      have e : i ≠ h.i := by rintro rfl; exact hi (upd_self ..)
      exact ⟨by simpa [upd_ne _ _ e] using hi, by simpa [PC.migAt] using Ne.symm e⟩
    cases c with
    | help =>
      exact hI.build rfl hp (fun i hi => .inr ⟨hi, nofun⟩) (fun i hi => .inr (hm i hi))
        (fun h => .inr ⟨h, rfl⟩) (fun x hx => .inr (.inr ⟨hx, id, nofun⟩)) ⟨[], fun x _ hx => hx⟩
    | grow a' v1 b' =>
      have hc := hcore t
      rw [hp] at hc
      obtain ⟨q1, -⟩ := hc a' v1 b' rfl
      refine hI.build rfl hp (fun i hi => .inr ⟨hi, nofun⟩) (fun i hi => .inr (hm i hi))
        (fun _ => .inl rfl) (fun x hx => .inr (.inr ⟨hx, ?_, nofun⟩)) ⟨[], fun x _ hx => hx⟩
      intro h
      simp only [St.refers, q1] at h
      exact h
  | create hp | regUsed hp | regFree hp | regNone hp | reserve hp | reserveFail hp | regLoad hp
  | regCasFail hp | regEnd hp | destroy hp | call hp | gtMark hp | gtLoad hp | gtSame hp | gtOther hp
  | grEpoch hp | grNot hp | grLoad hp | hgEnd hp =>
    exact hI.goto rfl hp rfl rfl rfl rfl rfl rfl rfl rfl rfl

theorem Reach.holds {a : A} {n : Nat} {s : St T A} (h : Reach false a n s) : Holds s := by
  induction h with
  | init =>
    constructor
    · intro i hi; exact absurd rfl hi
    · intro i hi; exact absurd rfl hi
    · intro h; exact absurd rfl h
    · intro x hx
      by_cases e : x = a
      · subst e; exact .inl (.inl rfl)
      · exact absurd (by simp [St.init, upd, e]) hx
    · refine ⟨[a], fun x hx => ?_⟩
      have hx : x ≠ a := by simpa using hx
      simp [St.init, upd, hx]
    · exact ⟨[], fun t _ => rfl⟩
  | step h hs ih => exact holds_step h.inv ih hs

/-! ## Steps of one thread -/

theorem Run.one {s s1 : St T A} {l : Lbl T A} {u : T} {p q : PC A} (hp : s.pc u = q)
    (hb : q.busy = true) (hs : Step false s l s1) (hpc : s1.pc = upd s.pc u p)
    (htab : s1.table = s.table) : Run s s1 :=
  .step u (by rw [hp]; exact hb) hs (fun t h => by rw [hpc, upd_ne _ _ h])
    (fun h1 h2 => absurd (htab ▸ h1) h2) (.refl _)

/-- The growth step of thread `g` can be finished. (proof, no code) -/
def Ends (s : St T A) (g : T) : Prop :=
  ∃ s', Run s s' ∧ s'.phase = .quiet ∧ (s'.pc g).busy = false

theorem Ends.after {s s1 : St T A} {g : T} (h : Ends s1 g) (hr : Run s s1) : Ends s g := by
  obtain ⟨s', h1, h2, h3⟩ := h
  exact ⟨s', hr.trans h1, h2, h3⟩

theorem Run.ends {s s1 : St T A} {g : T} (hr : Run s s1) (h : Ends s1 g) : Ends s g := h.after hr

theorem end14 {s : St T A} {g : T} {h : Hd} {a : A} {v : Nat} (hp : s.pc g = .gr14 h a v)
    (hph : s.phase = .quiet) : Ends s g :=
  ⟨_, Run.one hp rfl (Step.grDelete hp) rfl rfl, hph, by
    show (upd s.pc g _ g).busy = false
    rw [upd_self]; rfl⟩

theorem end13 {s : St T A} {g : T} {h : Hd} {a b : A} {v : Nat} (hp : s.pc g = .gr13 h a v b) :
    Ends s g := by
  refine Ends.after (end14 (s := { s.at g (.gr14 h a v) with table := .clear b, phase := .quiet })
    (h := h) (a := a) (v := v) (upd_self ..) rfl) ?_
  exact .step g (by rw [hp]; rfl) (Step.grPublish hp) (fun t h => upd_ne _ _ h) nofun (.refl _)

/-- A helper clears `mig_protect`, and nothing else happens. -/
theorem drain_mig {a0 : A} {n0 : Nat} {s : St T A} (hP : Prompt a0 n0 s) {a b : A} {v n j i : Nat}
    (hph : s.phase = .waitMig a v b n j) {g : T} (hg : (s.pc g).grower = true) (hm : (s.pc g).migAt = none)
    (hi : s.mig i ≠ none) :
    ∃ s', Run s s' ∧ s'.mig i = none ∧ s'.pc g = s.pc g := by
  have hS := hP.reach.inv
  have hGl := hS.glob
  simp only [Glob, hph] at hGl
  obtain ⟨-, -, -, ⟨o, g1, g2, g3, g4⟩, o', g5, g6, -⟩ := hGl
  obtain ⟨u, hu⟩ := hP.reach.holds.mig i hi
  have hne : g ≠ u := by rintro rfl; rw [hm] at hu; cases hu
  have hng : (s.pc u).grower = false := hS.others hg u hne.symm
  -- the last two steps
  have key : ∀ s1 : St T A, ∀ h o1, s1.pc u = .mg4 h .help a v b → h.i = i → s1.heap a = some o1 →
      o1.ver = v → ¬ o1.claimed < o1.blocks → s1.heap b = some o' → a ≠ b →
      ∃ s', Run s1 s' ∧ s'.mig i = none ∧ s'.pc g = s1.pc g := by
    intro s1 h o1 hp hi h1 h2 h3 h4 hab
    refine ⟨_, (Run.one hp rfl (Step.mgLeave hp h1 h2 h3) rfl rfl).trans
      (Run.one (u := u) (upd_self ..) rfl (Step.mgEnd (h := h) (c := .help) (a := a) (b := b) (v := v) (o' := o')
        (upd_self ..) ?_ g6) rfl rfl), ?_, ?_⟩
    · show upd s1.heap a _ b = _
      rw [upd_ne _ _ (Ne.symm hab)]; exact h4
    · subst hi; exact upd_self ..
    · show upd (upd s1.pc u _) u _ g = _
      rw [upd_ne _ _ hne, upd_ne _ _ hne]
  have hab : a ≠ b := by
    rintro rfl
    rw [g1] at g5; cases g5; omega
  have hqc := hP.qc u
  have hc := hS.core u
  cases hp : s.pc u with
  | mg3 h c a1 v1 =>
    rw [hp] at hqc hu hng
    simp only [QC, St.growOK, hph] at hqc
    obtain ⟨⟨rfl, rfl⟩, -⟩ := hqc
    cases c with
    | grow => cases hng
    | help =>
      obtain ⟨s', r, h1, h2⟩ := key (s.at u (.mg4 h .help a v b)) h o (upd_self ..)
        (by simpa [PC.migAt] using hu) g1 g2 (by omega) g5 hab
      exact ⟨s', (Run.one hp rfl (Step.mgNext hp g1 g2 g3) rfl rfl).trans r, h1,
        by rw [h2]; exact upd_ne _ _ hne⟩
  | mg4 h c a1 v1 b1 =>
    rw [hp] at hqc hu hng
    simp only [QC, St.migOK, hph] at hqc
    obtain ⟨⟨rfl, rfl, rfl⟩, -⟩ := hqc
    cases c with
    | grow => cases hng
    | help => exact key s h o hp (by simpa [PC.migAt] using hu) g1 g2 (by omega) g5 hab
  | mg5 h c a1 v1 b1 k =>
    rw [hp] at hc hu hng
    simp only [Core, St.migOK, hph] at hc
    obtain ⟨⟨⟨rfl, rfl, rfl⟩, -⟩, -⟩ := hc
    cases c with
    | grow => cases hng
    | help =>
      obtain ⟨s', r, h1, h2⟩ := key (s.at u (.mg4 h .help a v b)) h o (upd_self ..)
        (by simpa [PC.migAt] using hu) g1 g2 (by omega) g5 hab
      exact ⟨s', (Run.one hp rfl (Step.mgDone hp) rfl rfl).trans r, h1,
        by rw [h2]; exact upd_ne _ _ hne⟩
  | mg6 h c a1 v1 b1 =>
    rw [hp] at hqc hu hng
    simp only [QC, St.migOK, hph] at hqc
    obtain ⟨⟨rfl, rfl, rfl⟩, -⟩ := hqc
    cases c with
    | grow => cases hng
    | help =>
      refine ⟨_, Run.one hp rfl (Step.mgEnd hp g5 g6) rfl rfl, ?_, upd_ne _ _ hne⟩
      have : h.i = i := by simpa [PC.migAt] using hu
      subst this; exact upd_self ..
  | _ => rw [hp] at hu; cases hu

theorem end12 {a0 : A} {n0 : Nat} {a b : A} {v n : Nat} {g : T} {h : Hd} (k : Nat) :
    ∀ (s : St T A) (j : Nat), Prompt a0 n0 s → s.pc g = .gr12 h a v b n j → n - j ≤ k → Ends s g := by
  induction k with
  | zero =>
    intro s j hP hp hk
    exact (end13 (s := { s.at g (.gr13 h a v b) with phase := .empty a v b }) (h := h) (a := a) (b := b)
      (v := v) (upd_self ..)).after (Run.one hp rfl (Step.grMigEnd hp (by omega)) rfl rfl)
  | succ k ih =>
    intro s j hP hp hk
    by_cases hj : j < n
    · have hnext : ∀ s1 : St T A, Prompt a0 n0 s1 → s1.pc g = .gr12 h a v b n j → s1.mig j = none →
          Ends s1 g := by
        intro s1 hP1 hp1 hm
        have r : Run s1 _ := Run.one hp1 rfl (Step.grMigNext hp1 hj hm) rfl rfl
        exact (ih _ (j + 1) (r.prompt hP1) (upd_self ..) (by omega)).after r
      by_cases hm : s.mig j = none
      · exact hnext s hP hp hm
      · have hph : s.phase = .waitMig a v b n j := by have := hP.reach.inv.core g; rw [hp] at this; exact this
        obtain ⟨s1, r, h1, h2⟩ := drain_mig hP hph (g := g) (by rw [hp]; rfl) (by rw [hp]; rfl) hm
        exact (hnext s1 (r.prompt hP) (by rw [h2]; exact hp) h1).after r
    · exact (end13 (s := { s.at g (.gr13 h a v b) with phase := .empty a v b }) (h := h) (a := a) (b := b)
        (v := v) (upd_self ..)).after (Run.one hp rfl (Step.grMigEnd hp hj) rfl rfl)

theorem end11 {a0 : A} {n0 : Nat} {s : St T A} (hP : Prompt a0 n0 s) {a b : A} {v : Nat} {g : T} {h : Hd}
    (hp : s.pc g = .gr11 h a v b) : Ends s g := by
  have r : Run s _ := Run.one hp rfl (Step.grMig hp) rfl rfl
  exact (end12 s.last _ 0 (r.prompt hP) (upd_self ..) (by omega)).after r

/-- Threads that have loaded the marked table store `mig_protect` (line 407). -/
theorem drain_mg2 {a0 : A} {n0 : Nat} {g : T} {s : St T A} (hP : Prompt a0 n0 s)
    (hg : ∀ h c x v, s.pc g ≠ .mg2 h c x v) (k : Nat) :
    ∃ s', Run s s' ∧ s'.pc g = s.pc g ∧
      ∀ t h c x v, s'.pc t = .mg2 h c x v → k ≤ h.i := by
  induction k with
  | zero => exact ⟨s, .refl _, rfl, fun _ _ _ _ _ _ => Nat.zero_le _⟩
  | succ k ih =>
    obtain ⟨s1, r1, h1, h2⟩ := ih
    by_cases hex : ∃ u h c x v, s1.pc u = .mg2 h c x v ∧ h.i = k
    · obtain ⟨u, h, c, x, v, hp, rfl⟩ := hex
      have hne : g ≠ u := by rintro rfl; rw [h1] at hp; exact hg _ _ _ _ hp
      refine ⟨_, r1.trans (Run.one hp rfl (Step.mgStore hp) rfl rfl), ?_, ?_⟩
      · exact (upd_ne _ _ hne).trans h1
      · intro t h' c' x' v' ht
        have ht : upd s1.pc u _ t = _ := ht
        by_cases e : t = u
        · subst e; rw [upd_self] at ht; cases ht
        · rw [upd_ne _ _ e] at ht
          have := h2 t h' c' x' v' ht
          have hS := (r1.prompt hP).reach.inv
          have : h'.i ≠ h.i := fun hi => e (hS.flags t u h.i (by rw [ht, ← hi]; rfl) (by rw [hp]; rfl))
          omega
    · refine ⟨s1, r1, h1, fun t h c x v ht => ?_⟩
      have := h2 t h c x v ht
      have : h.i ≠ k := fun hi => hex ⟨t, h, c, x, v, ht, hi⟩
      omega

theorem end10 {a0 : A} {n0 : Nat} {s : St T A} (hP : Prompt a0 n0 s) {a b : A} {v : Nat} {g : T} {h : Hd}
    (hp : s.pc g = .gr10 h a v b) : Ends s g := by
  obtain ⟨s1, r1, h1, h2⟩ := drain_mg2 hP (g := g) (by rw [hp]; nofun) maxHandles
  have hp1 : s1.pc g = .gr10 h a v b := by rw [h1]; exact hp
  have hP1 := r1.prompt hP
  have r2 : Run s1 { s1.at g (.gr11 h a v b) with table := .null, phase := .nulled a v b } := by
    refine .step g (by rw [hp1]; rfl) (Step.grNull hp1) (fun t h => upd_ne _ _ h) ?_ (.refl _)
    intro _ _ t h' c x w ht
    have h3 := h2 t h' c x w ht
    have h4 := (hP1.reach.inv.base ht rfl).max
    omega
  exact (end11 (r2.prompt hP1) (upd_self ..)).after (r1.trans r2)

/-- What the growing thread knows inside `migrate`. -/
theorem grower_facts {s : St T A} (hS : SInv s) {a b : A} {v : Nat} (hph : s.phase = .migrating a v b) :
    s.table = .mark a ∧ a ≠ b ∧ (∃ o, s.heap a = some o ∧ o.ver = v ∧ o.next = some b) ∧
      ∃ o, s.heap b = some o ∧ o.ver = v + 1 := by
  have hGl := hS.glob
  simp only [Glob, hph] at hGl
  obtain ⟨g0, -, g1, ⟨o, g2, g3, g4⟩, o', g5, g6, -⟩ := hGl
  exact ⟨g0, g1, ⟨o, g2, g3, g4⟩, o', g5, g6⟩

theorem endm6 {a0 : A} {n0 : Nat} {s : St T A} (hP : Prompt a0 n0 s) {a b a' b' : A} {v v' : Nat} {g : T}
    {h : Hd} (hp : s.pc g = .mg6 h (.grow a' v' b') a v b) : Ends s g := by
  have hc := hP.reach.inv.core g
  rw [hp] at hc
  obtain ⟨hph, rfl, rfl, o, q1, -, q2⟩ := hc _ _ _ rfl
  obtain ⟨-, -, ⟨o1, g1, -, g2⟩, o', g3, g4⟩ := grower_facts hP.reach.inv hph
  rw [q1] at g1; cases g1
  rw [q2] at g2; cases g2
  have r : Run s _ := Run.one hp rfl (Step.mgEnd hp g3 g4) rfl rfl
  exact (end10 (r.prompt hP) (h := h) (a := a') (v := v') (b := b) (upd_self ..)).after r

theorem endm4 {a0 : A} {n0 : Nat} {g : T} {h : Hd} {a b a' b' : A} {v v' : Nat} (k : Nat) :
    ∀ s : St T A, Prompt a0 n0 s → s.pc g = .mg4 h (.grow a' v' b') a v b →
      (∀ o, s.heap a = some o → o.blocks - o.claimed ≤ k) → Ends s g := by
  induction k with
  | zero =>
    intro s hP hp hk
    have hc := hP.reach.inv.core g
    rw [hp] at hc
    obtain ⟨hph, rfl, rfl⟩ := hc.2.2 _ _ _ rfl
    obtain ⟨-, -, ⟨o, g1, g2, -⟩, -⟩ := grower_facts hP.reach.inv hph
    have := hk o g1
    have r : Run s _ := Run.one hp rfl (Step.mgLeave hp g1 g2 (by omega)) rfl rfl
    exact (endm6 (r.prompt hP) (upd_self ..)).after r
  | succ k ih =>
    intro s hP hp hk
    have hc := hP.reach.inv.core g
    rw [hp] at hc
    obtain ⟨hph, rfl, rfl⟩ := hc.2.2 _ _ _ rfl
    obtain ⟨-, -, ⟨o, g1, g2, -⟩, -⟩ := grower_facts hP.reach.inv hph
    have := hk o g1
    by_cases hlt : o.claimed < o.blocks
    · have r1 : Run s _ := Run.one hp rfl (Step.mgClaim hp g1 g2 hlt) rfl rfl
      have r2 : Run s _ := r1.trans (Run.one (u := g) (upd_self ..) rfl
        (Step.mgDone (h := h) (c := .grow a' v' b') (a := a') (v := v') (b := b) (blk := o.claimed) (upd_self ..))
        rfl rfl)
      refine (ih _ (r2.prompt hP) (upd_self ..) ?_).after r2
      intro o1 ho1
      have ho1 : upd s.heap a' _ a' = some o1 := ho1
      rw [upd_self] at ho1
      cases ho1
      show o.blocks - (o.claimed + 1) ≤ k
      omega
    · have r : Run s _ := Run.one hp rfl (Step.mgLeave hp g1 g2 hlt) rfl rfl
      exact (endm6 (r.prompt hP) (upd_self ..)).after r

theorem endm4' {a0 : A} {n0 : Nat} {s : St T A} (hP : Prompt a0 n0 s) {a b a' b' : A} {v v' : Nat} {g : T}
    {h : Hd} (hp : s.pc g = .mg4 h (.grow a' v' b') a v b) : Ends s g := by
  cases ho : s.heap a with
  | none => exact endm4 0 s hP hp (by rw [ho]; nofun)
  | some o => exact endm4 (o.blocks - o.claimed) s hP hp (by rw [ho]; rintro _ ⟨⟩; exact Nat.le_refl _)

theorem endm5 {a0 : A} {n0 : Nat} {s : St T A} (hP : Prompt a0 n0 s) {a b a' b' : A} {v v' k : Nat} {g : T}
    {h : Hd} (hp : s.pc g = .mg5 h (.grow a' v' b') a v b k) : Ends s g := by
  have r : Run s _ := Run.one hp rfl (Step.mgDone hp) rfl rfl
  exact (endm4' (r.prompt hP) (upd_self ..)).after r

theorem endm3 {a0 : A} {n0 : Nat} {s : St T A} (hP : Prompt a0 n0 s) {a a' b' : A} {v v' : Nat} {g : T}
    {h : Hd} (hp : s.pc g = .mg3 h (.grow a' v' b') a v) : Ends s g := by
  have hc := hP.reach.inv.core g
  rw [hp] at hc
  obtain ⟨hph, rfl, rfl⟩ := hc.2 _ _ _ rfl
  obtain ⟨-, -, ⟨o, g1, g2, g3⟩, -⟩ := grower_facts hP.reach.inv hph
  have r : Run s _ := Run.one hp rfl (Step.mgNext hp g1 g2 g3) rfl rfl
  exact (endm4' (r.prompt hP) (upd_self ..)).after r

theorem endm2 {a0 : A} {n0 : Nat} {s : St T A} (hP : Prompt a0 n0 s) {a a' b' : A} {v v' : Nat} {g : T}
    {h : Hd} (hp : s.pc g = .mg2 h (.grow a' v' b') a v) : Ends s g := by
  have r : Run s _ := Run.one hp rfl (Step.mgStore hp) rfl rfl
  exact (endm3 (r.prompt hP) (upd_self ..)).after r

theorem endm1 {a0 : A} {n0 : Nat} {s : St T A} (hP : Prompt a0 n0 s) {a' b' : A} {v' : Nat} {g : T}
    {h : Hd} (hp : s.pc g = .mg1 h (.grow a' v' b')) : Ends s g := by
  have hc := hP.reach.inv.core g
  rw [hp] at hc
  obtain ⟨g0, -, ⟨o, g1, g2, g3⟩, -⟩ := grower_facts hP.reach.inv (hc _ _ _ rfl)
  have r : Run s _ := Run.one hp rfl (Step.mgLoad hp g0 g1) rfl rfl
  exact (endm2 (r.prompt hP) (upd_self ..)).after r

theorem end8 {a0 : A} {n0 : Nat} {s : St T A} (hP : Prompt a0 n0 s) {a b : A} {v : Nat} {g : T}
    {h : Hd} (hp : s.pc g = .gr8 h a v b) : Ends s g := by
  have hph : s.phase = .ready a v b := by have := hP.reach.inv.core g; rw [hp] at this; exact this
  have hGl := hP.reach.inv.glob
  simp only [Glob, hph] at hGl
  obtain ⟨-, -, -, ⟨o, g1, -⟩, -⟩ := hGl
  have r : Run s _ := Run.one hp rfl (Step.grNext hp g1) rfl rfl
  exact (endm1 (r.prompt hP) (upd_self ..)).after r

/-- A thread that has protected the table releases it, and nothing else happens. -/
theorem drain_ops {a0 : A} {n0 : Nat} {s : St T A} (hP : Prompt a0 n0 s) {a : A} {i : Nat}
    (ht : s.table = .mark a) {g : T} (hg : (s.pc g).opsAt = none) (hi : s.ops i ≠ none) :
    ∃ s', Run s s' ∧ s'.ops i = none ∧ s'.pc g = s.pc g := by
  obtain ⟨u, hu⟩ := hP.reach.holds.ops i hi
  have hne : g ≠ u := by rintro rfl; rw [hg] at hu; cases hu
  cases hp : s.pc u with
  | gt3 h x =>
    rw [hp] at hu
    have e : h.i = i := by simpa [PC.opsAt] using hu
    subst e
    refine ⟨_, (Run.one hp rfl (Step.gtOther hp (by rw [ht]; nofun)) rfl rfl).trans
      (Run.one (u := u) (upd_self ..) rfl (Step.gtClear (h := h) (upd_self ..)) rfl rfl), upd_self .., ?_⟩
    show upd (upd s.pc u _) u _ g = _
    rw [upd_ne _ _ hne, upd_ne _ _ hne]
  | gt4 h =>
    rw [hp] at hu
    have e : h.i = i := by simpa [PC.opsAt] using hu
    subst e
    exact ⟨_, Run.one hp rfl (Step.gtClear hp) rfl rfl, upd_self .., upd_ne _ _ hne⟩
  | op h x v =>
    rw [hp] at hu
    have e : h.i = i := by simpa [PC.opsAt] using hu
    subst e
    exact ⟨_, Run.one hp rfl (Step.opEnd hp .plain) rfl rfl, upd_self .., upd_ne _ _ hne⟩
  | _ => rw [hp] at hu; cases hu

theorem end7 {a0 : A} {n0 : Nat} {a b : A} {v n : Nat} {g : T} {h : Hd} (k : Nat) :
    ∀ (s : St T A) (j : Nat), Prompt a0 n0 s → s.pc g = .gr7 h a v b n j → n - j ≤ k → Ends s g := by
  induction k with
  | zero =>
    intro s j hP hp hk
    have r : Run s _ := Run.one hp rfl (Step.grOpsEnd hp (by omega)) rfl rfl
    exact (end8 (r.prompt hP) (upd_self ..)).after r
  | succ k ih =>
    intro s j hP hp hk
    by_cases hj : j < n
    · have hnext : ∀ s1 : St T A, Prompt a0 n0 s1 → s1.pc g = .gr7 h a v b n j → s1.ops j ≠ some a →
          Ends s1 g := by
        intro s1 hP1 hp1 hm
        have r : Run s1 _ := Run.one hp1 rfl (Step.grOpsNext hp1 hj hm) rfl rfl
        exact (ih _ (j + 1) (r.prompt hP1) (upd_self ..) (by omega)).after r
      by_cases hm : s.ops j = some a
      · have hph : s.phase = .waitOps a v b n j := by have := hP.reach.inv.core g; rw [hp] at this; exact this
        have hGl := hP.reach.inv.glob
        simp only [Glob, hph] at hGl
        obtain ⟨s1, r, h1, h2⟩ := drain_ops hP hGl.1 (g := g) (by rw [hp]; rfl) (i := j) (by rw [hm]; nofun)
        exact (hnext s1 (r.prompt hP) (by rw [h2]; exact hp) (by rw [h1]; nofun)).after r
      · exact hnext s hP hp hm
    · have r : Run s _ := Run.one hp rfl (Step.grOpsEnd hp hj) rfl rfl
      exact (end8 (r.prompt hP) (upd_self ..)).after r

theorem end6 {a0 : A} {n0 : Nat} {s : St T A} (hP : Prompt a0 n0 s) {a b : A} {v : Nat} {g : T}
    {h : Hd} (hp : s.pc g = .gr6 h a v b) : Ends s g := by
  have r : Run s _ := Run.one hp rfl (Step.grOps hp) rfl rfl
  exact (end7 s.last _ 0 (r.prompt hP) (upd_self ..) (by omega)).after r

theorem end5 (hA : ∀ L : List A, ∃ b, b ∉ L) {a0 : A} {n0 : Nat} {s : St T A} (hP : Prompt a0 n0 s) {a : A}
    {v : Nat} {g : T} {h : Hd} (hp : s.pc g = .gr5 h a v) : Ends s g := by
  have hph : s.phase = .marked a v := by have := hP.reach.inv.core g; rw [hp] at this; exact this
  have hGl := hP.reach.inv.glob
  simp only [Glob, hph] at hGl
  obtain ⟨-, -, o, g1, -⟩ := hGl
  obtain ⟨L, hL⟩ := hP.reach.holds.heap
  obtain ⟨b, hb⟩ := hA L
  have r : Run s _ := Run.one hp rfl (Step.grMake 0 hp g1 (hL b hb)) rfl rfl
  exact (end6 (r.prompt hP) (upd_self ..)).after r

theorem end4 (hA : ∀ L : List A, ∃ b, b ∉ L) {a0 : A} {n0 : Nat} {s : St T A} (hP : Prompt a0 n0 s) {a : A}
    {v : Nat} {g : T} {h : Hd} (hp : s.pc g = .gr4 h a v) : Ends s g := by
  have hc := hP.reach.inv.core g
  rw [hp] at hc
  have r : Run s { s.at g (.gr5 h a v) with table := .mark a, phase := .marked a v } :=
    .step g (by rw [hp]; rfl) (Step.grMark hp hc.2.1) (fun t h => upd_ne _ _ h) nofun (.refl _)
  exact (end5 hA (r.prompt hP) (upd_self ..)).after r

theorem end3 (hA : ∀ L : List A, ∃ b, b ∉ L) {a0 : A} {n0 : Nat} {s : St T A} (hP : Prompt a0 n0 s)
    {g : T} {h : Hd} (hp : s.pc g = .gr3 h) : Ends s g := by
  have hph : s.phase = .begun := by have := hP.reach.inv.core g; rw [hp] at this; exact this
  have hGl := hP.reach.inv.glob
  simp only [Glob, hph] at hGl
  obtain ⟨a, o, g1, g2, -⟩ := hGl
  have r : Run s _ := Run.one hp rfl (Step.grLoad hp g1 g2) rfl rfl
  exact (end4 hA (r.prompt hP) (upd_self ..)).after r

/-- Every growth step can be finished. -/
theorem grow_ends (hA : ∀ L : List A, ∃ b, b ∉ L) {a0 : A} {n0 : Nat} {s : St T A} (hP : Prompt a0 n0 s)
    {g : T} (hg : (s.pc g).grower = true) : Ends s g := by
  cases hp : s.pc g with
  | gr3 h => exact end3 hA hP hp
  | gr4 h a v => exact end4 hA hP hp
  | gr5 h a v => exact end5 hA hP hp
  | gr6 h a v b => exact end6 hP hp
  | gr7 h a v b n j => exact end7 (n - j) s j hP hp (Nat.le_refl _)
  | gr8 h a v b => exact end8 hP hp
  | gr10 h a v b => exact end10 hP hp
  | gr11 h a v b => exact end11 hP hp
  | gr12 h a v b n j => exact end12 (n - j) s j hP hp (Nat.le_refl _)
  | gr13 h a v b => exact end13 hp
  | mg1 h c => cases c with
    | help => rw [hp] at hg; cases hg
    | grow a v b => exact endm1 hP hp
  | mg2 h c x w => cases c with
    | help => rw [hp] at hg; cases hg
    | grow a v b => exact endm2 hP hp
  | mg3 h c x w => cases c with
    | help => rw [hp] at hg; cases hg
    | grow a v b => exact endm3 hP hp
  | mg4 h c x w y => cases c with
    | help => rw [hp] at hg; cases hg
    | grow a v b => exact endm4' hP hp
  | mg5 h c x w y k => cases c with
    | help => rw [hp] at hg; cases hg
    | grow a v b => exact endm5 hP hp
  | mg6 h c x w y => cases c with
    | help => rw [hp] at hg; cases hg
    | grow a v b => exact endm6 hP hp
  | _ => rw [hp] at hg; cases hg

/-! ## All threads -/

theorem quiet_table {s : St T A} (hS : SInv s) (hph : s.phase = .quiet) :
    ∃ a o, s.table = .clear a ∧ s.heap a = some o := by
  have hGl := hS.glob
  simp only [Glob, hph] at hGl
  obtain ⟨a, o, g1, g2, -⟩ := hGl
  exact ⟨a, o, g1, g2⟩

theorem rest_op {s : St T A} {t : T} {h : Hd} {a : A} {v : Nat} (hsh : h.shell = false)
    (hp : s.pc t = .op h a v) (hph : s.phase = .quiet) : Ends s t := by
  refine ⟨_, Run.one hp rfl (Step.opEnd hp .plain) rfl rfl, hph, ?_⟩
  show (upd s.pc t _ t).busy = false
  rw [upd_self]
  unfold Exit.next
  rw [hsh]; rfl

/-- `get_table` when nothing changes any more. -/
theorem rest_gt1 {s : St T A} {t : T} {h : Hd} {a : A} {o : Obj A} (hsh : h.shell = false)
    (hp : s.pc t = .gt1 h) (hph : s.phase = .quiet) (ht : s.table = .clear a) (ho : s.heap a = some o) :
    Ends s t := by
  have r1 : Run s _ := Run.one hp rfl (Step.gtLoad hp ht) rfl rfl
  have r2 : Run s _ := r1.trans (Run.one (u := t) (upd_self ..) rfl
    (Step.gtStore (h := h) (a := a) (upd_self ..)) rfl rfl)
  have r3 : Run s _ := r2.trans (Run.one (u := t) (upd_self ..) rfl
    (Step.gtSame (h := h) (a := a) (o := o) (upd_self ..) ht ho) rfl rfl)
  exact r3.ends (rest_op (v := o.ver) hsh (upd_self ..) hph)

theorem rest_gt4 {s : St T A} {t : T} {h : Hd} {a : A} {o : Obj A} (hsh : h.shell = false)
    (hp : s.pc t = .gt4 h) (hph : s.phase = .quiet) (ht : s.table = .clear a) (ho : s.heap a = some o) :
    Ends s t := by
  have r1 : Run s _ := Run.one hp rfl (Step.gtClear hp) rfl rfl
  exact r1.ends (rest_gt1 hsh (upd_self ..) hph ht ho)

theorem rest_gt3 {s : St T A} {t : T} {h : Hd} {a x : A} {o : Obj A} (hsh : h.shell = false)
    (hp : s.pc t = .gt3 h x) (hph : s.phase = .quiet) (ht : s.table = .clear a) (ho : s.heap a = some o) :
    Ends s t := by
  by_cases e : x = a
  · subst e
    have r1 : Run s _ := Run.one hp rfl (Step.gtSame hp ht ho) rfl rfl
    exact r1.ends (rest_op hsh (upd_self ..) hph)
  · have r1 : Run s _ := Run.one hp rfl (Step.gtOther hp (by rw [ht]; rintro ⟨⟩; exact e rfl)) rfl rfl
    exact r1.ends (rest_gt4 hsh (upd_self ..) hph ht ho)

theorem rest_gt2 {s : St T A} {t : T} {h : Hd} {a x : A} {o : Obj A} (hsh : h.shell = false)
    (hp : s.pc t = .gt2 h x) (hph : s.phase = .quiet) (ht : s.table = .clear a) (ho : s.heap a = some o) :
    Ends s t := by
  have r1 : Run s _ := Run.one hp rfl (Step.gtStore hp) rfl rfl
  exact r1.ends (rest_gt3 hsh (upd_self ..) hph ht ho)

theorem rest_hg {s : St T A} {t : T} {h : Hd} {a : A} {o : Obj A} (hsh : h.shell = false)
    (hp : s.pc t = .hg h) (hph : s.phase = .quiet) (ht : s.table = .clear a) (ho : s.heap a = some o) :
    Ends s t := by
  have r1 : Run s _ := Run.one hp rfl (Step.hgEnd hp ht) rfl rfl
  exact r1.ends (rest_gt1 hsh (upd_self ..) hph ht ho)

theorem rest_mg1 {s : St T A} {t : T} {h : Hd} {a : A} {o : Obj A} (hsh : h.shell = false)
    (hp : s.pc t = .mg1 h .help) (hph : s.phase = .quiet) (ht : s.table = .clear a) (ho : s.heap a = some o) :
    Ends s t := by
  have r1 : Run s _ := Run.one hp rfl (Step.mgNone hp (by rw [ht]; nofun)) rfl rfl
  exact r1.ends (rest_hg (h := h) hsh (upd_self ..) hph ht ho)

theorem rest_gr2 (hA : ∀ L : List A, ∃ b, b ∉ L) {a0 : A} {n0 : Nat} {s : St T A} (hP : Prompt a0 n0 s)
    {t : T} {h : Hd} {v : Nat} {e : Int} (hp : s.pc t = .gr2 h v e) (hph : s.phase = .quiet) : Ends s t := by
  by_cases he : (v : Int) ≤ e ∨ s.epoch ≠ e
  · refine ⟨_, Run.one hp rfl (Step.grNot hp he) rfl rfl, hph, ?_⟩
    show (upd s.pc t _ t).busy = false
    rw [upd_self]; rfl
  · have r : Run s _ := Run.one hp rfl (Step.grCas hp (by omega) (by omega)) rfl rfl
    exact r.ends (end3 hA (r.prompt hP) (upd_self ..))

theorem rest_gr1 (hA : ∀ L : List A, ∃ b, b ∉ L) {a0 : A} {n0 : Nat} {s : St T A} (hP : Prompt a0 n0 s)
    {t : T} {h : Hd} {v : Nat} (hp : s.pc t = .gr1 h v) (hph : s.phase = .quiet) : Ends s t := by
  have r : Run s _ := Run.one hp rfl (Step.grEpoch hp) rfl rfl
  exact r.ends (rest_gr2 hA (r.prompt hP) (upd_self ..) hph)

theorem rest_regEnd {s : St T A} {t : T} {i n : Nat} (hp : s.pc t = .regCas i n) (hn : ¬ n ≤ i)
    (hph : s.phase = .quiet) : Ends s t := by
  refine ⟨_, Run.one hp rfl (Step.regEnd hp hn) rfl rfl, hph, ?_⟩
  show (upd s.pc t _ t).busy = false
  rw [upd_self]; rfl

theorem upd_id {X Y : Type} [DecidableEq X] (f : X → Y) (x : X) : upd f x (f x) = f := by
  funext z
  unfold upd
  split
  · next h => rw [h]
  · rfl

theorem rest_regLast {s : St T A} {t : T} {i : Nat} (hp : s.pc t = .regLast i) (hph : s.phase = .quiet) :
    Ends s t := by
  have r1 : Run s (s.at t (.regCas i s.last)) := Run.one hp rfl (Step.regLoad hp) rfl rfl
  have e1 : (s.at t (.regCas i s.last)).pc t = .regCas i s.last := upd_self ..
  by_cases hl : s.last ≤ i
  · have r2 : Run s { s.at t (.regCas i s.last) with last := i + 1 } :=
      r1.trans (Run.one (p := (s.at t (.regCas i s.last)).pc t) e1 rfl (Step.regCas e1 hl rfl)
        (upd_id _ _).symm rfl)
    have r3 : Run s _ := r2.trans (Run.one e1 rfl (Step.regCasFail (s := { s.at t (.regCas i s.last) with
      last := i + 1 }) e1 hl) rfl rfl)
    exact r3.ends (rest_regEnd (i := i) (n := i + 1) (upd_self ..) (by omega) hph)
  · exact r1.ends (rest_regEnd e1 hl hph)

theorem rest_regCas {s : St T A} {t : T} {i n : Nat} (hp : s.pc t = .regCas i n) (hph : s.phase = .quiet) :
    Ends s t := by
  by_cases hn : n ≤ i
  · have r1 : Run s (s.at t (.regCas i s.last)) := Run.one hp rfl (Step.regCasFail hp hn) rfl rfl
    have e1 : (s.at t (.regCas i s.last)).pc t = .regCas i s.last := upd_self ..
    by_cases hl : s.last ≤ i
    · have r2 : Run s { s.at t (.regCas i s.last) with last := i + 1 } :=
        r1.trans (Run.one (p := (s.at t (.regCas i s.last)).pc t) e1 rfl (Step.regCas e1 hl rfl)
          (upd_id _ _).symm rfl)
      have r3 : Run s _ := r2.trans (Run.one e1 rfl (Step.regCasFail (s := { s.at t (.regCas i s.last) with
        last := i + 1 }) e1 hl) rfl rfl)
      exact r3.ends (rest_regEnd (i := i) (n := i + 1) (upd_self ..) (by omega) hph)
    · exact r1.ends (rest_regEnd e1 hl hph)
  · exact rest_regEnd hp hn hph

theorem rest_reg {t : T} (k : Nat) : ∀ (s : St T A) (i : Nat), s.pc t = .reg i → maxHandles - i ≤ k →
    s.phase = .quiet → Ends s t := by
  induction k with
  | zero =>
    intro s i hp hk hph
    refine ⟨_, Run.one hp rfl (Step.regNone hp (by omega)) rfl rfl, hph, ?_⟩
    show (upd s.pc t _ t).busy = false
    rw [upd_self]; rfl
  | succ k ih =>
    intro s i hp hk hph
    by_cases hi : i < maxHandles
    · cases hu : s.used i with
      | true =>
        have r : Run s _ := Run.one hp rfl (Step.regUsed hp hi hu) rfl rfl
        exact r.ends (ih _ (i + 1) (upd_self ..) (by omega) hph)
      | false =>
        have r1 : Run s _ := Run.one hp rfl (Step.regFree hp hi hu) rfl rfl
        have r2 : Run s _ := r1.trans (Run.one (u := t) (upd_self ..) rfl
          (Step.reserve (i := i) (upd_self ..) hu) rfl rfl)
        exact r2.ends (rest_regLast (i := i) (upd_self ..) hph)
    · refine ⟨_, Run.one hp rfl (Step.regNone hp hi) rfl rfl, hph, ?_⟩
      show (upd s.pc t _ t).busy = false
      rw [upd_self]; rfl

theorem rest_regTry {s : St T A} {t : T} {i : Nat} (hp : s.pc t = .regTry i) (hph : s.phase = .quiet) :
    Ends s t := by
  cases hu : s.used i with
  | true =>
    have r : Run s _ := Run.one hp rfl (Step.reserveFail hp hu) rfl rfl
    exact r.ends (rest_reg _ _ i (upd_self ..) (Nat.le_refl _) hph)
  | false =>
    have r : Run s _ := Run.one hp rfl (Step.reserve hp hu) rfl rfl
    exact r.ends (rest_regLast (i := i) (upd_self ..) hph)

/-- While nobody grows, every thread can finish. -/
theorem rest_quiet (hA : ∀ L : List A, ∃ b, b ∉ L) {a0 : A} {n0 : Nat} {s : St T A} (hP : Prompt a0 n0 s)
    (hph : s.phase = .quiet) (t : T) : Ends s t := by
  have hS := hP.reach.inv
  obtain ⟨a, o, ht, ho⟩ := quiet_table hS hph
  have hng := hS.grower_none hph t
  have hqc := hP.qc t
  have hc := hS.core t
  cases hp : s.pc t with
  | out => exact ⟨s, .refl _, hph, by rw [hp]; rfl⟩
  | lost => exact ⟨s, .refl _, hph, by rw [hp]; rfl⟩
  | idle h => exact ⟨s, .refl _, hph, by rw [hp]; rfl⟩
  | reg i => exact rest_reg _ s i hp (Nat.le_refl _) hph
  | regTry i => exact rest_regTry hp hph
  | regLast i => exact rest_regLast hp hph
  | regCas i n => exact rest_regCas hp hph
  | gt1 h => exact rest_gt1 (hS.base hp rfl).shell hp hph ht ho
  | gt2 h x => exact rest_gt2 (hS.base hp rfl).shell hp hph ht ho
  | gt3 h x => exact rest_gt3 (hS.base hp rfl).shell hp hph ht ho
  | gt4 h => exact rest_gt4 (hS.base hp rfl).shell hp hph ht ho
  | op h x v => exact rest_op (hS.base hp rfl).shell hp hph
  | gr1 h v => exact rest_gr1 hA hP hp hph
  | gr2 h v e => exact rest_gr2 hA hP hp hph
  | gr14 h x v => exact end14 hp hph
  | hg h => exact rest_hg (hS.base hp rfl).shell hp hph ht ho
  | mg1 h c => cases c with
    | help => exact rest_mg1 (hS.base hp rfl).shell hp hph ht ho
    | grow x v b => rw [hp] at hng; cases hng
  | mg2 h c x v => rw [hp] at hqc; simp only [QC, ht] at hqc; exact nomatch hqc.1
  | mg3 h c x v => rw [hp] at hqc; simp only [QC, St.growOK, hph] at hqc
  | mg4 h c x v b => rw [hp] at hqc; simp only [QC, St.migOK, hph] at hqc
  | mg5 h c x v b k => rw [hp] at hc; simp only [Core, St.migOK, hph] at hc; exact hc.1.elim
  | mg6 h c x v b => rw [hp] at hqc; simp only [QC, St.migOK, hph] at hqc
  | _ => rw [hp] at hng; cases hng

/-- A growth step in progress can be finished. -/
theorem reach_quiet (hA : ∀ L : List A, ∃ b, b ∉ L) {a0 : A} {n0 : Nat} {s : St T A} (hP : Prompt a0 n0 s) :
    ∃ s', Run s s' ∧ s'.phase = .quiet := by
  by_cases hph : s.phase = .quiet
  · exact ⟨s, .refl _, hph⟩
  · obtain ⟨g, hg⟩ := hP.reach.holds.grow hph
    obtain ⟨s', r, h, -⟩ := grow_ends hA hP hg
    exact ⟨s', r, h⟩

/-- All threads of a list can finish. -/
theorem rest_list (hA : ∀ L : List A, ∃ b, b ∉ L) {a0 : A} {n0 : Nat} (L : List T) :
    ∀ s : St T A, Prompt a0 n0 s → s.phase = .quiet →
      ∃ s', Run s s' ∧ s'.phase = .quiet ∧ ∀ t ∈ L, (s'.pc t).busy = false := by
  induction L with
  | nil => intro s _ hph; exact ⟨s, .refl _, hph, nofun⟩
  | cons t L ih =>
    intro s hP hph
    obtain ⟨s1, r1, h1, h2⟩ := rest_quiet hA hP hph t
    obtain ⟨s2, r2, h3, h4⟩ := ih s1 (r1.prompt hP) h1
    refine ⟨s2, r1.trans r2, h3, ?_⟩
    intro u hu
    rcases List.mem_cons.1 hu with rfl | hu
    · rw [r2.rest h2]; exact h2
    · exact h4 u hu

theorem upd_keep {X Y Z : Type} [DecidableEq X] {f : X → Y} {x t : X} {y : Y} {k : Y → Option Z} {z : Z}
    (h : k (f t) = some z) (hx : k (f x) = none ∨ k y = k (f x)) : k (upd f x y t) = some z := by
  by_cases e : t = x
  · subst e
    rw [upd_self]
    rcases hx with hx | hx
    · rw [hx] at h; cases h
    · rw [hx]; exact h
  · rw [upd_ne _ _ e]; exact h

/-- Threads inside operations keep their handle. -/
theorem step_hd {s s' : St T A} {l : Lbl T A} (hS : SInv s) (hs : Step false s l s') {t : T} {hd : Hd}
    (hb : (s.pc t).busy = true) (ht : (s.pc t).hd = some hd) : (s'.pc t).hd = some hd := by
  cases hs with
  | gtNull | opStep | grOpsWait | grMigWait | mgWait | mgWork | hgWait | regCas => exact ht
  | @destroy t' h hp hsh =>
    have hne : t ≠ t' := by rintro rfl; rw [hp] at hb; cases hb
    show (upd s.pc t' _ t).hd = _
    rw [upd_ne _ _ hne]; exact ht
  | @move t1 t2 h hp hsh hp' =>
    have hne : t ≠ t1 := by rintro rfl; rw [hp] at hb; cases hb
    have hne' : t ≠ t2 := by rintro rfl; rw [hp'] at hb; cases hb
    show (upd (upd s.pc t1 _) t2 _ t).hd = _
    rw [upd_ne _ _ hne', upd_ne _ _ hne]; exact ht
  | @opEnd t' h a v hp x =>
    refine upd_keep (k := PC.hd) ht (.inr ?_)
    rw [hp]
    unfold Exit.next
    rw [(hS.base hp rfl).shell]
    cases x <;> rfl
  | @mgNone t' h c hp _ => exact upd_keep (k := PC.hd) ht (.inr (by rw [hp]; cases c <;> rfl))
  | @mgEnd t' h c a b v o' hp _ _ => exact upd_keep (k := PC.hd) ht (.inr (by rw [hp]; cases c <;> rfl))
  | create hp | regUsed hp | regFree hp | regNone hp | reserve hp | reserveFail hp | regLoad hp
  | regCasFail hp | regEnd hp => exact upd_keep (k := PC.hd) ht (.inl (by rw [hp]; rfl))
  | call hp | gtMark hp | gtLoad hp | gtStore hp | gtSame hp | gtOther hp | gtClear hp
  | grEpoch hp | grNot hp | grCas hp | grLoad hp | grLoadMark hp | grMark hp | grMarkFail hp | grMake _ hp
  | grOps hp | grOpsNext hp | grOpsEnd hp | grNext hp | grNull hp | grMig hp | grMigNext hp | grMigEnd hp
  | grPublish hp | grDelete hp | mgLoad hp | mgStore hp | mgNext hp | mgClaim hp | mgLeave hp | mgDone hp
  | hgEnd hp => exact upd_keep (k := PC.hd) ht (.inr (by rw [hp]; rfl))

theorem Run.hd {a0 : A} {n0 : Nat} {s s' : St T A} (h : Run s s') (hP : Prompt a0 n0 s) {t : T} {hd : Hd}
    (ht : (s.pc t).hd = some hd) : (s'.pc t).hd = some hd := by
  induction h with
  | refl => exact ht
  | @step s s1 s' l u hu hs ho hq hr ih =>
    refine ih (hP.step hs hq) ?_
    by_cases e : t = u
    · subst e; exact step_hd hP.reach.inv hs hu ht
    · rw [ho t e]; exact ht

/-- Executions in which thread `u` does not move, but all others may do what they want.
(specification, no code) -/
inductive Others (u : T) : St T A → St T A → Prop where
  | refl (s : St T A) : Others u s s
  | step {s s1 s' : St T A} {l : Lbl T A} (h : Others u s s1) (hs : Step false s1 l s')
      (hu : s'.pc u = s1.pc u) : Others u s s'

theorem Others.pc {u : T} {s s' : St T A} (h : Others u s s') : s'.pc u = s.pc u := by
  induction h with
  | refl => rfl
  | step _ _ hu ih => rw [hu, ih]

theorem Others.reach {u : T} {a0 : A} {n0 : Nat} {s s' : St T A} (h : Others u s s')
    (hr : Reach false a0 n0 s) : Reach false a0 n0 s' := by
  induction h with
  | refl => exact hr
  | step _ hs _ ih => exact .step ih hs

/-- While a thread is in an operation on the marked table, the table stays marked. -/
theorem blocked {u : T} {a0 : A} {n0 : Nat} {s s' : St T A} (hr : Reach false a0 n0 s) {h : Hd} {a : A}
    {v : Nat} (hu : s.pc u = .op h a v) (ht : s.table = .mark a) (ho : Others u s s') :
    s'.table = .mark a := by
  induction ho with
  | refl => exact ht
  | @step s1 s2 l h1 hs hu2 ih =>
    have hS := (h1.reach hr).inv
    have hp1 : s1.pc u = .op h a v := by rw [h1.pc]; exact hu
    have hc := hS.core u
    rw [hp1] at hc
    have hok := hc.2.1
    unfold St.opOK at hok
    have hok : match s1.phase with
        | .marked _ _ => True
        | .made _ _ _ => True
        | .waitOps _ _ _ n j => j ≤ h.i ∧ h.i < n
        | _ => False := by
      rcases hok with hk | hk
      · rw [ih] at hk; cases hk
      · exact hk.2
    have hco := hS.core
    cases hs with
    | @grMark t h' x w hp ht' => rw [ih] at ht'; cases ht'
    | @grNull t h' x y w hp =>
      have := hco t; rw [hp] at this
      simp only [Core] at this
      simp only [this] at hok
    | @grPublish t h' x y w hp =>
      have := hco t; rw [hp] at this
      simp only [Core] at this
      simp only [this] at hok
    | _ => exact ih

end
end Sync
end Growt
