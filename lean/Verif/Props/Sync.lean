import Verif.SyncPrompt
import Verif.SyncReg

/-!
# Synchronised growth: protection of the tables and registration of handles

`Sync.Reach shells a n s`: state `s` can be reached, with any number of threads that create, use, move
and destroy handles, from a new table at address `a` with `n` blocks.  With `shells = false` nobody
destroys a moved-from handle while the new one is in use.
-/

set_option linter.unusedSectionVars false

namespace Growt
open Sync

section
variable {T A : Type} [DecidableEq T] [DecidableEq A]

/-! ## C28 -/

/-- While any thread copies elements no thread is inside an operation, and every operation runs on the
current table, of which nothing has been handed out for copying.

Missing: executions with the destructor of a moved-from handle, see `C28_moved_handle_unprotects`. -/
theorem C28_operations_exclude_migration_partial {a : A} {n : Nat} {s : St T A} (h : Reach false a n s) :
    (∀ t t', (s.pc t').copies ≠ [] → (s.pc t).operates = none) ∧
    ∀ t x, (s.pc t).operates = some x →
      (s.table = .clear x ∨ s.table = .mark x) ∧
      ∃ o, s.heap x = some o ∧ o.next = none ∧ o.claimed = 0 := by
  have hI := h.inv
  have hg := hI.glob
  have hop : ∀ t x, (s.pc t).operates = some x → ∃ h v, s.pc t = .op h x v := by
    intro t x hx
    cases hp : s.pc t <;> rw [hp] at hx <;> simp only [PC.operates, reduceCtorEq] at hx
    cases hx; exact ⟨_, _, rfl⟩
  have hmain : ∀ t x, (s.pc t).operates = some x →
      (s.table = .clear x ∨ s.table = .mark x) ∧
      (∃ o, s.heap x = some o ∧ o.next = none ∧ o.claimed = 0) ∧
      ∀ i a v b, ¬ s.migOK i a v b := by
    intro t x hx
    obtain ⟨h, v, hp⟩ := hop t x hx
    have hc := hI.core t
    rw [hp] at hc
    obtain ⟨-, hok, -⟩ := hc
    rcases hok with hok | ⟨hok, hph⟩
    · refine ⟨.inl hok, ?_⟩
      unfold Glob at hg
      unfold St.migOK
      cases hq : s.phase <;> simp only [hq, hok] at hg ⊢
      case quiet => obtain ⟨a, o, h1, h2, h3, -⟩ := hg; cases h1; exact ⟨⟨o, h2, h3⟩, fun _ _ _ _ => id⟩
      case begun => obtain ⟨a, o, h1, h2, h3, -⟩ := hg; cases h1; exact ⟨⟨o, h2, h3⟩, fun _ _ _ _ => id⟩
      all_goals exact absurd hg.1 (by simp)
    · refine ⟨.inr hok, ?_⟩
      unfold Glob St.two at hg
      unfold St.migOK
      cases hq : s.phase <;> simp only [hq, hok] at hg hph ⊢
      case marked =>
        obtain ⟨h1, -, o, h2, -, h3⟩ := hg; cases h1; exact ⟨⟨o, h2, h3⟩, fun _ _ _ _ => id⟩
      case made =>
        obtain ⟨h1, -, -, ⟨o, h2, -, h3⟩, -⟩ := hg; cases h1; exact ⟨⟨o, h2, h3⟩, fun _ _ _ _ => id⟩
      case waitOps =>
        obtain ⟨h1, -, -, ⟨o, h2, -, h3⟩, -⟩ := hg; cases h1; exact ⟨⟨o, h2, h3⟩, fun _ _ _ _ => id⟩
  refine ⟨?_, fun t x hx => ⟨(hmain t x hx).1, (hmain t x hx).2.1⟩⟩
  intro t t' hc
  cases ho : (s.pc t).operates with
  | none => rfl
  | some x =>
    have hno := (hmain t x ho).2.2
    have hcore := hI.core t'
    cases hp : s.pc t' <;> rw [hp] at hc hcore <;> simp only [PC.copies, ne_eq, not_true_eq_false] at hc
    exact absurd hcore.1 (hno _ _ _ _)

end

/-! ### Concrete executions -/

namespace Sync

/-- Registering a handle with the first free flags. -/
theorem reg_handle {sh : Bool} {a n : Nat} {s : St Nat Nat} (h : Reach sh a n s) (t i : Nat)
    (hp : s.pc t = .reg i) (hi : i < maxHandles) (hu : s.used i = false) (hl : s.last = i) :
    Reach sh a n { s with
      pc := upd s.pc t (.idle ⟨i, false⟩), used := upd s.used i true, last := i + 1 } := by
  have h1 := h.step (Step.regFree (t := t) hp hi hu)
  have h2 := h1.step (Step.reserve (t := t) (upd_self ..) hu)
  have h3 := h2.step (Step.regLoad (t := t) (upd_self ..))
  have h4 := h3.step (Step.regCas (t := t) (upd_self ..) (by show s.last ≤ i; omega) rfl)
  have h5 := h4.step (Step.regCasFail (t := t) (upd_self ..) (by show s.last ≤ i; omega))
  have h6 := h5.step (Step.regEnd (t := t) (upd_self ..) (by show ¬ i + 1 ≤ i; omega))
  have : ∀ (f : Nat → PC Nat) x y, upd (upd f t x) t y = upd f t y := by
    intro f x y; funext z; simp only [upd]; split <;> rfl
  simp only [St.at, this] at h6
  exact h6

/-- Two threads with handles, the second one in an operation. -/
theorem two_handles (sh : Bool) : ∃ s : St Nat Nat, Reach sh 0 1 s ∧
    s = { (St.init 0 1 : St Nat Nat) with
      pc := upd (upd (fun _ => .out) 0 (.idle ⟨0, false⟩)) 1 (.idle ⟨1, false⟩)
      used := upd (upd (fun _ => false) 0 true) 1 true
      last := 2 } := by
  have h1 := (Reach.init (T := Nat) (shells := sh) (a := 0) (n := 1)).step (Step.create (t := 0) rfl)
  have h2 := reg_handle h1 0 0 rfl (by decide) rfl rfl
  have h3 := h2.step (Step.create (t := 1) rfl)
  have h4 := h3.step (Step.regUsed (t := 1) rfl (by decide) rfl)
  have h5 := reg_handle h4 1 1 rfl (by decide) rfl rfl
  refine ⟨_, h5, ?_⟩
  have : ∀ (f : Nat → PC Nat) t x y, upd (upd f t x) t y = upd f t y := by
    intro f t x y; funext z; simp only [upd]; split <;> rfl
  simp only [St.at, this, St.init]

/-- The second thread grows the table, up to the first block. -/
theorem growing (sh : Bool) : ∃ s : St Nat Nat, Reach sh 0 1 s ∧ (s.pc 1).copies = [0, 1] := by
  obtain ⟨s, h5, hs⟩ := two_handles sh
  subst hs
  have h6 := h5.step (Step.call (t := 1) rfl)
  have h7 := h6.step (Step.gtLoad (t := 1) rfl rfl)
  have h8 := h7.step (Step.gtStore (t := 1) rfl)
  have h9 := h8.step (Step.gtSame (t := 1) rfl rfl rfl)
  have h10 := h9.step (Step.opEnd (t := 1) rfl .grow)
  have h11 := h10.step (Step.grEpoch (t := 1) rfl)
  have h12 := h11.step (Step.grCas (t := 1) rfl (by decide) rfl)
  have h13 := h12.step (Step.grLoad (t := 1) rfl rfl rfl)
  have h14 := h13.step (Step.grMark (t := 1) rfl rfl)
  have h18 := h14.step (Step.grMake (t := 1) (b := 1) 1 rfl rfl rfl)
  have h19 := h18.step (Step.grOps (t := 1) rfl)
  have h20 := h19.step (Step.grOpsNext (t := 1) rfl (by decide) (by decide))
  have h21 := h20.step (Step.grOpsNext (t := 1) rfl (by decide) (by decide))
  have h22 := h21.step (Step.grOpsEnd (t := 1) rfl (by decide))
  have h23 := h22.step (Step.grNext (t := 1) rfl rfl)
  have h24 := h23.step (Step.mgLoad (t := 1) rfl rfl rfl)
  have h25 := h24.step (Step.mgStore (t := 1) rfl)
  have h26 := h25.step (Step.mgNext (t := 1) rfl rfl rfl rfl)
  have h27 := h26.step (Step.mgClaim (t := 1) rfl rfl rfl (by decide))
  exact ⟨_, h27, rfl⟩

end Sync

/-- A state with an operation, and one with a thread that copies. -/
theorem C28_not_vacuous :
    (∃ s : St Nat Nat, Reach false 0 1 s ∧ (s.pc 0).operates = some 0) ∧
    ∃ s : St Nat Nat, Reach false 0 1 s ∧ (s.pc 1).copies ≠ [] := by
  refine ⟨?_, ?_⟩
  · obtain ⟨s, h5, hs⟩ := two_handles false
    subst hs
    have h6 := h5.step (Step.call (t := 0) rfl)
    have h7 := h6.step (Step.gtLoad (t := 0) rfl rfl)
    have h8 := h7.step (Step.gtStore (t := 0) rfl)
    have h9 := h8.step (Step.gtSame (t := 0) rfl rfl rfl)
    exact ⟨_, h9, rfl⟩
  · obtain ⟨s, h, hc⟩ := growing false
    exact ⟨s, h, by rw [hc]; simp⟩

/-- The claim is false if a handle has been moved: the destructor of the moved-from handle flushes its
counters through the flags of the living handle and thereby removes its protection.  Here thread 0
destroys the moved-from handle while thread 2 uses the new one for an operation; then thread 1 copies
from the table on which thread 2 operates. -/
theorem C28_moved_handle_unprotects : ∃ s : St Nat Nat, Reach true 0 1 s ∧
    (s.pc 2).operates = some 0 ∧ 0 ∈ (s.pc 1).copies := by
  obtain ⟨s, h5, hs⟩ := two_handles true
  subst hs
  have a1 := h5.step (Step.move (t := 0) (t' := 2) rfl rfl rfl)
  have a2 := a1.step (Step.call (t := 0) rfl)
  have a3 := a2.step (Step.gtLoad (t := 0) rfl rfl)
  have a4 := a3.step (Step.gtStore (t := 0) rfl)
  have a5 := a4.step (Step.gtSame (t := 0) rfl rfl rfl)
  have b2 := a5.step (Step.call (t := 2) rfl)
  have b3 := b2.step (Step.gtLoad (t := 2) rfl rfl)
  have b4 := b3.step (Step.gtStore (t := 2) rfl)
  have b5 := b4.step (Step.gtSame (t := 2) rfl rfl rfl)
  have b6 := b5.step (Step.opEnd (t := 0) rfl .plain)
  have h6 := b6.step (Step.call (t := 1) rfl)
  have h7 := h6.step (Step.gtLoad (t := 1) rfl rfl)
  have h8 := h7.step (Step.gtStore (t := 1) rfl)
  have h9 := h8.step (Step.gtSame (t := 1) rfl rfl rfl)
  have h10 := h9.step (Step.opEnd (t := 1) rfl .grow)
  have h11 := h10.step (Step.grEpoch (t := 1) rfl)
  have h12 := h11.step (Step.grCas (t := 1) rfl (by decide) rfl)
  have h13 := h12.step (Step.grLoad (t := 1) rfl rfl rfl)
  have h14 := h13.step (Step.grMark (t := 1) rfl rfl)
  have h18 := h14.step (Step.grMake (t := 1) (b := 1) 1 rfl rfl rfl)
  have h19 := h18.step (Step.grOps (t := 1) rfl)
  have h20 := h19.step (Step.grOpsNext (t := 1) rfl (by decide) (by decide))
  have h21 := h20.step (Step.grOpsNext (t := 1) rfl (by decide) (by decide))
  have h22 := h21.step (Step.grOpsEnd (t := 1) rfl (by decide))
  have h23 := h22.step (Step.grNext (t := 1) rfl rfl)
  have h24 := h23.step (Step.mgLoad (t := 1) rfl rfl rfl)
  have h25 := h24.step (Step.mgStore (t := 1) rfl)
  have h26 := h25.step (Step.mgNext (t := 1) rfl rfl rfl rfl)
  have h27 := h26.step (Step.mgClaim (t := 1) rfl rfl rfl (by decide))
  exact ⟨_, h27, rfl, List.mem_cons_self ..⟩

/-! ## C29 -/

/-- The claim is false: thread 0 loads the marked table in `migrate` and stops before it stores
`mig_protect`; thread 1 migrates everything, sees no protection and deletes the table; then thread 0
goes on and reads `_next_table` of the deleted table. -/
theorem C29_helper_reads_deleted_table : ∃ s : St Nat Nat, Reach false 0 1 s ∧
    (0, 0) ∈ (s.pc 0).touches ∧ s.heap 0 = none := by
  obtain ⟨s, h5, hs⟩ := two_handles false
  subst hs
  have h6 := h5.step (Step.call (t := 1) rfl)
  have h7 := h6.step (Step.gtLoad (t := 1) rfl rfl)
  have h8 := h7.step (Step.gtStore (t := 1) rfl)
  have h9 := h8.step (Step.gtSame (t := 1) rfl rfl rfl)
  have h10 := h9.step (Step.opEnd (t := 1) rfl .grow)
  have h11 := h10.step (Step.grEpoch (t := 1) rfl)
  have h12 := h11.step (Step.grCas (t := 1) rfl (by decide) rfl)
  have h13 := h12.step (Step.grLoad (t := 1) rfl rfl rfl)
  have h14 := h13.step (Step.grMark (t := 1) rfl rfl)
  have h15 := h14.step (Step.call (t := 0) rfl)
  have h16 := h15.step (Step.gtMark (t := 0) rfl rfl)
  have h17 := h16.step (Step.mgLoad (t := 0) rfl rfl rfl)
  have h18 := h17.step (Step.grMake (t := 1) (b := 1) 1 rfl rfl rfl)
  have h19 := h18.step (Step.grOps (t := 1) rfl)
  have h20 := h19.step (Step.grOpsNext (t := 1) rfl (by decide) (by decide))
  have h21 := h20.step (Step.grOpsNext (t := 1) rfl (by decide) (by decide))
  have h22 := h21.step (Step.grOpsEnd (t := 1) rfl (by decide))
  have h23 := h22.step (Step.grNext (t := 1) rfl rfl)
  have h24 := h23.step (Step.mgLoad (t := 1) rfl rfl rfl)
  have h25 := h24.step (Step.mgStore (t := 1) rfl)
  have h26 := h25.step (Step.mgNext (t := 1) rfl rfl rfl rfl)
  have h27 := h26.step (Step.mgClaim (t := 1) rfl rfl rfl (by decide))
  have h28 := h27.step (Step.mgDone (t := 1) rfl)
  have h29 := h28.step (Step.mgLeave (t := 1) rfl rfl rfl (by decide))
  have h30 := h29.step (Step.mgEnd (t := 1) rfl rfl rfl)
  have h31 := h30.step (Step.grNull (t := 1) rfl)
  have h32 := h31.step (Step.grMig (t := 1) rfl)
  have h33 := h32.step (Step.grMigNext (t := 1) rfl (by decide) rfl)
  have h34 := h33.step (Step.grMigNext (t := 1) rfl (by decide) rfl)
  have h35 := h34.step (Step.grMigEnd (t := 1) rfl (by decide))
  have h36 := h35.step (Step.grPublish (t := 1) rfl)
  have h37 := h36.step (Step.grDelete (t := 1) rfl)
  have h38 := h37.step (Step.mgStore (t := 0) rfl)
  exact ⟨_, h38, List.mem_cons_self .., rfl⟩

section
variable {T A : Type} [DecidableEq T] [DecidableEq A]

/-- Operations, the growing thread, and helpers while they copy a block access only tables which have
not been deleted.

Missing: helpers before their first block and after their last one, see
`C29_helper_reads_deleted_table`. -/
theorem C29_working_threads_partial {a : A} {n : Nat} {s : St T A} (h : Reach false a n s) (t : T)
    (hw : ∀ hd x v b, s.pc t ≠ .mg3 hd .help x v ∧ s.pc t ≠ .mg4 hd .help x v b ∧
      s.pc t ≠ .mg6 hd .help x v b) :
    ∀ x v, (x, v) ∈ (s.pc t).touches → ∃ o, s.heap x = some o ∧ o.ver = v := by
  intro x v hx
  refine h.inv.touches ?_ hx
  cases hp : s.pc t with
  | mg3 hd c a v => cases c with
    | help => exact absurd hp (hw hd a v a).1
    | grow => rfl
  | mg4 hd c a v b => cases c with
    | help => exact absurd hp (hw hd a v b).2.1
    | grow => rfl
  | mg6 hd c a v b => cases c with
    | help => exact absurd hp (hw hd a v b).2.2
    | grow => rfl
  | _ => rfl

/-- If the table is never set to null while some thread is between the load of the table and the store
of its protection, then no thread ever accesses a deleted table.

Missing: the other executions, see `C29_helper_reads_deleted_table`. -/
theorem C29_prompt_helpers_partial {a : A} {n : Nat} {s : St T A} (h : Prompt a n s) (t : T) :
    ∀ x v, (x, v) ∈ (s.pc t).touches → ∃ o, s.heap x = some o ∧ o.ver = v := by
  intro x v hx
  have hI := h.reach.inv
  have hq := h.qc t
  have hT := hI.touches (t := t)
  cases hp : s.pc t with
  | mg3 hd c a v =>
    rw [hp] at hx hq
    cases List.mem_singleton.1 hx
    exact hI.alive_grow hq
  | mg4 hd c a v b =>
    rw [hp] at hx hq
    cases List.mem_singleton.1 hx
    exact (hI.alive hq).1
  | mg6 hd c a v b =>
    rw [hp] at hx hq
    cases List.mem_singleton.1 hx
    exact (hI.alive hq).2
  | _ => exact hT (by rw [hp]; rfl) hx

end

/-- Steps after which the table is not null. -/
theorem Sync.Prompt.step' {a n : Nat} {s s' : St Nat Nat} {l : Lbl Nat Nat} (h : Prompt a n s)
    (hs : Step false s l s') (hq : s'.table ≠ .null) : Prompt a n s' :=
  h.step hs fun h _ => absurd h hq

/-- Two handles. -/
theorem Sync.prompt_two : Prompt 0 1 { (St.init 0 1 : St Nat Nat) with
    pc := upd (upd (fun _ => .out) 0 (.idle ⟨0, false⟩)) 1 (.idle ⟨1, false⟩)
    used := upd (upd (fun _ => false) 0 true) 1 true
    last := 2 } := by
  have h0 := Prompt.init (T := Nat) (A := Nat) (a := 0) (n := 1)
  have h1 := h0.step' (Step.create (t := 0) rfl) nofun
  have h2 := h1.step' (Step.regFree (t := 0) rfl (by decide) rfl) nofun
  have h3 := h2.step' (Step.reserve (t := 0) rfl rfl) nofun
  have h4 := h3.step' (Step.regLoad (t := 0) rfl) nofun
  have h5 := h4.step' (Step.regCas (t := 0) rfl (by decide) rfl) nofun
  have h6 := h5.step' (Step.regCasFail (t := 0) rfl (by decide)) nofun
  have h7 := h6.step' (Step.regEnd (t := 0) rfl (by decide)) nofun
  have h8 := h7.step' (Step.create (t := 1) rfl) nofun
  have h9 := h8.step' (Step.regUsed (t := 1) rfl (by decide) rfl) nofun
  have h10 := h9.step' (Step.regFree (t := 1) rfl (by decide) rfl) nofun
  have h11 := h10.step' (Step.reserve (t := 1) rfl rfl) nofun
  have h12 := h11.step' (Step.regLoad (t := 1) rfl) nofun
  have h13 := h12.step' (Step.regCas (t := 1) rfl (by decide) rfl) nofun
  have h14 := h13.step' (Step.regCasFail (t := 1) rfl (by decide)) nofun
  have h15 := h14.step' (Step.regEnd (t := 1) rfl (by decide)) nofun
  have : ∀ (f : Nat → PC Nat) t x y, upd (upd f t x) t y = upd f t y := by
    intro f t x y; funext z; simp only [upd]; split <;> rfl
  simp only [St.at, this, St.init] at h15
  exact h15

/-- Thread 1 has finished copying, thread 0 copies the only block. -/
theorem Sync.prompt_copy : ∃ s : St Nat Nat, Prompt 0 1 s ∧ s = { (St.init 0 1 : St Nat Nat) with
    table := .mark 0, epoch := 0, last := 2, phase := .drained 0 0 1
    heap := upd (upd (fun _ => none) 0 (some ⟨0, some 1, 2, 1⟩)) 1 (some ⟨1, none, 0, 1⟩)
    pc := upd (upd (fun _ => .out) 0 (.mg5 ⟨0, false⟩ .help 0 0 1 0)) 1 (.gr10 ⟨1, false⟩ 0 0 1)
    used := upd (upd (fun _ => false) 0 true) 1 true
    mig := upd (fun _ => none) 0 (some 0) } := by
  have h0 := Sync.prompt_two
  have h1 := h0.step' (Step.call (t := 1) rfl) nofun
  have h2 := h1.step' (Step.gtLoad (t := 1) rfl rfl) nofun
  have h3 := h2.step' (Step.gtStore (t := 1) rfl) nofun
  have h4 := h3.step' (Step.gtSame (t := 1) rfl rfl rfl) nofun
  have h5 := h4.step' (Step.opEnd (t := 1) rfl .grow) nofun
  have h6 := h5.step' (Step.grEpoch (t := 1) rfl) nofun
  have h7 := h6.step' (Step.grCas (t := 1) rfl (by decide) rfl) nofun
  have h8 := h7.step' (Step.grLoad (t := 1) rfl rfl rfl) nofun
  have h9 := h8.step' (Step.grMark (t := 1) rfl rfl) nofun
  have h10 := h9.step' (Step.call (t := 0) rfl) nofun
  have h11 := h10.step' (Step.gtMark (t := 0) rfl rfl) nofun
  have h12 := h11.step' (Step.mgLoad (t := 0) rfl rfl rfl) nofun
  have h13 := h12.step' (Step.mgStore (t := 0) rfl) nofun
  have h14 := h13.step' (Step.grMake (t := 1) (b := 1) 1 rfl rfl rfl) nofun
  have h15 := h14.step' (Step.grOps (t := 1) rfl) nofun
  have h16 := h15.step' (Step.grOpsNext (t := 1) rfl (by decide) (by decide)) nofun
  have h17 := h16.step' (Step.grOpsNext (t := 1) rfl (by decide) (by decide)) nofun
  have h18 := h17.step' (Step.grOpsEnd (t := 1) rfl (by decide)) nofun
  have h19 := h18.step' (Step.grNext (t := 1) rfl rfl) nofun
  have h20 := h19.step' (Step.mgNext (t := 0) rfl rfl rfl rfl) nofun
  have h21 := h20.step' (Step.mgClaim (t := 0) rfl rfl rfl (by decide)) nofun
  have h22 := h21.step' (Step.mgLoad (t := 1) rfl rfl rfl) nofun
  have h23 := h22.step' (Step.mgStore (t := 1) rfl) nofun
  have h24 := h23.step' (Step.mgNext (t := 1) rfl rfl rfl rfl) nofun
  have h25 := h24.step' (Step.mgLeave (t := 1) rfl rfl rfl (by decide)) nofun
  have h26 := h25.step' (Step.mgEnd (t := 1) rfl rfl rfl) nofun
  refine ⟨_, h26, ?_⟩
  simp only [St.at, St.init, Cont.phase, Cont.next, Exit.next]
  congr 1
  · funext x
    match x with
    | 0 => rfl
    | 1 => rfl
    | _ + 2 => rfl
  · funext x
    match x with
    | 0 => rfl
    | 1 => rfl
    | _ + 2 => rfl
  · funext x
    match x with
    | 0 => rfl
    | 1 => rfl
    | _ + 2 => rfl
  · funext x
    match x with
    | 0 => rfl
    | 1 => rfl
    | _ + 2 => rfl

/-- A prompt execution in which thread 0 helps thread 1: a state in which thread 0 copies, and one
after the old table has been deleted. -/
theorem C29_not_vacuous :
    (∃ s : St Nat Nat, Prompt 0 1 s ∧ (s.pc 0).touches = [(0, 0), (1, 1)]) ∧
    ∃ s : St Nat Nat, Prompt 0 1 s ∧ s.heap 0 = none ∧ s.table = .clear 1 := by
  obtain ⟨s, h0, hs⟩ := Sync.prompt_copy
  subst hs
  have h1 := h0.step (Step.grNull (t := 1) rfl) (by
    intro _ _ t
    match t with
    | 0 => exact nofun
    | 1 => exact nofun
    | t + 2 => exact nofun)
  have h2 := h1.step (Step.grMig (t := 1) rfl) (fun _ h => absurd rfl h)
  have h3 := h2.step (Step.mgDone (t := 0) rfl) (fun _ h => absurd rfl h)
  have h4 := h3.step (Step.mgLeave (t := 0) rfl rfl rfl (by decide)) (fun _ h => absurd rfl h)
  have h5 := h4.step (Step.mgEnd (t := 0) rfl rfl rfl) (fun _ h => absurd rfl h)
  have h6 := h5.step (Step.grMigNext (t := 1) rfl (by decide) rfl) (fun _ h => absurd rfl h)
  have h7 := h6.step (Step.grMigNext (t := 1) rfl (by decide) rfl) (fun _ h => absurd rfl h)
  have h8 := h7.step (Step.grMigEnd (t := 1) rfl (by decide)) (fun _ h => absurd rfl h)
  have h9 := h8.step' (Step.grPublish (t := 1) rfl) nofun
  have h10 := h9.step' (Step.grDelete (t := 1) rfl) nofun
  exact ⟨⟨_, h0, rfl⟩, _, h10, rfl, rfl⟩

/-! ## C31 -/

section
variable {T A : Type} [DecidableEq T] [DecidableEq A]

/-- No two threads have handles with the same flags, and the flags exist.

Missing: moved-from handles that have not been destroyed, see `C31_moved_handle_shares_flags`. -/
theorem C31_flags_unique_partial {a : A} {n : Nat} {s : St T A} (h : Reach false a n s) (t t' : T) (i : Nat)
    (ht : (s.pc t).flags = some i) :
    (s.used i = true ∧ i < maxHandles) ∧ ((s.pc t').flags = some i → t' = t) :=
  ⟨(h.inv.loc t).reg i ht, fun h' => h.inv.flags _ _ _ h' ht⟩

/-- The growing thread looks at the flags of every handle: when it begins it will look at all of them,
and as long as a handle is used for an operation on the table that is being replaced, the growing
thread has not passed its flags. -/
theorem C31_handles_inspected_partial {a : A} {n : Nat} {s : St T A} (h : Reach false a n s) :
    (∀ t hd, (s.pc t).hd = some hd → hd.i < s.last) ∧
    ∀ g hg x v b m j, s.pc g = .gr7 hg x v b m j →
      ∀ t hd w, s.pc t = .op hd x w → j ≤ hd.i ∧ hd.i < m ∧ s.ops hd.i = some x := by
  refine ⟨fun t hd ht => ((h.inv.loc t).base hd ht).last, ?_⟩
  intro g hg x v b m j hp t hd w ht
  have h1 := h.inv.core g
  rw [hp] at h1
  have h2 := h.inv.core t
  rw [ht] at h2
  have hgl := h.inv.glob
  simp only [Core] at h1
  simp only [Glob, h1] at hgl
  rcases h2.2.1 with h3 | h3
  · rw [hgl.1] at h3; cases h3
  · rw [h1] at h3
    exact ⟨h3.2.1, h3.2.2, (h.inv.loc t).op hd x w ht⟩

/-- With at most 256 threads, each with at most one handle, registration never fails. -/
theorem C31_registration_succeeds {m : Nat} (hm : m ≤ 256) {a : A} {n : Nat} {s : St (Fin m) A}
    (h : Reach false a n s) (t : Fin m) : s.pc t ≠ .lost := h.not_lost hm t

end

/-- A thread walks over flags that are in use. -/
theorem Sync.reg_walk {sh : Bool} {a n : Nat} {s : St Nat Nat} {t : Nat} (k : Nat) (hk : k ≤ maxHandles)
    (hu : ∀ i, i < k → s.used i = true) (h : Reach sh a n (s.at t (.reg 0))) :
    Reach sh a n (s.at t (.reg k)) := by
  induction k with
  | zero => exact h
  | succ k ih =>
    have h1 := ih (by omega) (fun i hi => hu i (by omega))
    have h2 := h1.step (Step.regUsed (t := t) (upd_self ..) (by omega) (hu k (by omega)))
    have : ∀ (f : Nat → PC Nat) x y, upd (upd f t x) t y = upd f t y := by
      intro f x y; funext z; simp only [upd]; split <;> rfl
    simp only [St.at, this] at h2
    exact h2

/-- Any number of handles up to the maximum. -/
theorem Sync.many_handles (sh : Bool) (k : Nat) (hk : k ≤ maxHandles) : ∃ s : St Nat Nat, Reach sh 0 1 s ∧
    (∀ i, s.used i = decide (i < k)) ∧ s.last = k ∧ (∀ t, k ≤ t → s.pc t = .out) ∧
    ∀ t, t < k → s.pc t = .idle ⟨t, false⟩ := by
  induction k with
  | zero => exact ⟨_, .init, fun i => by simp [St.init], rfl, fun _ _ => rfl, fun t h => by omega⟩
  | succ k ih =>
    obtain ⟨s, h, hu, hl, ho, hi⟩ := ih (by omega)
    have h1 := h.step (Step.create (t := k) (ho k (Nat.le_refl _)))
    have h2 := Sync.reg_walk k (by omega) (fun i hi => by rw [hu]; simpa using hi) h1
    have h3 := reg_handle h2 k k (upd_self ..) (by omega) (by show s.used k = false; rw [hu]; simp) hl
    refine ⟨_, h3, ?_, rfl, ?_, ?_⟩
    · intro i
      show upd s.used k true i = _
      simp only [upd, hu]
      split
      · next h => subst h; simp
      · next h =>
        have : i < k ↔ i < k + 1 := by omega
        simp [this]
    · intro t ht
      show upd (upd s.pc k _) k _ t = _
      rw [upd_ne _ _ (by omega), upd_ne _ _ (by omega)]
      exact ho t (by omega)
    · intro t ht
      show upd (upd s.pc k _) k _ t = _
      by_cases hk : t = k
      · subst hk; rw [upd_self]
      · rw [upd_ne _ _ hk, upd_ne _ _ hk]; exact hi t (by omega)

/-- 256 handles can live at the same time. -/
theorem C31_not_vacuous : ∃ s : St Nat Nat, Reach false 0 1 s ∧
    ∀ t, t < 256 → (s.pc t).flags = some t := by
  obtain ⟨s, h, -, -, -, hi⟩ := Sync.many_handles false 256 (Nat.le_refl _)
  exact ⟨s, h, fun t ht => by rw [hi t ht]; rfl⟩

/-- The 257th handle is not reported: `register_handle` returns `-1`, and the constructor uses it as an
index (`estrat_sync.hpp:222-234`; the `length_error` is created but not thrown). -/
theorem C31_257th_handle_unreported : ∃ s : St Nat Nat, Reach false 0 1 s ∧
    (∀ t, t < 256 → (s.pc t).flags = some t) ∧ s.pc 256 = .lost := by
  obtain ⟨s, h, hu, hl, ho, hi⟩ := Sync.many_handles false 256 (Nat.le_refl _)
  have h1 := h.step (Step.create (t := 256) (ho 256 (Nat.le_refl _)))
  have h2 := Sync.reg_walk 256 (Nat.le_refl _) (fun i hi => by rw [hu]; simpa using hi) h1
  have h3 := h2.step (Step.regNone (t := 256) (i := 256) (by simp [St.at, upd]) (by decide))
  refine ⟨_, h3, ?_, by simp [St.at, upd]⟩
  intro t ht
  show (upd (upd s.pc 256 _) 256 _ t).flags = _
  rw [upd_ne _ _ (by omega), upd_ne _ _ (by omega), hi t ht]; rfl

/-- A moved-from handle and the new one use the same flags. -/
theorem C31_moved_handle_shares_flags : ∃ s : St Nat Nat, Reach true 0 1 s ∧
    (s.pc 0).flags = some 0 ∧ (s.pc 2).flags = some 0 ∧ (s.pc 0).operates = some 0 := by
  obtain ⟨s, h5, hs⟩ := two_handles true
  subst hs
  have a1 := h5.step (Step.move (t := 0) (t' := 2) rfl rfl rfl)
  have a2 := a1.step (Step.call (t := 0) rfl)
  have a3 := a2.step (Step.gtLoad (t := 0) rfl rfl)
  have a4 := a3.step (Step.gtStore (t := 0) rfl)
  have a5 := a4.step (Step.gtSame (t := 0) rfl rfl rfl)
  exact ⟨_, a5, rfl, rfl, rfl⟩

end Growt
