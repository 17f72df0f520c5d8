import Verif.SyncTso
import Verif.Props.Sync

/-!
# C54: exclusion on machines with store buffers

The specification is the one of C28: while elements are copied no operation is running.
-/

set_option linter.unusedSectionVars false

namespace Growt
open Sync

section
variable {T A : Type} [DecidableEq T] [DecidableEq A]

/-- C54, if the second load of `_table` in `get_table` and the load of `_next_table` in `migrate` wait until the
flag just written is visible to other threads: while any thread copies elements no thread is inside an
operation, and every operation runs on the current table, of which nothing has been handed out.

Missing: the code does not wait, see `C54_operation_during_migration`. -/
theorem C54_careful_partial {a : A} {n : Nat} {x : TSt T A} (h : TReach true a n x) :
    (∀ t t', (x.s.pc t').copies ≠ [] → (x.s.pc t).operates = none) ∧
    ∀ t y, (x.s.pc t).operates = some y →
      (x.s.table = .clear y ∨ x.s.table = .mark y) ∧
      ∃ o, x.s.heap y = some o ∧ o.next = none ∧ o.claimed = 0 := by
  obtain ⟨s, hs, hR⟩ := h.rel
  obtain ⟨h1, h2⟩ := C28_operations_exclude_migration_partial hs
  have hop : ∀ t y, (x.s.pc t).operates = some y → (s.pc t).operates = some y := by
    intro t y hy
    have ht := hR.thr t
    cases hp : x.s.pc t <;> rw [hp] at hy ht <;> simp only [PC.operates, reduceCtorEq] at hy
    rw [ht.1]; exact congrArg some (Option.some.inj hy)
  have hcp : ∀ t, (x.s.pc t).copies ≠ [] → (s.pc t).copies ≠ [] := by
    intro t hc
    have ht := hR.thr t
    cases hp : x.s.pc t <;> rw [hp] at hc ht <;> simp only [PC.copies, ne_eq, not_true_eq_false] at hc
    rw [ht.1]; exact nofun
  constructor
  · intro t t' hc
    cases ho : (x.s.pc t).operates with
    | none => rfl
    | some y =>
      have := h1 t t' (hcp t' hc)
      rw [hop t y ho] at this; cases this
  · intro t y hy
    rw [hR.table, hR.heap]
    exact h2 t y (hop t y hy)

/-- Nothing is lost by the model: every sequentially consistent execution is one with store buffers, in which
every store reaches memory at once. -/
theorem C54_includes_sequential {a : A} {n : Nat} {s : St T A} (h : Reach false a n s) (careful : Bool) :
    TReach careful a n ⟨s, fun _ => []⟩ := h.tso

end

/-- A thread with an empty buffer, or one that need not drain it, makes a step without store. -/
theorem moveX {c : Bool} {a n : Nat} {s s' : St Nat Nat} {buf : Nat → List (Sto Nat)} {l : Lbl Nat Nat}
    (h : TReach c a n ⟨s, buf⟩) (hs : Step false s l s') (t : Nat) {p p' : PC Nat} (hp : s.pc t = p)
    (hpc : s'.pc = upd s.pc t p') (hb : buf t = [] ∨ (drains p p' || (c && checks p p')) = false)
    (h0 : stores p p' = []) (ho : s'.ops = s.ops) (hm : s'.mig = s.mig) : TReach c a n ⟨s', buf⟩ := by
  have h1 := h.step (TStep.run hs (fun u hu => by
    by_cases e : u = t
    · subst e
      rcases hb with hb | hb
      · exact hb
      · have hu : (drains (s.pc u) (s'.pc u) || (c && checks (s.pc u) (s'.pc u))) = true := hu
        rw [hpc, upd_self, hp, hb] at hu
        cases hu
    · exfalso
      have hu : (drains (s.pc u) (s'.pc u) || (c && checks (s.pc u) (s'.pc u))) = true := hu
      rw [hpc, upd_ne _ _ e] at hu
      cases hq : s.pc u <;> rw [hq] at hu <;> cases c <;> cases hu))
  have h1 : TReach c a n ⟨{ s' with ops := s.ops, mig := s.mig }, fun u => buf u ++ stores (s.pc u) (s'.pc u)⟩ := h1
  have e : (fun u => buf u ++ stores (s.pc u) (s'.pc u)) = buf := by
    funext u
    rw [hpc]
    by_cases e : u = t
    · subst e; rw [upd_self, hp, h0, List.append_nil]
    · rw [upd_ne _ _ e, stores_self, List.append_nil]
  have e' : ({ s' with ops := s.ops, mig := s.mig } : St Nat Nat) = s' := by
    cases s'; simp only at ho hm; rw [ho, hm]
  rw [e, e'] at h1
  exact h1

/-- A thread with an empty buffer makes a store, which stays in the buffer. -/
theorem storeX {c : Bool} {a n : Nat} {s s' : St Nat Nat} {buf : Nat → List (Sto Nat)} {l : Lbl Nat Nat}
    (h : TReach c a n ⟨s, buf⟩) (hs : Step false s l s') (t : Nat) {p p' : PC Nat} {e : Sto Nat} (hp : s.pc t = p)
    (hpc : s'.pc = upd s.pc t p') (hb : buf t = []) (h0 : stores p p' = [e]) :
    TReach c a n ⟨{ s' with ops := s.ops, mig := s.mig }, upd buf t [e]⟩ := by
  have h1 := h.step (TStep.run hs (fun u hu => by
    by_cases e : u = t
    · subst e; exact hb
    · exfalso
      have hu : (drains (s.pc u) (s'.pc u) || (c && checks (s.pc u) (s'.pc u))) = true := hu
      rw [hpc, upd_ne _ _ e] at hu
      cases hq : s.pc u <;> rw [hq] at hu <;> cases c <;> cases hu))
  have h1 : TReach c a n ⟨{ s' with ops := s.ops, mig := s.mig }, fun u => buf u ++ stores (s.pc u) (s'.pc u)⟩ := h1
  have e : (fun u => buf u ++ stores (s.pc u) (s'.pc u)) = upd buf t [e] := by
    funext u
    rw [hpc]
    by_cases e : u = t
    · subst e; rw [upd_self, upd_self, hp, h0, hb]; rfl
    · rw [upd_ne _ _ e, upd_ne _ _ e, stores_self, List.append_nil]
  rw [e] at h1
  exact h1

/-- **C54 is violated by the code**: thread 0 begins an operation; the store to `ops_protect` is still in its
buffer when it loads `_table` again (line 286), so it goes on.  Thread 1 marks the table, sees no protection in
memory, and copies from the table on which thread 0 operates. -/
theorem C54_operation_during_migration : ∃ x : TSt Nat Nat, TReach false 0 1 x ∧
    (x.s.pc 0).operates = some 0 ∧ 0 ∈ (x.s.pc 1).copies := by
  obtain ⟨s, h5, hs⟩ := two_handles false
  subst hs
  have h6 := h5.step (Step.call (t := 1) rfl)
  have h7 := h6.step (Step.gtLoad (t := 1) rfl rfl)
  have h8 := h7.step (Step.gtStore (t := 1) rfl)
  have h9 := h8.step (Step.gtSame (t := 1) rfl rfl rfl)
  have h10 := h9.step (Step.opEnd (t := 1) rfl .grow)
  have h11 := h10.step (Step.grEpoch (t := 1) rfl)
  have h12 := h11.step (Step.call (t := 0) rfl)
  have h13 := h12.step (Step.gtLoad (t := 0) rfl rfl)
  have g0 := C54_includes_sequential h13 false
  have g1 := storeX g0 (Step.gtStore (t := 0) rfl) 0 rfl rfl rfl rfl
  have g2 := moveX g1 (Step.gtSame (t := 0) rfl rfl rfl) 0 rfl rfl (.inr rfl) rfl rfl rfl
  have g3 := moveX g2 (Step.grCas (t := 1) rfl (by decide) rfl) 1 rfl rfl (.inl rfl) rfl rfl rfl
  have g4 := moveX g3 (Step.grLoad (t := 1) rfl rfl rfl) 1 rfl rfl (.inl rfl) rfl rfl rfl
  have g5 := moveX g4 (Step.grMark (t := 1) rfl rfl) 1 rfl rfl (.inl rfl) rfl rfl rfl
  have g6 := moveX g5 (Step.grMake (t := 1) (b := 1) 1 rfl rfl rfl) 1 rfl rfl (.inl rfl) rfl rfl rfl
  have g7 := moveX g6 (Step.grOps (t := 1) rfl) 1 rfl rfl (.inl rfl) rfl rfl rfl
  have g8 := moveX g7 (Step.grOpsNext (t := 1) rfl (by decide) (by decide)) 1 rfl rfl (.inl rfl) rfl rfl rfl
  have g9 := moveX g8 (Step.grOpsNext (t := 1) rfl (by decide) (by decide)) 1 rfl rfl (.inl rfl) rfl rfl rfl
  have g10 := moveX g9 (Step.grOpsEnd (t := 1) rfl (by decide)) 1 rfl rfl (.inl rfl) rfl rfl rfl
  have g11 := moveX g10 (Step.grNext (t := 1) rfl rfl) 1 rfl rfl (.inl rfl) rfl rfl rfl
  have g12 := moveX g11 (Step.mgLoad (t := 1) rfl rfl rfl) 1 rfl rfl (.inl rfl) rfl rfl rfl
  have g13 := storeX g12 (Step.mgStore (t := 1) rfl) 1 rfl rfl rfl rfl
  have g14 := g13.step (TStep.commit (t := 1) rfl)
  have g15 := moveX g14 (Step.mgNext (t := 1) rfl rfl rfl rfl) 1 rfl rfl (.inl rfl) rfl rfl rfl
  have g16 := moveX g15 (Step.mgClaim (t := 1) rfl rfl rfl (by decide)) 1 rfl rfl (.inl rfl) rfl rfl rfl
  refine ⟨_, g16, rfl, ?_⟩
  exact .head _

/-- The same execution is not possible if the load waits; but operations and migrations are. -/
theorem C54_not_vacuous :
    (∃ x : TSt Nat Nat, TReach true 0 1 x ∧ (x.s.pc 0).operates = some 0) ∧
    (∃ x : TSt Nat Nat, TReach true 0 1 x ∧ (x.s.pc 1).copies ≠ []) ∧
    ∃ x : TSt Nat Nat, TReach true 0 1 x ∧ x.buf 0 ≠ [] := by
  obtain ⟨⟨s, h, hs⟩, s', h', hs'⟩ := C28_not_vacuous
  obtain ⟨s'', h5, e⟩ := two_handles false
  subst e
  have h6 := h5.step (Step.call (t := 0) rfl)
  have h7 := h6.step (Step.gtLoad (t := 0) rfl rfl)
  have g1 := storeX (C54_includes_sequential h7 true) (Step.gtStore (t := 0) rfl) 0 rfl rfl rfl rfl
  exact ⟨⟨_, h.tso, hs⟩, ⟨_, h'.tso, hs'⟩, _, g1, nofun⟩

end Growt
