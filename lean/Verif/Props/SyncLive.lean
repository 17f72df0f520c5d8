import Verif.SyncLive
import Verif.Props.Sync

/-!
# C74: a growth step of the synchronised table cannot deadlock

`∀ L : List A, ∃ b, b ∉ L`: there is always a free address for the new table (`new` in
`estrat_sync.hpp:333` does not fail).
-/

set_option linter.unusedSectionVars false

namespace Growt
open Sync
section
variable {T A : Type} [DecidableEq T] [DecidableEq A]

/-- Whatever has happened, every thread that is inside an operation can finish it with the help of
those threads only that are inside operations, too; it still has its handle then. -/
theorem C74_no_deadlock_partial (hA : ∀ L : List A, ∃ b, b ∉ L) {a : A} {n : Nat} {s : St T A}
    (h : Prompt a n s) (t : T) :
    ∃ s', Run s s' ∧ Prompt a n s' ∧ (s'.pc t).busy = false ∧
      ∀ hd, (s.pc t).hd = some hd → s'.pc t = .idle hd := by
  obtain ⟨s1, r1, h1⟩ := reach_quiet hA h
  obtain ⟨s2, r2, h2, h3⟩ := rest_quiet hA (r1.prompt h) h1 t
  refine ⟨s2, r1.trans r2, (r1.trans r2).prompt h, h3, ?_⟩
  intro hd hh
  have := (r1.trans r2).hd h hh
  cases hp : s2.pc t <;> rw [hp] at this h3 <;> first | cases h3 | skip
  · cases this
  · cases this
  · cases this; rfl

/-- All threads can finish.  Then nobody grows, no flag is set, and exactly one table exists: the
current one. -/
theorem C74_quiescence_partial (hA : ∀ L : List A, ∃ b, b ∉ L) {a : A} {n : Nat} {s : St T A}
    (h : Prompt a n s) :
    ∃ s', Run s s' ∧ Prompt a n s' ∧ (∀ t, (s'.pc t).busy = false) ∧
      (∀ i, s'.ops i = none) ∧ (∀ i, s'.mig i = none) ∧
      ∃ x, s'.table = .clear x ∧ ∀ y, s'.heap y ≠ none ↔ y = x := by
  obtain ⟨s1, r1, h1⟩ := reach_quiet hA h
  obtain ⟨L, hL⟩ := (r1.prompt h).reach.holds.thr
  obtain ⟨s2, r2, h2, h3⟩ := rest_list hA L s1 (r1.prompt h) h1
  have hr := r1.trans r2
  have hb : ∀ t, (s2.pc t).busy = false := by
    intro t
    by_cases ht : t ∈ L
    · exact h3 t ht
    · have hp := hL t ht
      rw [r2.rest (by rw [hp]; rfl), hp]; rfl
  have hP := hr.prompt h
  have hh := hP.reach.holds
  obtain ⟨x, o, hx, ho⟩ := quiet_table hP.reach.inv h2
  refine ⟨s2, hr, hP, hb, ?_, ?_, x, hx, ?_⟩
  · intro i
    cases e : s2.ops i with
    | none => rfl
    | some y =>
      obtain ⟨t, ht⟩ := hh.ops i (by rw [e]; nofun)
      have := hb t
      cases hp : s2.pc t <;> rw [hp] at this ht <;> first | (cases this; done) | (cases ht; done)
  · intro i
    cases e : s2.mig i with
    | none => rfl
    | some y =>
      obtain ⟨t, ht⟩ := hh.mig i (by rw [e]; nofun)
      have := hb t
      cases hp : s2.pc t <;> rw [hp] at this ht <;> first | (cases this; done) | (cases ht; done)
  · intro y
    constructor
    · intro hy
      rcases hh.live y hy with h | ⟨t, ht⟩
      · simp only [St.refers, h2, hx] at h
        rcases h with h | h | h
        · cases h; rfl
        · cases h
        · cases h
      · have := hb t
        cases hp : s2.pc t <;> rw [hp] at this ht <;> first | (cases this; done) | (cases ht; done)
    · rintro rfl; rw [ho]; nofun

/-- The tables that a thread has to put into place or to delete: those of its growth step.
(specification, no code) -/
def Sync.PC.owns : PC A → List A
  | .gr5 _ a _ => [a]
  | .gr6 _ a _ b => [a, b]
  | .gr7 _ a _ b _ _ => [a, b]
  | .gr8 _ a _ b => [a, b]
  | .gr10 _ a _ b => [a, b]
  | .gr11 _ a _ b => [a, b]
  | .gr12 _ a _ b _ _ => [a, b]
  | .gr13 _ a _ b => [a, b]
  | .gr14 _ a _ => [a]
  | .mg1 _ (.grow a _ b) => [a, b]
  | .mg2 _ (.grow a _ b) _ _ => [a, b]
  | .mg3 _ (.grow a _ b) _ _ => [a, b]
  | .mg4 _ (.grow a _ b) _ _ _ => [a, b]
  | .mg5 _ (.grow a _ b) _ _ _ _ => [a, b]
  | .mg6 _ (.grow a _ b) _ _ _ => [a, b]
  | _ => []

theorem Sync.owns_of_phase {s : St T A} {p : PC A} (hc : Core s p) (hg : p.grower = true) {x : A}
    (hx : s.phase.old = some x ∨ s.phase.succ = some x) : x ∈ p.owns := by
  have key : ∀ a v b, s.phase = .migrating a v b → x ∈ [a, b] := by
    intro a v b hph
    simp only [hph, Phase.old, Phase.succ, Option.some.injEq] at hx
    simp only [List.mem_cons, List.not_mem_nil, or_false]
    rcases hx with rfl | rfl
    · exact .inl rfl
    · exact .inr rfl
  cases p with
  | mg1 h c => cases c with
    | help => cases hg
    | grow a v b => exact key a v b (hc _ _ _ rfl)
  | mg2 h c y w => cases c with
    | help => cases hg
    | grow a v b => exact key a v b (hc.2 _ _ _ rfl).1
  | mg3 h c y w => cases c with
    | help => cases hg
    | grow a v b => exact key a v b (hc.2 _ _ _ rfl).1
  | mg4 h c y w z => cases c with
    | help => cases hg
    | grow a v b => exact key a v b (hc.2.2 _ _ _ rfl).1
  | mg5 h c y w z k => cases c with
    | help => cases hg
    | grow a v b => exact key a v b (hc.2 _ _ _ rfl).1
  | mg6 h c y w z => cases c with
    | help => cases hg
    | grow a v b => exact key a v b (hc _ _ _ rfl).1
  | gr3 h =>
    simp only [Core] at hc
    simp [hc, Phase.old, Phase.succ] at hx
  | gr4 h a v =>
    simp only [Core] at hc
    simp [hc.1, Phase.old, Phase.succ] at hx
  | gr5 | gr6 | gr7 | gr8 | gr10 | gr11 | gr12 | gr13 =>
    simp only [Core] at hc
    simp only [hc, Phase.old, Phase.succ, Option.some.injEq, reduceCtorEq, or_false] at hx
    simp only [PC.owns, List.mem_cons, List.not_mem_nil, or_false]
    first
      | exact hx.symm
      | exact hx.imp Eq.symm Eq.symm
  | _ => cases hg

/-- No table is lost: whatever exists in memory is the current table, or belongs to the growth step of
a thread, which has it in a local variable and will put it into place or delete it. -/
theorem C74_no_leak {a : A} {n : Nat} {s : St T A} (h : Reach false a n s) {x : A} (hx : s.heap x ≠ none) :
    s.table = .clear x ∨ ∃ t, x ∈ (s.pc t).owns := by
  rcases h.holds.live x hx with h1 | ⟨t, ht⟩
  · rcases h1 with h1 | h1
    · exact .inl h1
    · have hq : s.phase ≠ .quiet := by
        intro hq
        rw [hq] at h1
        rcases h1 with h1 | h1 <;> cases h1
      obtain ⟨t, ht⟩ := h.holds.grow hq
      exact .inr ⟨t, owns_of_phase (h.inv.core t) ht h1⟩
  · refine .inr ⟨t, ?_⟩
    cases hp : s.pc t <;> rw [hp] at ht <;> first | (cases ht; done) | skip
    cases ht
    exact List.mem_singleton.2 rfl

/-- But growing blocks: while one thread stays inside an operation on the marked table, the table
stays marked, and no other thread can begin an operation. -/
theorem C74_growing_blocks {a : A} {n : Nat} {s s' : St T A} (h : Reach false a n s) {u : T} {hd : Hd}
    {x : A} {v : Nat} (hu : s.pc u = .op hd x v) (ht : s.table = .mark x) (ho : Others u s s') :
    s'.table = .mark x ∧ ∀ t y s'', ¬ Step false s' (.enter t y) s'' := by
  have h1 := blocked h hu ht ho
  refine ⟨h1, fun t y s'' hs => ?_⟩
  cases hs with
  | gtSame hp ht' ho' => rw [h1] at ht'; cases ht'

theorem Sync.fresh_nat : ∀ L : List Nat, ∃ b, b ∉ L := by
  intro L
  have key : ∀ L : List Nat, ∃ m, ∀ x ∈ L, x < m := by
    intro L
    induction L with
    | nil => exact ⟨0, nofun⟩
    | cons y L ih =>
      obtain ⟨m, hm⟩ := ih
      refine ⟨max m (y + 1), fun x hx => ?_⟩
      rcases List.mem_cons.1 hx with rfl | hx
      · omega
      · have := hm x hx; omega
  obtain ⟨m, hm⟩ := key L
  exact ⟨m, fun h => Nat.lt_irrefl _ (hm m h)⟩

/-- The hypotheses are met in the middle of a growth step: thread 0 copies a block, thread 1 waits
for it; both can finish. -/
theorem C74_not_vacuous : ∃ s : St Nat Nat, Prompt 0 1 s ∧ (s.pc 0).copies = [0, 1] ∧
    (s.pc 1).owns = [0, 1] ∧ (s.pc 0).busy = true ∧ (s.pc 1).busy = true ∧
    ∃ s', Run s s' ∧ s'.pc 0 = .idle ⟨0, false⟩ ∧ s'.pc 1 = .idle ⟨1, false⟩ ∧ ∀ i, s'.mig i = none := by
  obtain ⟨s, h0, hs⟩ := Sync.prompt_copy
  refine ⟨s, h0, by subst hs; rfl, by subst hs; rfl, by subst hs; rfl, by subst hs; rfl, ?_⟩
  obtain ⟨s1, r1, p1, e1, -, e2, -⟩ := C74_quiescence_partial Sync.fresh_nat h0
  have key : ∀ t hd, (s.pc t).hd = some hd → s1.pc t = .idle hd := by
    intro t hd ht
    have h1 := r1.hd h0 ht
    have h2 := e1 t
    cases hp : s1.pc t <;> rw [hp] at h1 h2 <;> first | (cases h2; done) | (cases h1; done) | (cases h1; rfl)
  exact ⟨s1, r1, key 0 _ (by subst hs; rfl), key 1 _ (by subst hs; rfl), e2⟩

/-- And a thread in an operation on the marked table. -/
theorem C74_blocks_not_vacuous : ∃ s : St Nat Nat, Reach false 0 1 s ∧
    s.pc 0 = .op ⟨0, false⟩ 0 0 ∧ s.table = .mark 0 ∧ (s.pc 1).grower = true := by
  have h0 := Sync.prompt_two.reach
  have h1 := h0.step (Step.call (t := 0) rfl)
  have h2 := h1.step (Step.gtLoad (t := 0) rfl rfl)
  have h3 := h2.step (Step.gtStore (t := 0) rfl)
  have h4 := h3.step (Step.gtSame (t := 0) rfl rfl rfl)
  have h5 := h4.step (Step.call (t := 1) rfl)
  have h6 := h5.step (Step.gtLoad (t := 1) rfl rfl)
  have h7 := h6.step (Step.gtStore (t := 1) rfl)
  have h8 := h7.step (Step.gtSame (t := 1) rfl rfl rfl)
  have h9 := h8.step (Step.opEnd (t := 1) rfl .grow)
  have h10 := h9.step (Step.grEpoch (t := 1) rfl)
  have h11 := h10.step (Step.grCas (t := 1) rfl (by decide) rfl)
  have h12 := h11.step (Step.grLoad (t := 1) rfl rfl rfl)
  have h13 := h12.step (Step.grMark (t := 1) rfl rfl)
  exact ⟨_, h13, rfl, rfl, rfl⟩

end
end Growt
