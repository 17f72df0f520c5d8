import Verif.MigReach

/-!
# Counting live elements; migrations during which the source is not modified
-/

set_option linter.unusedSectionVars false

namespace Growt

attribute [local irreducible] blockEnd

section
variable {T K V : Type} [DecidableEq T] [DecidableEq K] [DecidableEq V] [Inhabited V]

/-- Number of slots that hold an element. (proof, no code) -/
def liveCount (n : Nat) (t : Tbl K V) : Nat :=
  (List.range n).countP fun p => match (t p).c with | .live _ _ => true | _ => false

/-- The keys of the elements in the first `n` slots. (proof, no code) -/
def liveKeys (n : Nat) (t : Tbl K V) : List K :=
  (List.range n).filterMap fun p => match (t p).c with | .live k _ => some k | _ => none

theorem length_liveKeys (n : Nat) (t : Tbl K V) : (liveKeys n t).length = liveCount n t := by
  unfold liveKeys liveCount
  rw [List.length_filterMap_eq_countP]
  apply List.countP_congr
  intro p _
  cases (t p).c <;> simp

theorem mem_liveKeys {n : Nat} {t : Tbl K V} {k : K} :
    k ∈ liveKeys n t ↔ ∃ p, p < n ∧ ∃ v, (t p).c = .live k v := by
  unfold liveKeys
  rw [List.mem_filterMap]
  constructor
  · rintro ⟨p, hp, h⟩
    refine ⟨p, List.mem_range.1 hp, ?_⟩
    cases hc : (t p).c with
    | empty => rw [hc] at h; cases h
    | deleted v => rw [hc] at h; cases h
    | live k' v => rw [hc] at h; simp at h; subst h; exact ⟨v, rfl⟩
  · rintro ⟨p, hp, v, h⟩
    exact ⟨p, List.mem_range.2 hp, by rw [h]⟩

theorem nodup_liveKeys {E : Env K} {t : Tbl K V} (hI : Inv E t) : (liveKeys E.M.total t).Nodup := by
  unfold liveKeys List.Nodup
  rw [List.pairwise_filterMap]
  have hlt : (List.range E.M.total).Pairwise (· < ·) := List.pairwise_lt_range
  refine List.Pairwise.imp_of_mem ?_ hlt
  intro a a' ha ha' hlt b hb b' hb' hbb
  subst hbb
  have key : ∀ a, (match (t a).c with | .live k _ => some k | _ => none) = some b →
      ∃ v, (t a).c = .live b v := by
    intro a h
    cases hc : (t a).c with
    | empty => rw [hc] at h; cases h
    | deleted v => rw [hc] at h; cases h
    | live k' v => rw [hc] at h; simp at h; subst h; exact ⟨v, rfl⟩
  obtain ⟨v, hv⟩ := key a hb
  obtain ⟨w, hw⟩ := key a' hb'
  have := hI.unique (List.mem_range.1 ha) (List.mem_range.1 ha') hv hw
  omega

/-- Tables with the same elements have equally many. -/
theorem liveCount_eq {E E' : Env K} {t t' : Tbl K V} (hI : Inv E t) (hI' : Inv E' t')
    (h : ∀ k v, (∃ q, q < E'.M.total ∧ (t' q).c = .live k v) ↔
      ∃ p, p < E.M.total ∧ (t p).c = .live k v) :
    liveCount E'.M.total t' = liveCount E.M.total t := by
  rw [← length_liveKeys, ← length_liveKeys]
  apply List.Perm.length_eq
  rw [List.perm_ext_iff_of_nodup (nodup_liveKeys hI') (nodup_liveKeys hI)]
  intro k
  rw [mem_liveKeys, mem_liveKeys]
  constructor
  · rintro ⟨p, hp, v, hv⟩
    obtain ⟨q, hq, hc⟩ := (h k v).1 ⟨p, hp, hv⟩
    exact ⟨q, hq, v, hc⟩
  · rintro ⟨p, hp, v, hv⟩
    obtain ⟨q, hq, hc⟩ := (h k v).2 ⟨p, hp, hv⟩
    exact ⟨q, hq, v, hc⟩

theorem liveCount_le_occupied (n : Nat) (t : Tbl K V) : liveCount n t ≤ occupied n t := by
  unfold liveCount occupied
  apply List.countP_mono_left
  intro p _ h
  unfold Cell.isEmpty
  cases hc : (t p).c with
  | empty => rw [hc] at h; cases h
  | deleted v => rfl
  | live k v => rfl

/-! ## Quiet migrations -/

/-- Reachable by steps that do not change the content of the source (marks excepted).
(`base_linear.hpp:1114-1227` without modifications of the source) -/
inductive MQuiet (G : MEnv K) (t : Tbl K V) : MSt T K V → Prop where
  | init : MQuiet G t (MSt.init G t)
  | step {s s' : MSt T K V} (h : MQuiet G t s) (hs : MStep G s s')
      (hq : ∀ p, (s'.mem.src p).c = (s.mem.src p).c) : MQuiet G t s'

theorem MQuiet.reach {G : MEnv K} {t : Tbl K V} {s : MSt T K V} (h : MQuiet G t s) : MReach G t s := by
  induction h with
  | init => exact .init
  | step _ hs _ ih => exact .step ih hs

/-- The copy about to be marked has the content of the slot. (proof, no code) -/
def Fresh (G : MEnv K) (t : Tbl K V) (pc : JobPC K V) : Prop :=
  ∀ st tl i curr, pc = .mark st tl i curr → curr.c = (t (G.src.M.remap i)).c

theorem atomicMark_c (m upd : Bool) (x curr : Cell K V) : (atomicMark m upd x curr).1.c = x.c := by
  unfold atomicMark
  cases m <;> simp
  split
  · rename_i h; subst h; rfl
  · rfl

theorem loopHead_ne_mark (G : MEnv K) (e st : Nat) (tail : Bool) (i : Nat) (t : Tbl K V) :
    Fresh G t (loopHead G e st tail i) := by
  intro st' tl i' curr h
  unfold loopHead at h
  split at h <;> cases h

theorem process_fresh {G : MEnv K} {e st : Nat} {tail : Bool} {i nxt : Nat} {curr : Cell K V}
    {pc : JobPC K V} (t : Tbl K V) (h : process G e st tail i nxt curr = .cont pc) : Fresh G t pc := by
  unfold process at h
  split at h
  · split at h
    · cases h; intro _ _ _ _ h; cases h
    · cases h; exact loopHead_ne_mark _ _ _ _ _ _
  · split at h
    · cases h; exact loopHead_ne_mark _ _ _ _ _ _
    · split at h
      · cases h; intro _ _ _ _ h; cases h
      · cases h

theorem set_c {t : Tbl K V} {p : Nat} {x : Cell K V} (h : x.c = (t p).c) (q : Nat) :
    (t.set p x q).c = (t q).c := by
  by_cases hq : q = p
  · subst hq; rw [Tbl.set_at, h]
  · rw [Tbl.set_other hq]

theorem jobStep_quiet {G : MEnv K} {e : Nat} {pc : JobPC K V} {m m' : MMem K V} {pc' : JobPC K V}
    (hf : Fresh G m.src pc) (hs : jobStep G e pc m = (m', .cont pc')) :
    m'.torn = m.torn ∧ (∀ p, (m'.src p).c = (m.src p).c) ∧ Fresh G m'.src pc' := by
  cases pc with
  | scan i =>
    simp only [jobStep] at hs
    split at hs
    · split at hs <;> cases hs <;> refine ⟨rfl, fun _ => rfl, ?_⟩
      · intro _ _ _ _ h; cases h
      · intro _ _ _ _ h; split at h <;> cases h
    · cases hs
  | scanMark i curr =>
    simp only [jobStep] at hs
    split at hs
    · cases hs
      refine ⟨rfl, set_c (atomicMark_c ..), ?_⟩
      intro _ _ _ _ h; split at h <;> cases h
    · cases hs
  | fill st qs tail i =>
    cases qs with
    | nil =>
      simp only [jobStep] at hs; cases hs
      exact ⟨rfl, fun _ => rfl, fun _ _ _ _ h => by cases h⟩
    | cons q qs =>
      simp only [jobStep] at hs
      split at hs
      · cases hs
        exact ⟨rfl, fun _ => rfl, fun _ _ _ _ h => by cases h⟩
      · cases hs
  | load st tail i =>
    simp only [jobStep] at hs
    split at hs
    · cases hs
      exact ⟨rfl, fun _ => rfl, fun _ _ _ _ h => by cases h; rfl⟩
    · cases hs
  | mark st tail i curr =>
    have hcc := hf st tail i curr rfl
    simp only [jobStep] at hs
    split at hs
    · split at hs
      · injection hs with h1 h2
        subst h1
        refine ⟨?_, set_c (atomicMark_c ..), process_fresh _ h2⟩
        simp [hcc]
      · split at hs
        · injection hs with h1 h2
          subst h1
          exact ⟨rfl, set_c (atomicMark_c ..), process_fresh _ h2⟩
        · cases hs
          refine ⟨rfl, set_c (atomicMark_c ..), fun _ _ _ _ h => by cases h⟩
    · cases hs
  | probe st tail nxt u x =>
    simp only [jobStep] at hs
    split at hs
    · split at hs
      · cases hs
      · cases hs
        refine ⟨rfl, fun _ => rfl, ?_⟩
        intro _ _ _ _ h; split at h <;> cases h
    · cases hs
  | put st tail nxt u x =>
    simp only [jobStep] at hs
    split at hs
    · cases hs
      exact ⟨rfl, fun _ => rfl, loopHead_ne_mark _ _ _ _ _ _⟩
    · cases hs
  | fin st i =>
    simp only [jobStep] at hs; cases hs
    exact ⟨rfl, fun _ => rfl, hf⟩
  | nothing =>
    simp only [jobStep] at hs; cases hs
    exact ⟨rfl, fun _ => rfl, hf⟩

theorem jobStart_fresh (G : MEnv K) (s e : Nat) (t : Tbl K V) : Fresh G t (jobStart G s e) := by
  intro _ _ _ _ h
  unfold jobStart at h
  split at h <;> split at h <;> cases h

/-- In a quiet migration no mark fails because of a changed content, and the source keeps its
contents. -/
theorem MQuiet.good {G : MEnv K} {t : Tbl K V} {s : MSt T K V} (h : MQuiet G t s) :
    s.mem.torn = false ∧ (∀ p, (s.mem.src p).c = (t p).c) ∧
      ∀ b pc, s.jobs b = some pc → Fresh G s.mem.src pc := by
  induction h with
  | init => exact ⟨rfl, fun _ => rfl, fun b pc h => by cases h⟩
  | @step s s' _ hs hq ih =>
    obtain ⟨h1, h2, h3⟩ := ih
    have hc : ∀ p, (s'.mem.src p).c = (t p).c := fun p => by rw [hq, h2]
    have hfr : ∀ pc, Fresh G s.mem.src pc → Fresh G s'.mem.src pc := by
      intro pc hf st tl i curr he
      rw [hq]; exact hf st tl i curr he
    cases hs with
    | @claim i hthr hlt =>
      refine ⟨h1, hc, ?_⟩
      intro b pc hj
      by_cases hb : b = s.next
      · subst hb
        simp only [upd1_self] at hj
        cases hj
        exact jobStart_fresh _ _ _ _
      · simp only [upd1_ne hb] at hj; exact h3 b pc hj
    | leave => exact ⟨h1, hc, h3⟩
    | enter => exact ⟨h1, hc, h3⟩
    | @work i b pc pc' m' hw hj he hst =>
      obtain ⟨h4, -, h6⟩ := jobStep_quiet (h3 b pc hj) hst
      refine ⟨by show m'.torn = false; rw [h4, h1], hc, ?_⟩
      intro b2 pc2 hj2
      by_cases hb : b2 = b
      · subst hb
        simp only [upd1_self] at hj2
        cases hj2
        exact h6
      · simp only [upd1_ne hb] at hj2; exact hfr _ (h3 b2 pc2 hj2)
    | ret => exact ⟨h1, hc, h3⟩
    | env => exact ⟨h1, hc, fun b pc hj => hfr _ (h3 b pc hj)⟩

end
end Growt
