import Verif.SyncPool

/-!
# Synchronised growth with the thread pool: what holds for any number of handles

An invariant of all executions (any handles, spurious wake-ups included): one thread at a time is between the
exchange of `_epoch` and the publication of the new table, and the current table has not been deleted.
-/

namespace Growt.SyncPool

/-- The version that is being replaced by a thread between the exchange of `_epoch` and the publication
(`estrat_sync.hpp:307-364`). -/
def replacing : UPC → Option Nat
  | .gr3 v | .gr6 v | .gr7 v _ _ | .gr8 v | .ex1 true v | .ex2 true v | .ex3 true v | .asleep true v | .gr10 v
  | .gr11 v | .gr12 v _ _ | .gr13 v => some v
  | _ => none

/-- The version a thread that does not grow knows of. (proof, no code) -/
def knows : UPC → Option Nat
  | .gt2 v | .gt3 v | .op v | .gr1 v | .gr2 v _ => some v
  | _ => none

/-- The version of the current table; while the pointer is null that of the old one. (proof, no code) -/
def St.ver (s : St) : Nat :=
  match s.cur with
  | .clear c | .mark c => c
  | .null => s.ep - 1

/-- What `_table` looks like while a thread grows. (proof, no code) -/
def stage (s : St) (v : Nat) : UPC → Prop
  | .gr3 _ => s.cur = .clear v
  | .gr6 _ | .gr7 _ _ _ | .gr8 _ | .ex1 true _ | .ex2 true _ | .ex3 true _ | .asleep true _ | .gr10 _ =>
    s.cur = .mark v
  | .gr11 _ | .gr12 _ _ _ | .gr13 _ => s.cur = .null
  | _ => True

/-- The invariant. (proof, no code) -/
structure Many (s : St) : Prop where
  clear : ∀ c, s.cur = .clear c → c ≤ s.ep ∧ s.ep ≤ c + 1
  mark : ∀ c, s.cur = .mark c → s.ep = c + 1
  null : s.cur = .null → 1 ≤ s.ep
  grow : ∀ t v, replacing (s.user t) = some v → s.ep = v + 1 ∧ v = s.ver ∧ stage s v (s.user t)
  one : ∀ t t' v v', replacing (s.user t) = some v → replacing (s.user t') = some v' → t = t'
  know : ∀ t v, knows (s.user t) = some v → v ≤ s.ver
  del : ∀ t v, s.user t = .gr14 v → v < s.ver
  freed : ∀ v, s.freed v = true → v < s.ver

theorem Many.init : Many St.init := by
  refine ⟨fun c h => ?_, (fun c h => by cases h), (fun h => by cases h), (fun t v h => by cases h),
    (fun t t' v v' h => by cases h), (fun t v h => by cases h), (fun t v h => by cases h), (fun v h => by cases h)⟩
  cases h
  exact ⟨Nat.le_refl _, Nat.le_succ _⟩

/-- Only the thread of one user changes, to a place where it neither grows nor knows a version it did not know;
`_table` and `_epoch` stay. -/
theorem Many.move {s s' : St} (h : Many s) (t : Nat) (hc : s'.cur = s.cur) (he : s'.ep = s.ep)
    (hf : s'.freed = s.freed) (hu : ∀ t', t' ≠ t → s'.user t' = s.user t')
    (hg : ∀ v, replacing (s'.user t) = some v → replacing (s.user t) = some v ∧
      (stage s v (s.user t) → stage s v (s'.user t)))
    (hk : ∀ v, knows (s'.user t) = some v → v ≤ s.ver) (hd : ∀ v, s'.user t ≠ .gr14 v) : Many s' := by
  have hv : s'.ver = s.ver := by unfold St.ver; rw [hc, he]
  have hst : ∀ v p, stage s' v p = stage s v p := by intro v p; unfold stage; rw [hc]
  have hgr : ∀ t' v, replacing (s'.user t') = some v → replacing (s.user t') = some v := by
    intro t' v hx
    by_cases ht : t' = t
    · subst ht; exact (hg v hx).1
    · rw [hu t' ht] at hx; exact hx
  refine ⟨?_, ?_, ?_, ?_, ?_, ?_, ?_, ?_⟩
  · rw [hc, he]; exact h.clear
  · rw [hc, he]; exact h.mark
  · rw [hc, he]; exact h.null
  · intro t' v hx
    rw [he, hv, hst]
    obtain ⟨h1, h2, h3⟩ := h.grow t' v (hgr t' v hx)
    refine ⟨h1, h2, ?_⟩
    by_cases ht : t' = t
    · subst ht; exact (hg v hx).2 h3
    · rw [hu t' ht]; exact h3
  · intro a b v v' h1 h2
    exact h.one a b v v' (hgr a v h1) (hgr b v' h2)
  · intro t' v hx
    rw [hv]
    by_cases ht : t' = t
    · subst ht; exact hk v hx
    · rw [hu t' ht] at hx; exact h.know t' v hx
  · intro t' v hx
    rw [hv]
    by_cases ht : t' = t
    · subst ht; exact absurd hx (hd v)
    · rw [hu t' ht] at hx; exact h.del t' v hx
  · rw [hv, hf]; exact h.freed

/-- Nothing that matters changes. -/
theorem Many.same {s s' : St} (h : Many s) (hc : s'.cur = s.cur) (he : s'.ep = s.ep) (hf : s'.freed = s.freed)
    (hu : ∀ t, s'.user t = s.user t ∨ ∃ g v, s.user t = .asleep g v ∧ s'.user t = after g v) : Many s' := by
  have hv : s'.ver = s.ver := by unfold St.ver; rw [hc, he]
  have hst : ∀ v p, stage s' v p = stage s v p := by intro v p; unfold stage; rw [hc]
  have key : ∀ t, (∀ v, replacing (s'.user t) = some v → replacing (s.user t) = some v ∧
      (stage s v (s.user t) → stage s v (s'.user t))) ∧
      (∀ v, knows (s'.user t) = some v → knows (s.user t) = some v) ∧
      ∀ v, s'.user t = .gr14 v → s.user t = .gr14 v := by
    intro t
    rcases hu t with e | ⟨g, v, e1, e2⟩
    · rw [e]; exact ⟨fun v hx => ⟨hx, id⟩, fun _ hx => hx, fun _ hx => hx⟩
    · rw [e1, e2]
      cases g with
      | true =>
        exact ⟨fun w hx => ⟨hx, id⟩, (fun w hx => by cases hx), (fun w hx => by cases hx)⟩
      | false => exact ⟨(fun w hx => by cases hx), (fun w hx => by cases hx), (fun w hx => by cases hx)⟩
  refine ⟨?_, ?_, ?_, ?_, ?_, ?_, ?_, ?_⟩
  · rw [hc, he]; exact h.clear
  · rw [hc, he]; exact h.mark
  · rw [hc, he]; exact h.null
  · intro t v hx
    rw [he, hv, hst]
    obtain ⟨k1, k2⟩ := (key t).1 v hx
    obtain ⟨h1, h2, h3⟩ := h.grow t v k1
    exact ⟨h1, h2, k2 h3⟩
  · intro a b v v' h1 h2
    exact h.one a b v v' ((key a).1 v h1).1 ((key b).1 v' h2).1
  · intro t v hx
    rw [hv]; exact h.know t v ((key t).2.1 v hx)
  · intro t v hx
    rw [hv]; exact h.del t v ((key t).2.2 v hx)
  · rw [hv, hf]; exact h.freed

theorem Many.user {s s' : St} (h : Many s) {t : Nat} (hs : userStep s t = some s') : Many s' := by
  have hu : ∀ p t', t' ≠ t → (s.u t p).user t' = s.user t' := fun p t' ht => put_other _ _ ht
  have hself : ∀ p, (s.u t p).user t = p := fun p => put_same _ _ _
  have hclear : ∀ {c}, s.cur = .clear c → s.ver = c := fun h => by unfold St.ver; rw [h]
  have hmark : ∀ {c}, s.cur = .mark c → s.ver = c := fun h => by unfold St.ver; rw [h]
  -- a move of this thread alone
  have mv : ∀ p s1, s1.cur = s.cur → s1.ep = s.ep → s1.freed = s.freed → s1.user = put s.user t p →
      (∀ v, replacing p = some v → replacing (s.user t) = some v ∧ (stage s v (s.user t) → stage s v p)) →
      (∀ v, knows p = some v → v ≤ s.ver) → (∀ v, p ≠ .gr14 v) → Many s1 := by
    intro p s1 h1 h2 h3 h4 h5 h6 h7
    refine h.move t h1 h2 h3 (fun t' ht => by rw [h4]; exact put_other _ _ ht) ?_ ?_ ?_ <;>
      (rw [h4, put_same]; assumption)
  unfold userStep at hs
  cases hp : s.user t with
  | fresh => rw [hp] at hs; cases hs
  | idle => rw [hp] at hs; cases hs
  | gt1 =>
    rw [hp] at hs
    cases hc : s.cur with
    | null => simp only [hc, Option.some.injEq] at hs; subst hs; exact h
    | mark c =>
      simp only [hc, Option.some.injEq] at hs; subst hs
      exact mv .he _ rfl rfl rfl rfl nofun nofun nofun
    | clear c =>
      simp only [hc, Option.some.injEq] at hs; subst hs
      refine mv (.gt2 c) _ rfl rfl rfl rfl nofun (fun v hv => ?_) nofun
      cases hv
      rw [hclear hc]
      exact Nat.le_refl _
  | gt2 v =>
    rw [hp] at hs; simp only [Option.some.injEq] at hs; subst hs
    exact mv (.gt3 v) _ rfl rfl rfl rfl nofun (fun w hv => by cases hv; exact h.know t v (by rw [hp]; rfl)) nofun
  | gt3 v =>
    rw [hp] at hs; simp only at hs
    split at hs <;> (simp only [Option.some.injEq] at hs; subst hs)
    · exact mv (.op v) _ rfl rfl rfl rfl nofun (fun w hv => by cases hv; exact h.know t v (by rw [hp]; rfl)) nofun
    · exact mv .gt4 _ rfl rfl rfl rfl nofun nofun nofun
  | gt4 =>
    rw [hp] at hs; simp only [Option.some.injEq] at hs; subst hs
    exact mv .gt1 _ rfl rfl rfl rfl nofun nofun nofun
  | op v =>
    rw [hp] at hs; simp only at hs
    split at hs <;> (simp only [Option.some.injEq] at hs; subst hs)
    · exact h.same rfl rfl rfl fun _ => .inl rfl
    · exact h
  | gr1 v =>
    rw [hp] at hs; simp only [Option.some.injEq] at hs; subst hs
    exact mv (.gr2 v s.ep) _ rfl rfl rfl rfl nofun (fun w hv => by cases hv; exact h.know t v (by rw [hp]; rfl)) nofun
  | gr2 v e =>
    rw [hp] at hs; simp only at hs
    split at hs <;> (simp only [Option.some.injEq] at hs; subst hs)
    · exact mv .idle _ rfl rfl rfl rfl nofun nofun nofun
    · rename_i hcond
      have hkn := h.know t v (by rw [hp]; rfl)
      have he1 : s.ep ≤ v := by omega
      -- the table is not being replaced
      obtain ⟨c, hc⟩ : ∃ c, s.cur = .clear c := by
        cases hc : s.cur with
        | clear c => exact ⟨c, rfl⟩
        | mark c => have := h.mark c hc; rw [hmark hc] at hkn; omega
        | null =>
          have := h.null hc
          have : s.ver = s.ep - 1 := by unfold St.ver; rw [hc]
          omega
      have hv := hclear hc
      obtain ⟨c1, c2⟩ := h.clear c hc
      have hvc : v = c := by omega
      have hep : s.ep = c := by omega
      have hno : ∀ t' w, replacing (s.user t') ≠ some w := by
        intro t' w hg
        obtain ⟨g1, g2, -⟩ := h.grow t' w hg
        omega
      have hver : St.ver { s.u t (.gr3 v) with ep := v + 1 } = s.ver := by
        show (match s.cur with | .clear c | .mark c => c | .null => v + 1 - 1) = s.ver
        rw [hc, hv]
      have husr : ∀ t', t' ≠ t → St.user { s.u t (.gr3 v) with ep := v + 1 } t' = s.user t' :=
        fun t' ht => put_other _ _ ht
      have hslf : St.user { s.u t (.gr3 v) with ep := v + 1 } t = .gr3 v := put_same _ _ _
      refine ⟨fun c' h' => ?_, fun c' h' => ?_, fun h' => ?_, fun t' w hg => ?_, fun a b w w' ha hb => ?_,
        fun t' w hk => ?_, fun t' w hd => ?_, fun w hf => ?_⟩
      · have h2 : s.cur = .clear c' := h'
        rw [hc] at h2; cases h2
        show c ≤ v + 1 ∧ v + 1 ≤ c + 1
        omega
      · have h2 : s.cur = .mark c' := h'
        rw [hc] at h2; cases h2
      · exact Nat.le_add_left 1 v
      · by_cases ht : t' = t
        · subst ht
          rw [hslf] at hg ⊢
          cases hg
          refine ⟨rfl, by rw [hver]; omega, ?_⟩
          show s.cur = .clear v
          rw [hc, hvc]
        · rw [husr t' ht] at hg; exact absurd hg (hno t' w)
      · by_cases h1 : a = t
        · by_cases h2 : b = t
          · rw [h1, h2]
          · rw [husr b h2] at hb; exact absurd hb (hno b w')
        · rw [husr a h1] at ha; exact absurd ha (hno a w)
      · by_cases ht : t' = t
        · subst ht; rw [hslf] at hk; cases hk
        · rw [hver]; rw [husr t' ht] at hk; exact h.know t' w hk
      · by_cases ht : t' = t
        · subst ht; rw [hslf] at hd; cases hd
        · rw [hver]; rw [husr t' ht] at hd; exact h.del t' w hd
      · rw [hver]; exact h.freed w hf
  | gr3 v =>
    rw [hp] at hs; simp only at hs
    have hgr := h.grow t v (by rw [hp]; rfl)
    rw [hp] at hgr
    obtain ⟨g1, g2, g3⟩ := hgr
    have g3' : s.cur = .clear v := g3
    rw [g3'] at hs
    simp only [Option.some.injEq] at hs; subst hs
    have hver : St.ver { s.u t (.gr6 v) with cur := .mark v } = s.ver := by rw [← g2]; rfl
    have husr : ∀ t', t' ≠ t → St.user { s.u t (.gr6 v) with cur := .mark v } t' = s.user t' :=
      fun t' ht => put_other _ _ ht
    have hslf : St.user { s.u t (.gr6 v) with cur := .mark v } t = .gr6 v := put_same _ _ _
    have hno : ∀ t' w, t' ≠ t → replacing (s.user t') ≠ some w :=
      fun t' w ht hg => ht (h.one t' t w v hg (by rw [hp]; rfl))
    refine ⟨nofun, (fun c h' => by cases h'; exact g1), nofun, fun t' w hg => ?_, fun a b w w' ha hb => ?_,
      fun t' w hk => ?_, fun t' w hd => ?_, fun w hf => ?_⟩
    · by_cases ht : t' = t
      · subst ht; rw [hslf] at hg ⊢; cases hg; exact ⟨g1, by rw [hver]; exact g2, rfl⟩
      · rw [husr t' ht] at hg; exact absurd hg (hno t' w ht)
    · by_cases h1 : a = t
      · by_cases h2 : b = t
        · rw [h1, h2]
        · rw [husr b h2] at hb; exact absurd hb (hno b w' h2)
      · rw [husr a h1] at ha; exact absurd ha (hno a w h1)
    · by_cases ht : t' = t
      · subst ht; rw [hslf] at hk; cases hk
      · rw [hver]; rw [husr t' ht] at hk; exact h.know t' w hk
    · by_cases ht : t' = t
      · subst ht; rw [hslf] at hd; cases hd
      · rw [hver]; rw [husr t' ht] at hd; exact h.del t' w hd
    · rw [hver]; exact h.freed w hf
  | gr6 v =>
    rw [hp] at hs; simp only [Option.some.injEq] at hs; subst hs
    exact mv (.gr7 v s.last 0) _ rfl rfl rfl rfl (fun w hw => by rw [hp]; exact ⟨hw, id⟩) nofun nofun
  | gr7 v n j =>
    rw [hp] at hs; simp only at hs
    split at hs
    · split at hs <;> (simp only [Option.some.injEq] at hs; subst hs)
      · exact h
      · exact mv (.gr7 v n (j + 1)) _ rfl rfl rfl rfl (fun w hw => by rw [hp]; exact ⟨hw, id⟩) nofun nofun
    · simp only [Option.some.injEq] at hs; subst hs
      exact mv (.gr8 v) _ rfl rfl rfl rfl (fun w hw => by rw [hp]; exact ⟨hw, id⟩) nofun nofun
  | gr8 v =>
    rw [hp] at hs; simp only [Option.some.injEq] at hs; subst hs
    exact mv (.ex1 true v) _ rfl rfl rfl rfl (fun w hw => by rw [hp]; exact ⟨hw, id⟩) nofun nofun
  | he =>
    rw [hp] at hs; simp only [Option.some.injEq] at hs; subst hs
    exact mv (.ex1 false (s.ep - 1)) _ rfl rfl rfl rfl nofun nofun nofun
  | ex1 g v =>
    rw [hp] at hs; simp only at hs
    split at hs <;> (simp only [Option.some.injEq] at hs; subst hs)
    · exact mv (.ex2 g v) _ rfl rfl rfl rfl (fun w hw => by
        rw [hp]; cases g <;> first | (cases hw; done) | exact ⟨hw, id⟩) (by cases g <;> nofun) nofun
    · exact mv (.ex3 g v) _ rfl rfl rfl rfl (fun w hw => by
        rw [hp]; cases g <;> first | (cases hw; done) | exact ⟨hw, id⟩) (by cases g <;> nofun) nofun
  | ex2 g v =>
    rw [hp] at hs; simp only [Option.some.injEq] at hs; subst hs
    exact mv (.ex3 g v) _ rfl rfl rfl rfl (fun w hw => by
        rw [hp]; cases g <;> first | (cases hw; done) | exact ⟨hw, id⟩) (by cases g <;> nofun) nofun
  | ex3 g v =>
    rw [hp] at hs; simp only at hs
    split at hs <;> (simp only [Option.some.injEq] at hs; subst hs)
    · exact mv (.asleep g v) _ rfl rfl rfl rfl (fun w hw => by
        rw [hp]; cases g <;> first | (cases hw; done) | exact ⟨hw, id⟩) (by cases g <;> nofun) nofun
    · exact mv (after g v) _ rfl rfl rfl rfl (fun w hw => by
        rw [hp]; cases g <;> first | (cases hw; done) | exact ⟨hw, id⟩) (by cases g <;> nofun) (by cases g <;> nofun)
  | asleep g v => rw [hp] at hs; cases hs
  | gr10 v =>
    rw [hp] at hs; simp only [Option.some.injEq] at hs
    have hgr := h.grow t v (by rw [hp]; rfl)
    rw [hp] at hgr
    obtain ⟨g1, g2, g3⟩ := hgr
    subst hs
    have hver : St.ver { s.u t (.gr11 v) with cur := .null } = s.ver := by
      show s.ep - 1 = s.ver
      omega
    have husr : ∀ t', t' ≠ t → St.user { s.u t (.gr11 v) with cur := .null } t' = s.user t' :=
      fun t' ht => put_other _ _ ht
    have hslf : St.user { s.u t (.gr11 v) with cur := .null } t = .gr11 v := put_same _ _ _
    have hno : ∀ t' w, t' ≠ t → replacing (s.user t') ≠ some w :=
      fun t' w ht hg => ht (h.one t' t w v hg (by rw [hp]; rfl))
    refine ⟨nofun, nofun, (fun _ => by show 1 ≤ s.ep; omega), fun t' w hg => ?_, fun a b w w' ha hb => ?_,
      fun t' w hk => ?_, fun t' w hd => ?_, fun w hf => ?_⟩
    · by_cases ht : t' = t
      · subst ht; rw [hslf] at hg ⊢; cases hg; exact ⟨g1, by rw [hver]; exact g2, rfl⟩
      · rw [husr t' ht] at hg; exact absurd hg (hno t' w ht)
    · by_cases h1 : a = t
      · by_cases h2 : b = t
        · rw [h1, h2]
        · rw [husr b h2] at hb; exact absurd hb (hno b w' h2)
      · rw [husr a h1] at ha; exact absurd ha (hno a w h1)
    · by_cases ht : t' = t
      · subst ht; rw [hslf] at hk; cases hk
      · rw [hver]; rw [husr t' ht] at hk; exact h.know t' w hk
    · by_cases ht : t' = t
      · subst ht; rw [hslf] at hd; cases hd
      · rw [hver]; rw [husr t' ht] at hd; exact h.del t' w hd
    · rw [hver]; exact h.freed w hf
  | gr11 v =>
    rw [hp] at hs; simp only [Option.some.injEq] at hs; subst hs
    exact mv (.gr12 v s.last 0) _ rfl rfl rfl rfl (fun w hw => by rw [hp]; exact ⟨hw, id⟩) nofun nofun
  | gr12 v n j =>
    rw [hp] at hs; simp only at hs
    split at hs
    · split at hs <;> (simp only [Option.some.injEq] at hs; subst hs)
      · exact mv (.gr12 v n (j + 1)) _ rfl rfl rfl rfl (fun w hw => by rw [hp]; exact ⟨hw, id⟩) nofun nofun
      · exact h
    · simp only [Option.some.injEq] at hs; subst hs
      exact mv (.gr13 v) _ rfl rfl rfl rfl (fun w hw => by rw [hp]; exact ⟨hw, id⟩) nofun nofun
  | gr13 v =>
    rw [hp] at hs; simp only [Option.some.injEq] at hs; subst hs
    have hgr := h.grow t v (by rw [hp]; rfl)
    rw [hp] at hgr
    obtain ⟨g1, g2, g3⟩ := hgr
    have hver : St.ver { s.u t (.gr14 v) with cur := .clear (v + 1) } = v + 1 := rfl
    have husr : ∀ t', t' ≠ t → St.user { s.u t (.gr14 v) with cur := .clear (v + 1) } t' = s.user t' :=
      fun t' ht => put_other _ _ ht
    have hslf : St.user { s.u t (.gr14 v) with cur := .clear (v + 1) } t = .gr14 v := put_same _ _ _
    have hno : ∀ t' w, t' ≠ t → replacing (s.user t') ≠ some w :=
      fun t' w ht hg => ht (h.one t' t w v hg (by rw [hp]; rfl))
    have hno' : ∀ t' w, replacing (St.user { s.u t (.gr14 v) with cur := .clear (v + 1) } t') ≠ some w := by
      intro t' w hg
      by_cases ht : t' = t
      · subst ht; rw [hslf] at hg; cases hg
      · rw [husr t' ht] at hg; exact hno t' w ht hg
    refine ⟨(fun c h' => ?_), nofun, nofun, (fun t' w hg => absurd hg (hno' t' w)),
      (fun a b w w' ha hb => absurd ha (hno' a w)), fun t' w hk => ?_, fun t' w hd => ?_, fun w hf => ?_⟩
    · cases h'
      show v + 1 ≤ s.ep ∧ s.ep ≤ v + 1 + 1
      omega
    · by_cases ht : t' = t
      · subst ht; rw [hslf] at hk; cases hk
      · rw [hver]; rw [husr t' ht] at hk; have := h.know t' w hk; omega
    · by_cases ht : t' = t
      · subst ht; rw [hslf] at hd; cases hd; rw [hver]; omega
      · rw [hver]; rw [husr t' ht] at hd; have := h.del t' w hd; omega
    · rw [hver]; have := h.freed w hf; omega
  | gr14 v =>
    rw [hp] at hs; simp only [Option.some.injEq] at hs; subst hs
    have hd := h.del t v hp
    have h1 : Many (s.u t .idle) := mv .idle _ rfl rfl rfl rfl nofun nofun nofun
    refine ⟨h1.clear, h1.mark, h1.null, h1.grow, h1.one, h1.know, h1.del, fun w hw => ?_⟩
    show w < s.ver
    have hw' : put s.freed v true w = true := hw
    by_cases hwv : w = v
    · rw [hwv]; exact hd
    · rw [put_other _ _ hwv] at hw'; exact h.freed w hw'
  | hg =>
    rw [hp] at hs; simp only at hs
    cases hc : s.cur with
    | null => simp only [hc, Option.some.injEq] at hs; subst hs; exact h
    | mark c => simp only [hc, Option.some.injEq] at hs; subst hs; exact h
    | clear c =>
      simp only [hc, Option.some.injEq] at hs; subst hs
      exact mv .gt1 _ rfl rfl rfl rfl nofun nofun nofun
  | join =>
    rw [hp] at hs; simp only at hs
    split at hs <;> (simp only [Option.some.injEq] at hs; subst hs)
    · exact mv .gone _ rfl rfl rfl rfl nofun nofun nofun
    · exact h.same rfl rfl rfl fun _ => .inl rfl
  | gone => rw [hp] at hs; cases hs

theorem Many.pool {blocks : Nat → Nat} {s s' : St} (h : Many s) {t : Nat} (hs : poolStep blocks s t = some s') :
    Many s' := by
  unfold poolStep at hs
  have key : s'.cur = s.cur ∧ s'.ep = s.ep ∧ s'.freed = s.freed ∧
      (s'.user = s.user ∨ s'.user = fun u => wakeU (s.user u)) := by
    cases hp : s.pool t <;> rw [hp] at hs <;> simp only at hs <;> (repeat' split at hs) <;>
      first
      | (cases hs; done)
      | (simp only [Option.some.injEq] at hs; subst hs; exact ⟨rfl, rfl, rfl, .inl rfl⟩)
      | (simp only [Option.some.injEq] at hs; subst hs; exact ⟨rfl, rfl, rfl, .inr rfl⟩)
  obtain ⟨k1, k2, k3, k4⟩ := key
  refine h.same k1 k2 k3 fun u => ?_
  rcases k4 with e | e
  · rw [e]; exact .inl rfl
  · rw [e]
    show wakeU (s.user u) = s.user u ∨ ∃ g v, s.user u = .asleep g v ∧ wakeU (s.user u) = after g v
    cases s.user u with
    | asleep g v => exact .inr ⟨g, v, rfl, rfl⟩
    | _ => exact .inl rfl

/-- How a step of a user changes `_epoch` and `_table`. -/
theorem Many.user_tab {s s' : St} (h : Many s) {t : Nat} (hs : userStep s t = some s') :
    (s'.ep = s.ep ∨ s'.ep = s.ep + 1 ∧ s.cur = .clear s.ep) ∧
      (s'.cur = s.cur ∨ (∃ v, s.cur = .clear v ∧ s'.cur = .mark v ∧ s.ep = v + 1) ∨
        (∃ v, s.cur = .mark v ∧ s'.cur = .null) ∨ s.cur = .null ∧ s'.cur = .clear s.ep) := by
  have hgr := h.grow t
  have hkn := h.know t
  unfold userStep at hs
  cases hp : s.user t <;> rw [hp] at hs hgr hkn <;> simp only at hs
  case gr2 v e =>
    split at hs <;> (simp only [Option.some.injEq] at hs; subst hs)
    · exact ⟨.inl rfl, .inl rfl⟩
    · have hk := hkn v rfl
      have he : s.ep ≤ v := by omega
      unfold St.ver at hk
      refine ⟨.inr ?_, .inl rfl⟩
      cases hc : s.cur with
      | clear c =>
        rw [hc] at hk
        have h1 := (h.clear c hc).1
        have h2 : v = s.ep := by dsimp only at hk; omega
        exact ⟨by show v + 1 = s.ep + 1; rw [h2], by dsimp only at hk; congr 1; omega⟩
      | mark c => rw [hc] at hk; have := h.mark c hc; dsimp only at hk; omega
      | null => rw [hc] at hk; have := h.null hc; dsimp only at hk; omega
  case gr3 v =>
    obtain ⟨g1, -, g3⟩ := hgr v rfl
    have g3' : s.cur = .clear v := g3
    rw [g3'] at hs
    simp only [Option.some.injEq] at hs; subst hs
    exact ⟨.inl rfl, .inr (.inl ⟨v, g3', rfl, g1⟩)⟩
  case gr10 v =>
    obtain ⟨g1, -, g3⟩ := hgr v rfl
    simp only [Option.some.injEq] at hs; subst hs
    exact ⟨.inl rfl, .inr (.inr (.inl ⟨v, g3, rfl⟩))⟩
  case gr13 v =>
    obtain ⟨g1, -, g3⟩ := hgr v rfl
    simp only [Option.some.injEq] at hs; subst hs
    exact ⟨.inl rfl, .inr (.inr (.inr ⟨g3, by rw [g1]⟩))⟩
  all_goals
    (repeat' split at hs) <;> first
      | (cases hs; done)
      | (simp only [Option.some.injEq] at hs; subst hs; exact ⟨.inl rfl, .inl rfl⟩)

theorem pool_tab {blocks : Nat → Nat} {s s' : St} {t : Nat} (hs : poolStep blocks s t = some s') :
    s'.cur = s.cur ∧ s'.ep = s.ep := by
  unfold poolStep at hs
  cases hp : s.pool t <;> rw [hp] at hs <;> simp only at hs <;> (repeat' split at hs) <;>
    first
    | (cases hs; done)
    | (simp only [Option.some.injEq] at hs; subst hs; exact ⟨rfl, rfl⟩)

theorem Many.act {blocks : Nat → Nat} {s s' : St} (h : Many s) {a : Act} (hs : act blocks s a = some s') :
    Many s' := by
  unfold SyncPool.act at hs
  split at hs
  · cases hs
  have mv : ∀ t p s1, s1.cur = s.cur → s1.ep = s.ep → s1.freed = s.freed → s1.user = put s.user t p →
      (∀ v, replacing p = some v → replacing (s.user t) = some v ∧ (stage s v (s.user t) → stage s v p)) →
      (∀ v, knows p = some v → v ≤ s.ver) → (∀ v, p ≠ .gr14 v) → Many s1 := by
    intro t p s1 h1 h2 h3 h4 h5 h6 h7
    refine h.move t h1 h2 h3 (fun t' ht => by rw [h4]; exact put_other _ _ ht) ?_ ?_ ?_ <;>
      (rw [h4, put_same]; assumption)
  cases a with
  | create t =>
    simp only at hs
    split at hs
    · simp only [Option.some.injEq] at hs; subst hs
      exact mv t .idle _ rfl rfl rfl rfl nofun nofun nofun
    · cases hs
  | call t =>
    simp only at hs
    split at hs
    · simp only [Option.some.injEq] at hs; subst hs
      exact mv t .gt1 _ rfl rfl rfl rfl nofun nofun nofun
    · cases hs
  | exit t g =>
    simp only at hs
    split at hs
    · rename_i v hv
      simp only [Option.some.injEq] at hs; subst hs
      refine mv t (if g then .gr1 v else .idle) _ rfl rfl rfl rfl (by cases g <;> nofun) (fun w hw => ?_)
        (by cases g <;> nofun)
      cases g <;> simp [knows] at hw
      subst hw
      exact h.know t v (by rw [hv]; rfl)
    · cases hs
  | user t => exact h.user hs
  | pool t => exact h.pool hs
  | destroy t =>
    simp only at hs
    split at hs
    · simp only [Option.some.injEq] at hs; subst hs
      exact mv t .join _ rfl rfl rfl rfl nofun nofun nofun
    · cases hs
  | spurU t =>
    simp only at hs
    split at hs
    · rename_i g v hv
      simp only [Option.some.injEq] at hs; subst hs
      refine h.same rfl rfl rfl fun u => ?_
      by_cases hu : u = t
      · subst hu; exact .inr ⟨g, v, hv, put_same _ _ _⟩
      · exact .inl (put_other _ _ hu)
    · cases hs
  | spurP t =>
    simp only at hs
    split at hs
    · simp only [Option.some.injEq] at hs; subst hs
      exact h.same rfl rfl rfl fun _ => .inl rfl
    · cases hs

theorem Many.run {blocks : Nat → Nat} {l : List Act} : ∀ {s s' : St}, Many s → run blocks s l = some s' → Many s' := by
  induction l with
  | nil => intro s s' h hr; cases hr; exact h
  | cons a l ih =>
    intro s s' h hr
    simp only [SyncPool.run] at hr
    cases ha : SyncPool.act blocks s a with
    | none => rw [ha] at hr; cases hr
    | some s1 => rw [ha] at hr; exact ih (h.act ha) hr

end Growt.SyncPool
