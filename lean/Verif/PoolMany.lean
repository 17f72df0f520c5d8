import Verif.Pool

/-!
# Growth with the thread pool: what holds for any number of handles (proof of C47)

No assumption about wake-ups.
-/

set_option linter.unusedSectionVars false

namespace Growt.Pool

variable {T : Type} [DecidableEq T]

/-- The version that a user's thread works with; `true`: it has a successor. (proof, no code) -/
def UPC.holds : UPC → Option (Nat × Bool)
  | .idle v => some (v, false)
  | .gr v => some (v, false)
  | .ex1 v => some (v, true)
  | .ex2 v => some (v, true)
  | .ex3 v => some (v, true)
  | .asleep v => some (v, true)
  | .eg1 v => some (v, true)
  | .eg2 v => some (v, true)
  | _ => Option.none

/-- The table that a pool thread migrates; `true`: it has a successor. (proof, no code) -/
def PPC.holds : PPC → Option (Nat × Bool)
  | .m2 _ w => some (w, false)
  | .m4 _ w => some (w, true)
  | .m5 _ w _ => some (w, true)
  | _ => Option.none

/-- The block that a pool thread migrates. (proof, no code) -/
def PPC.block : PPC → Option (Nat × Nat)
  | .m5 _ w k => some (w, k)
  | _ => Option.none

/-- The pool thread is counted in `_n_helper`. (proof, no code) -/
def PPC.inside : PPC → Bool
  | .m1 _ => true
  | .m2 _ _ => true
  | .m4 _ _ => true
  | .m5 _ _ _ => true
  | .m6 _ _ => true
  | _ => false

/-- What holds in every state, whatever is woken when. (proof, no code) -/
structure Any (blocks : Nat → Nat) (s : St T) : Prop where
  u : ∀ t v b, (s.user t).holds = some (v, b) → v ≤ s.glob ∧ (b = true → s.att v = true)
  p : ∀ t w b, (s.pool t).holds = some (w, b) → w ≤ s.glob ∧ (b = true → s.att w = true)
  old : ∀ v, v < s.glob → s.att v = true
  top : ∀ v, s.att v = true → v ≤ s.glob
  blk : ∀ t w k, (s.pool t).block = some (w, k) → k < s.claimed w ∧ k < blocks w ∧ s.fin w k = false
  one : ∀ t t' w k, (s.pool t).block = some (w, k) → (s.pool t').block = some (w, k) → t = t'
  fin : ∀ w k, s.fin w k = true → k < s.claimed w ∧ k < blocks w
  got : ∀ w k, k < s.claimed w → k < blocks w → s.fin w k = true ∨ ∃ t, (s.pool t).block = some (w, k)
  cnt : ∃ l : List T, l.Nodup ∧ l.length = s.helpers ∧ ∀ t, t ∈ l ↔ (s.pool t).inside = true

theorem Any.init (blocks : Nat → Nat) : Any blocks (St.init : St T) := by
  refine ⟨?_, ?_, ?_, ?_, ?_, ?_, ?_, ?_, [], List.nodup_nil, rfl, ?_⟩ <;>
    simp [St.init, UPC.holds, PPC.holds, PPC.block, PPC.inside]

theorem wakeU_holds (x : UPC) : (wakeU x).holds = x.holds := by cases x <;> rfl
theorem wakeP_holds (x : PPC) : (wakeP x).holds = x.holds := by cases x <;> rfl
theorem wakeP_block (x : PPC) : (wakeP x).block = x.block := by cases x <;> rfl
theorem wakeP_inside (x : PPC) : (wakeP x).inside = x.inside := by cases x <;> rfl

/-- A change of one user's thread. -/
theorem Any.setU {blocks : Nat → Nat} {s : St T} (I : Any blocks s) (t : T) (x : UPC)
    (hx : ∀ v b, x.holds = some (v, b) → v ≤ s.glob ∧ (b = true → s.att v = true)) :
    Any blocks { s with user := put s.user t x } := by
  refine ⟨?_, I.p, I.old, I.top, I.blk, I.one, I.fin, I.got, I.cnt⟩
  intro t' v b h
  by_cases ht : t' = t
  · subst ht
    have : put s.user t' x t' = x := by simp [put]
    exact hx v b (this ▸ h)
  · exact I.u t' v b (put_other s.user x ht ▸ h)

/-- A change of one pool thread that has to do with no block and keeps its place in `_n_helper`. -/
theorem Any.setP {blocks : Nat → Nat} {s : St T} (I : Any blocks s) (t : T) (x : PPC)
    (hx : ∀ v b, x.holds = some (v, b) → v ≤ s.glob ∧ (b = true → s.att v = true))
    (hb : (s.pool t).block = Option.none) (hb' : x.block = Option.none) (hi : x.inside = (s.pool t).inside) :
    Any blocks { s with pool := put s.pool t x } := by
  have e1 : put s.pool t x t = x := by simp [put]
  refine ⟨I.u, ?_, I.old, I.top, ?_, ?_, I.fin, ?_, ?_⟩
  · intro t' v b h
    by_cases ht : t' = t
    · subst ht; exact hx v b (e1 ▸ h)
    · exact I.p t' v b (put_other s.pool x ht ▸ h)
  · intro t' w k h
    by_cases ht : t' = t
    · subst ht; simp [e1, hb'] at h
    · exact I.blk t' w k (put_other s.pool x ht ▸ h)
  · intro t1 t2 w k h1 h2
    by_cases ht : t1 = t
    · subst ht; simp [e1, hb'] at h1
    · by_cases ht2 : t2 = t
      · subst ht2; simp [e1, hb'] at h2
      · exact I.one t1 t2 w k (put_other s.pool x ht ▸ h1) (put_other s.pool x ht2 ▸ h2)
  · intro w k h1 h2
    rcases I.got w k h1 h2 with h | ⟨t', h⟩
    · exact .inl h
    · by_cases ht : t' = t
      · subst ht; rw [hb] at h; cases h
      · exact .inr ⟨t', (congrArg PPC.block (put_other s.pool x ht)).trans h⟩
  · obtain ⟨l, h1, h2, h3⟩ := I.cnt
    refine ⟨l, h1, h2, fun t' => ?_⟩
    rw [h3]
    show _ ↔ (put s.pool t x t').inside = true
    by_cases ht : t' = t
    · subst ht; rw [e1, hi]
    · rw [put_other s.pool x ht]

theorem Any.wake {blocks : Nat → Nat} {s : St T} (I : Any blocks s) :
    Any blocks { s with pool := fun p => wakeP (s.pool p) } := by
  refine ⟨I.u, ?_, I.old, I.top, ?_, ?_, I.fin, ?_, ?_⟩
  · intro t w b h; exact I.p t w b (wakeP_holds _ ▸ h)
  · intro t w k h; exact I.blk t w k (wakeP_block _ ▸ h)
  · intro t t' w k h h'; exact I.one t t' w k (wakeP_block _ ▸ h) (wakeP_block _ ▸ h')
  · intro w k h1 h2
    rcases I.got w k h1 h2 with h | ⟨t', h⟩
    · exact .inl h
    · exact .inr ⟨t', (wakeP_block _).trans h⟩
  · obtain ⟨l, h1, h2, h3⟩ := I.cnt
    exact ⟨l, h1, h2, fun t' => by rw [h3]; show _ ↔ (wakeP (s.pool t')).inside = true; rw [wakeP_inside]⟩

theorem Any.wakeUsers {blocks : Nat → Nat} {s : St T} (I : Any blocks s) :
    Any blocks { s with user := fun p => wakeU (s.user p) } :=
  ⟨fun t v b h => I.u t v b (wakeU_holds _ ▸ h), I.p, I.old, I.top, I.blk, I.one, I.fin, I.got, I.cnt⟩

/-- The counters of the futexes and the flags to stop do not matter. -/
theorem Any.other {blocks : Nat → Nat} {s : St T} (I : Any blocks s) (a b : Nat) (st : T → Bool) :
    Any blocks { s with gw := a, uw := b, stop := st } :=
  ⟨I.u, I.p, I.old, I.top, I.blk, I.one, I.fin, I.got, I.cnt⟩

theorem Any.userStep {blocks : Nat → Nat} {s s' : St T} (I : Any blocks s) {t : T}
    (h : Pool.userStep s t = some s') : Any blocks s' := by
  unfold Pool.userStep at h
  split at h
  · cases h
  · split at h
    · cases h
      exact I.setU t _ fun v b h => by cases h; exact ⟨Nat.le_refl _, fun h => by cases h⟩
    · cases h
  · rename_i v hu
    cases h
    have hv := (I.u t v false (by rw [hu]; rfl)).1
    have I' : Any blocks { s with att := put s.att v true } := by
      have mono : ∀ x, s.att x = true → put s.att v true x = true := by
        intro x hx; unfold put; split
        · rfl
        · exact hx
      refine ⟨fun t' x b h => ⟨(I.u t' x b h).1, fun hb => mono x ((I.u t' x b h).2 hb)⟩,
        fun t' x b h => ⟨(I.p t' x b h).1, fun hb => mono x ((I.p t' x b h).2 hb)⟩,
        fun x hx => mono x (I.old x hx), ?_, I.blk, I.one, I.fin, I.got, I.cnt⟩
      intro x hx
      by_cases hxv : x = v
      · subst hxv; exact hv
      · exact I.top x (by rw [← put_other s.att true hxv]; exact hx)
    exact I'.setU t _ fun x b h => by
      cases h
      exact ⟨hv, fun _ => by simp [put]⟩
  · rename_i v hu
    have hv := I.u t v true (by rw [hu]; rfl)
    split at h
    · cases h
      exact (I.other (v + 1) s.uw s.stop).setU t _ fun x b h => by cases h; exact hv
    · cases h
      exact I.setU t _ fun x b h => by cases h; exact hv
  · rename_i v hu
    have hv := I.u t v true (by rw [hu]; rfl)
    cases h
    exact I.wake.setU t _ fun x b h => by cases h; exact hv
  · rename_i v hu
    have hv := I.u t v true (by rw [hu]; rfl)
    split at h <;> cases h <;> exact I.setU t _ fun x b h => by cases h; exact hv
  · cases h
  · rename_i v hu
    have hv := I.u t v true (by rw [hu]; rfl)
    split at h
    · cases h
      exact I.setU t _ fun x b h => by cases h; exact hv
    · cases h; exact I
  · rename_i v hu
    have hv := I.u t v true (by rw [hu]; rfl)
    split at h
    · rename_i hg
      cases h
      have I' : Any blocks { s with glob := v + 1 } := by
        refine ⟨fun t' x b h => ⟨?_, (I.u t' x b h).2⟩, fun t' x b h => ⟨?_, (I.p t' x b h).2⟩, ?_, ?_, I.blk, I.one,
          I.fin, I.got, I.cnt⟩
        · have := (I.u t' x b h).1; show x ≤ v + 1; omega
        · have := (I.p t' x b h).1; show x ≤ v + 1; omega
        · intro x hx
          by_cases hxv : x = v
          · subst hxv; exact hv.2 rfl
          · exact I.old x (by have : x < v + 1 := hx; omega)
        · intro x hx; have := I.top x hx; show x ≤ v + 1; omega
      exact I'.setU t _ fun x b h => by cases h
    · cases h
      exact I.setU t _ fun x b h => by cases h
  · cases h
    exact I.setU t _ fun v b h => by cases h; exact ⟨Nat.le_refl _, fun h => by cases h⟩
  · split at h
    · cases h
      exact I.setU t _ fun x b h => by cases h
    · cases h; exact I.wake
  · cases h

/-- Joining and leaving `_n_helper`. -/
theorem Any.enter {blocks : Nat → Nat} {s : St T} (I : Any blocks s) (t : T) (x : PPC) (n : Nat)
    (hh : x.holds = Option.none) (hb : (s.pool t).block = Option.none) (hb' : x.block = Option.none)
    (hn : (x.inside = true ∧ (s.pool t).inside = false ∧ n = s.helpers + 1) ∨
      (x.inside = false ∧ (s.pool t).inside = true ∧ n = s.helpers - 1)) :
    Any blocks { s with helpers := n, pool := put s.pool t x } := by
  have e1 : put s.pool t x t = x := by simp [put]
  refine ⟨I.u, ?_, I.old, I.top, ?_, ?_, I.fin, ?_, ?_⟩
  · intro t' v b h
    by_cases ht : t' = t
    · subst ht; simp [e1, hh] at h
    · exact I.p t' v b (put_other s.pool x ht ▸ h)
  · intro t' w k h
    by_cases ht : t' = t
    · subst ht; simp [e1, hb'] at h
    · exact I.blk t' w k (put_other s.pool x ht ▸ h)
  · intro t1 t2 w k h1 h2
    by_cases ht : t1 = t
    · subst ht; simp [e1, hb'] at h1
    · by_cases ht2 : t2 = t
      · subst ht2; simp [e1, hb'] at h2
      · exact I.one t1 t2 w k (put_other s.pool x ht ▸ h1) (put_other s.pool x ht2 ▸ h2)
  · intro w k h1 h2
    rcases I.got w k h1 h2 with h | ⟨t', h⟩
    · exact .inl h
    · by_cases ht : t' = t
      · subst ht; rw [hb] at h; cases h
      · exact .inr ⟨t', (congrArg PPC.block (put_other s.pool x ht)).trans h⟩
  · obtain ⟨l, h1, h2, h3⟩ := I.cnt
    rcases hn with ⟨hx, ho, rfl⟩ | ⟨hx, ho, rfl⟩
    · refine ⟨t :: l, List.nodup_cons.2 ⟨?_, h1⟩, by simp [h2], fun t' => ?_⟩
      · rw [h3, ho]; simp
      · show _ ↔ (put s.pool t x t').inside = true
        by_cases ht : t' = t
        · subst ht; simp [e1, hx]
        · rw [put_other s.pool x ht, List.mem_cons, h3]; simp [ht]
    · have hm : t ∈ l := (h3 t).2 ho
      refine ⟨l.erase t, h1.erase t, by rw [List.length_erase_of_mem hm, h2], fun t' => ?_⟩
      show _ ↔ (put s.pool t x t').inside = true
      by_cases ht : t' = t
      · subst ht
        rw [e1, hx]
        simp [h1.not_mem_erase]
      · rw [put_other s.pool x ht, List.mem_erase_of_ne ht, h3]

theorem Any.poolStep {blocks : Nat → Nat} {s s' : St T} (I : Any blocks s) {t : T}
    (h : Pool.poolStep blocks s t = some s') : Any blocks s' := by
  unfold Pool.poolStep at h
  split at h
  · cases h
  · rename_i e hp
    split at h <;> cases h <;>
      exact I.setP t _ (fun v b h => by cases h) (by rw [hp]; rfl) rfl (by rw [hp]; rfl)
  · cases h
  · rename_i e hp
    split at h <;> cases h <;>
      exact I.setP t _ (fun v b h => by cases h) (by rw [hp]; rfl) rfl (by rw [hp]; rfl)
  · rename_i e hp
    cases h
    exact I.enter t _ _ rfl (by rw [hp]; rfl) rfl (.inl ⟨rfl, by rw [hp]; rfl, rfl⟩)
  · rename_i e hp
    cases h
    exact I.setP t _ (fun v b h => by cases h; exact ⟨Nat.le_refl _, fun h => by cases h⟩) (by rw [hp]; rfl) rfl
      (by rw [hp]; rfl)
  · rename_i e w hp
    have hw := I.p t w false (by rw [hp]; rfl)
    split at h
    · rename_i ha
      cases h
      exact I.setP t _ (fun v b h => by cases h; exact ⟨hw.1, fun _ => ha⟩) (by rw [hp]; rfl) rfl (by rw [hp]; rfl)
    · cases h
      exact I.setP t _ (fun v b h => by cases h) (by rw [hp]; rfl) rfl (by rw [hp]; rfl)
  · rename_i e w hp
    have hw := I.p t w true (by rw [hp]; rfl)
    have e2 : ∀ {I X : Type} [DecidableEq I] (f : I → X) (i : I) (x : X), put f i x i = x := by
      intro I X _ f i x; simp [put]
    have ge : ∀ v, s.claimed v ≤ put s.claimed w (s.claimed w + 1) v := by
      intro v; unfold put; split
      · rename_i h; subst h; omega
      · exact Nat.le_refl _
    split at h
    · rename_i hc
      cases h
      refine ⟨I.u, ?_, I.old, I.top, ?_, ?_, ?_, ?_, ?_⟩
      · intro t' v b h
        by_cases ht : t' = t
        · subst ht
          simp only [e2] at h
          cases h; exact hw
        · exact I.p t' v b (put_other s.pool _ ht ▸ h)
      · intro t' v k h
        by_cases ht : t' = t
        · subst ht
          simp only [e2] at h
          cases h
          refine ⟨?_, hc, ?_⟩
          · show _ < put s.claimed _ _ _
            rw [e2]; omega
          · cases hf : s.fin w (s.claimed w) with
            | false => rfl
            | true => exact absurd (I.fin _ _ hf).1 (Nat.lt_irrefl _)
        · have := I.blk t' v k (put_other s.pool _ ht ▸ h)
          exact ⟨Nat.lt_of_lt_of_le this.1 (ge v), this.2⟩
      · have key : ∀ t', (s.pool t').block = some (w, s.claimed w) → False := fun t' h =>
          absurd (I.blk t' _ _ h).1 (Nat.lt_irrefl _)
        intro t1 t2 v k h1 h2
        by_cases ht : t1 = t
        · subst ht
          by_cases ht2 : t2 = t1
          · exact ht2.symm
          · simp only [e2] at h1
            cases h1
            exact (key t2 (put_other s.pool _ ht2 ▸ h2)).elim
        · by_cases ht2 : t2 = t
          · subst ht2
            simp only [e2] at h2
            cases h2
            exact (key t1 (put_other s.pool _ ht ▸ h1)).elim
          · exact I.one t1 t2 v k (put_other s.pool _ ht ▸ h1) (put_other s.pool _ ht2 ▸ h2)
      · intro v k hf
        exact ⟨Nat.lt_of_lt_of_le (I.fin v k hf).1 (ge v), (I.fin v k hf).2⟩
      · intro v k h1 h2
        have h1 : k < put s.claimed w (s.claimed w + 1) v := h1
        by_cases hk : k < s.claimed v
        · rcases I.got v k hk h2 with h | ⟨t', h⟩
          · exact .inl h
          · right
            refine ⟨t', ?_⟩
            have ht : t' ≠ t := fun ht => by subst ht; rw [hp] at h; cases h
            exact (congrArg PPC.block (put_other s.pool _ ht)).trans h
        · have hv : v = w := Classical.byContradiction fun hv => by
            rw [put_other s.claimed _ hv] at h1; exact hk h1
          subst hv
          rw [e2] at h1
          have : k = s.claimed v := by omega
          subst this
          exact .inr ⟨t, congrArg PPC.block (e2 s.pool t _)⟩
      · obtain ⟨l, h1, h2, h3⟩ := I.cnt
        refine ⟨l, h1, h2, fun t' => ?_⟩
        rw [h3]
        show _ ↔ (put s.pool t _ t').inside = true
        by_cases ht : t' = t
        · subst ht; rw [e2, hp]; rfl
        · rw [put_other s.pool _ ht]
    · rename_i hc
      cases h
      have I' : Any blocks { s with claimed := put s.claimed w (s.claimed w + 1) } := by
        refine ⟨I.u, I.p, I.old, I.top, fun t' v k h => ⟨Nat.lt_of_lt_of_le (I.blk t' v k h).1 (ge v),
          (I.blk t' v k h).2⟩, I.one, fun v k h => ⟨Nat.lt_of_lt_of_le (I.fin v k h).1 (ge v), (I.fin v k h).2⟩, ?_,
          I.cnt⟩
        intro v k h1 h2
        refine I.got v k ?_ h2
        have h1 : k < put s.claimed w (s.claimed w + 1) v := h1
        by_cases hv : v = w
        · subst hv; omega
        · rw [put_other s.claimed _ hv] at h1; exact h1
      exact I'.setP t _ (fun v b h => by cases h) (by rw [show St.pool _ t = s.pool t from rfl, hp]; rfl) rfl
        (by rw [show St.pool _ t = s.pool t from rfl, hp]; rfl)
  · rename_i e w k hp
    have hw := I.p t w true (by rw [hp]; rfl)
    have hk := I.blk t w k (by rw [hp]; rfl)
    have e2 : ∀ {I X : Type} [DecidableEq I] (f : I → X) (i : I) (x : X), put f i x i = x := by
      intro I X _ f i x; simp [put]
    have fmono : ∀ v j, s.fin v j = true → put s.fin w (put (s.fin w) k true) v j = true := by
      intro v j hj
      by_cases hv : v = w
      · subst hv
        rw [e2]
        by_cases hj' : j = k
        · subst hj'; rw [e2]
        · rw [put_other _ _ hj']; exact hj
      · rw [put_other _ _ hv]; exact hj
    have fback : ∀ v j, put s.fin w (put (s.fin w) k true) v j = true → s.fin v j = true ∨ (v = w ∧ j = k) := by
      intro v j hj
      by_cases hv : v = w
      · subst hv
        rw [e2] at hj
        by_cases hj' : j = k
        · exact .inr ⟨rfl, hj'⟩
        · rw [put_other _ _ hj'] at hj; exact .inl hj
      · rw [put_other _ _ hv] at hj; exact .inl hj
    cases h
    refine ⟨I.u, ?_, I.old, I.top, ?_, ?_, ?_, ?_, ?_⟩
    · intro t' v b h
      by_cases ht : t' = t
      · subst ht
        simp only [e2] at h
        cases h; exact hw
      · exact I.p t' v b (put_other s.pool _ ht ▸ h)
    · intro t' v j h
      by_cases ht : t' = t
      · subst ht
        simp only [e2] at h
        cases h
      · have hb : (s.pool t').block = some (v, j) := (congrArg PPC.block (put_other s.pool (PPC.m4 e w) ht)).symm.trans h
        have := I.blk t' v j hb
        refine ⟨this.1, this.2.1, ?_⟩
        show put s.fin w (put (s.fin w) k true) v j = false
        cases hf : put s.fin w (put (s.fin w) k true) v j with
        | false => rfl
        | true =>
          rcases fback v j hf with h' | ⟨rfl, rfl⟩
          · rw [this.2.2] at h'; cases h'
          · exact absurd (I.one t' t v j hb (by rw [hp]; rfl)) ht
    · intro t1 t2 v j h1 h2
      by_cases ht : t1 = t
      · subst ht
        simp only [e2] at h1
        cases h1
      · by_cases ht2 : t2 = t
        · subst ht2
          simp only [e2] at h2
          cases h2
        · exact I.one t1 t2 v j (put_other s.pool _ ht ▸ h1) (put_other s.pool _ ht2 ▸ h2)
    · intro v j hf
      rcases fback v j hf with h' | ⟨rfl, rfl⟩
      · exact I.fin v j h'
      · exact ⟨hk.1, hk.2.1⟩
    · intro v j h1 h2
      rcases I.got v j h1 h2 with h | ⟨t', h⟩
      · exact .inl (fmono v j h)
      · by_cases ht : t' = t
        · subst ht
          rw [hp] at h
          cases h
          left
          show put s.fin w (put (s.fin w) k true) w k = true
          rw [e2, e2]
        · exact .inr ⟨t', (congrArg PPC.block (put_other s.pool _ ht)).trans h⟩
    · obtain ⟨l, h1, h2, h3⟩ := I.cnt
      refine ⟨l, h1, h2, fun t' => ?_⟩
      rw [h3]
      show _ ↔ (put s.pool t _ t').inside = true
      by_cases ht : t' = t
      · subst ht; rw [e2, hp]; rfl
      · rw [put_other s.pool _ ht]
  · rename_i e r hp
    cases h
    exact I.enter t _ _ rfl (by rw [hp]; rfl) rfl (.inr ⟨rfl, by rw [hp]; rfl, rfl⟩)
  · rename_i e r hp
    split at h
    · cases h
      exact (I.other s.gw (e + 1) s.stop).setP t _ (fun v b h => by cases h)
        (by rw [show St.pool _ t = s.pool t from rfl, hp]; rfl) rfl
        (by rw [show St.pool _ t = s.pool t from rfl, hp]; rfl)
    · cases h
      exact I.setP t _ (fun v b h => by cases h) (by rw [hp]; rfl) rfl (by rw [hp]; rfl)
  · rename_i e r hp
    cases h
    exact I.wakeUsers.setP t _ (fun v b h => by cases h)
      (by rw [show St.pool _ t = s.pool t from rfl, hp]; rfl) rfl
      (by rw [show St.pool _ t = s.pool t from rfl, hp]; rfl)
  · cases h

/-- A handle that was not created has no pool thread. (proof, no code) -/
def Born (s : St T) : Prop := ∀ t, s.user t = .fresh → s.pool t = .none

theorem put_born {s : St T} (B : Born s) {t : T} {x : UPC} (hx : x ≠ .fresh) :
    ∀ t', put s.user t x t' = .fresh → s.pool t' = .none := by
  intro t' h
  by_cases ht : t' = t
  · subst ht
    rw [show put s.user t' x t' = x by simp [put]] at h
    exact absurd h hx
  · rw [put_other _ _ ht] at h
    exact B t' h

theorem Born.userStep {s s' : St T} (B : Born s) {t : T} (h : Pool.userStep s t = some s') : Born s' := by
  have wk : ∀ t', s.pool t' = .none → wakeP (s.pool t') = .none := fun t' h => by rw [h]; rfl
  unfold Pool.userStep at h
  split at h
  case h_5 => cases h; exact fun t' ht' => wk t' (put_born B (t := t) (by simp) t' ht')
  case h_11 =>
    split at h
    · cases h; exact put_born B (t := t) (by simp)
    · cases h; exact fun t' ht' => wk t' (B t' ht')
  all_goals (repeat' split at h)
  all_goals first
    | cases h; exact put_born B (t := t) (by simp)
    | cases h; exact B
    | cases h

theorem Born.poolStep {blocks : Nat → Nat} {s s' : St T} (B : Born s) {t : T}
    (h : Pool.poolStep blocks s t = some s') : Born s' := by
  have key : ∀ x : PPC, s.pool t ≠ .none → ∀ t', s.user t' = .fresh → put s.pool t x t' = .none := by
    intro x hx t' hf
    by_cases ht : t' = t
    · subst ht; exact absurd (B t' hf) hx
    · rw [put_other _ _ ht]; exact B t' hf
  have wk : ∀ u : UPC, wakeU u = .fresh → u = .fresh := by
    intro u h; cases u <;> first | rfl | cases h
  unfold Pool.poolStep at h
  split at h
  case h_1 => cases h
  all_goals
    rename_i hp
    have hn : s.pool t ≠ .none := by rw [hp]; simp
    (repeat' split at h)
  all_goals first
    | cases h; exact key _ hn
    | cases h; exact fun t' ht' => key _ hn t' (wk _ ht')
    | cases h

theorem Any.act {blocks : Nat → Nat} {s s' : St T} (I : Any blocks s) (B : Born s) {a : Act T}
    (h : Pool.act blocks s a = some s') : Any blocks s' ∧ Born s' := by
  cases a with
  | create t =>
    simp only [Pool.act] at h
    split at h
    · rename_i hu
      cases h
      have hn := B t hu
      refine ⟨(I.setU t (.idle s.glob) fun v b h => by
        cases h; exact ⟨Nat.le_refl _, fun h => by cases h⟩).setP t (.wait 0) (fun v b h => by cases h)
        (by rw [show St.pool _ t = s.pool t from rfl, hn]; rfl) rfl
        (by rw [show St.pool _ t = s.pool t from rfl, hn]; rfl), ?_⟩
      intro t' h
      by_cases ht : t' = t
      · subst ht
        have h : put s.user t' (.idle s.glob) t' = .fresh := h
        simp [put] at h
      · exact (put_other s.pool _ ht).trans (B t' ((put_other s.user _ ht).symm.trans h))
    · cases h
  | grow t =>
    simp only [Pool.act] at h
    split at h
    · rename_i v hu
      cases h
      exact ⟨I.setU t _ fun x b h => by cases h; exact I.u t v false (by rw [hu]; rfl), put_born B (by simp)⟩
    · cases h
  | help t =>
    simp only [Pool.act] at h
    split at h
    · rename_i v hu
      split at h
      · rename_i ha
        cases h
        exact ⟨I.setU t _ fun x b h => by
          cases h; exact ⟨(I.u t v false (by rw [hu]; rfl)).1, fun _ => ha⟩, put_born B (by simp)⟩
      · cases h
    · cases h
  | user t => exact ⟨I.userStep h, B.userStep h⟩
  | pool t => exact ⟨I.poolStep h, B.poolStep h⟩
  | destroy t =>
    simp only [Pool.act] at h
    split at h
    · cases h
      exact ⟨(I.other s.gw s.uw (put s.stop t true)).setU t _ (fun x b h => by cases h), put_born B (by simp)⟩
    · cases h
  | spurU t =>
    simp only [Pool.act] at h
    split at h
    · rename_i v hu
      cases h
      exact ⟨I.setU t _ fun x b h => by cases h; exact I.u t v true (by rw [hu]; rfl), put_born B (by simp)⟩
    · cases h
  | spurP t =>
    simp only [Pool.act] at h
    split at h
    · rename_i e hp
      cases h
      refine ⟨I.setP t _ (fun v b h => by cases h) (by rw [hp]; rfl) rfl (by rw [hp]; rfl), ?_⟩
      intro t' h
      have hn := B t' h
      have ht : t' ≠ t := fun ht => by subst ht; rw [hp] at hn; cases hn
      exact (put_other s.pool _ ht).trans hn
    · cases h

theorem Any.run {blocks : Nat → Nat} {s s' : St T} {l : List (Act T)} (I : Any blocks s) (B : Born s)
    (h : Pool.run blocks s l = some s') : Any blocks s' ∧ Born s' := by
  induction l generalizing s with
  | nil => cases h; exact ⟨I, B⟩
  | cons a l ih =>
    simp only [Pool.run] at h
    cases ha : Pool.act blocks s a with
    | none => rw [ha] at h; cases h
    | some s1 =>
      rw [ha] at h
      obtain ⟨I1, B1⟩ := I.act B ha
      exact ih I1 B1 h

end Growt.Pool
