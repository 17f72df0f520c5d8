/-
C50: the allocators.
-/
import Verif.Alloc

set_option linter.unusedSectionVars false

namespace Growt

variable {U T : Type} [DecidableEq U] [DecidableEq T]

/-! ### Sizes -/

/-- **C50, aligned allocator**: when memory is requested, then exactly `n` objects fit - the number of bytes is
the mathematical product, no wrapped one - for every object size and every count. -/
theorem C50_aligned_size (sz n b : Nat) (hs : 0 < sz) (h : alignedAllocate sz n = .request b) : b = n * sz := by
  unfold alignedAllocate at h
  split at h
  · cases h
  · rename_i hn
    injection h with h
    rw [← h]
    apply Nat.mod_eq_of_lt
    have h1 : n ≤ (sizeMod - 1) / sz := Nat.le_of_not_lt hn
    have h2 : n * sz ≤ sizeMod - 1 := (Nat.le_div_iff_mul_le hs).mp h1
    have h3 : 0 < sizeMod := by decide
    omega

/-- The request is refused only when the bytes cannot be counted. -/
theorem C50_aligned_refuses_only_overflow (sz n : Nat) (hs : 0 < sz) :
    alignedAllocate sz n = .throws ↔ sizeMod ≤ n * sz := by
  unfold alignedAllocate alignedMax
  have h3 : 0 < sizeMod := by decide
  have key : n > (sizeMod - 1) / sz ↔ sizeMod ≤ n * sz := by
    rw [gt_iff_lt, ← Nat.not_le, Nat.le_div_iff_mul_le hs]
    omega
  split
  · rename_i h; simp [key.mp h]
  · rename_i h
    rw [key] at h
    simp [h]

/-- **C50, pool allocator**: the same, and the request is never larger than the default pool. -/
theorem C50_pool_size (sz n b : Nat) (hs : 0 < sz) (h : poolAllocate sz n = .request b) :
    b = n * sz ∧ b ≤ defaultPoolSize := by
  unfold poolAllocate at h
  split at h
  · cases h
  · rename_i hn
    injection h with h
    have h1 : n ≤ defaultPoolSize / sz := Nat.le_of_not_lt hn
    have h2 : n * sz ≤ defaultPoolSize := (Nat.le_div_iff_mul_le hs).mp h1
    have h3 : defaultPoolSize < sizeMod := by decide
    have h4 : n * sz % sizeMod = n * sz := Nat.mod_eq_of_lt (by omega)
    omega

/-- Both outcomes occur: sixteen byte slots. -/
example : alignedAllocate 16 4096 = .request 65536 ∧ alignedAllocate 16 (2 ^ 60) = .throws ∧
    alignedAllocate 16 (2 ^ 60 - 1) = .request (2 ^ 64 - 16) ∧ poolAllocate 16 4096 = .request 65536 ∧
    poolAllocate 16 (2 ^ 28) = .throws := by decide

/-! ### First use of the pool -/

/-- The pool of a type can be used: it exists, on a buffer. (specification, no code) -/
def Usable (s : PoolMem U T) (u : U) : Prop :=
  (s.st u).pool.isSome ∧ (s.st u).buffer.isSome

/-- **C50, at most one pool**: whatever the constructors of all threads do, at most one pool is created per
element type. -/
theorem C50_at_most_one_pool {s : PoolMem U T} (h : PoolReach s) (u : U) : s.made u ≤ 1 :=
  (PoolInv.reach h).le u

/-- **C50, constructors return only after the pool is usable** (all but the converting one): a thread that has
left its constructor finds exactly one pool, which can be used. -/
theorem C50_returns_after_pool_partial {s : PoolMem U T} (h : PoolReach s) {t : T} {u : U}
    (ht : s.pc t = .done u) : s.made u = 1 ∧ Usable s u := by
  have I := PoolInv.reach h
  obtain ⟨h1, h2, h3⟩ := I.up u (I.done t u ht)
  exact ⟨h1, by simp [h2], h3⟩

/-- ... and so does every later use of an object that exists. -/
theorem C50_objects_have_pool_partial {s : PoolMem U T} (h : PoolReach s) {u : U}
    (ho : 0 < s.objs u) : s.made u = 1 ∧ Usable s u := by
  have I := PoolInv.reach h
  obtain ⟨h1, h2, h3⟩ := I.up u (I.obj u ho)
  exact ⟨h1, by simp [h2], h3⟩

/-- A pool once usable is never replaced. -/
theorem C50_pool_stays {s s' : PoolMem U T} (h : PoolReach s) (hs : PoolStep s s') {u : U}
    (hu : 2 ≤ (s.st u).initialized) : s'.st u = s.st u := by
  have I := PoolInv.reach h
  have key : ∀ {t : T} {v : U} {p : PoolPC U} {σ : PoolSt}, s.pc t = p → p.inside = some v →
      at1 s.st v σ u = s.st u := by
    intro t v p σ h1 h2
    rw [at1_other]
    rintro rfl
    have := I.busy t u (by rw [h1]; exact h2)
    omega
  cases hs <;> try rfl
  · rename_i t v n h1 h2
    show at1 s.st v _ u = _
    rw [at1_other]
    rintro rfl
    omega
  · rename_i h1; exact key h1 rfl
  · rename_i h1; exact key h1 rfl
  · rename_i h1; exact key h1 rfl

/-- Steps of one thread. (specification, no code) -/
inductive PoolRun : PoolMem U T → PoolMem U T → Prop where
  | refl {s} : PoolRun s s
  | step {s s' s''} : PoolStep s s' → PoolRun s' s'' → PoolRun s s''

theorem PoolRun.reach {s s' : PoolMem U T} (r : PoolRun s s') (h : PoolReach s) : PoolReach s' := by
  induction r with
  | refl => exact h
  | step hs _ ih => exact ih (h.step hs)

/-- A thread that calls the constructor alone, with a size that is not one, gets its pool. -/
theorem run_first {s : PoolMem U T} {t : T} {u : U} (n b : Nat) (hn : n ≠ 1)
    (ht : s.pc t = .out) (hu : s.st u = .zero) :
    ∃ s', PoolRun s s' ∧ s'.pc t = .done u ∧ s'.objs u = s.objs u + 1 ∧
      (∀ v, v ≠ u → s'.st v = s.st v ∧ s'.objs v = s.objs v) ∧ (∀ x, x ≠ t → s'.pc x = s.pc x) := by
  have h2 : 2 ≤ tempN n := by
    unfold tempN
    split
    · decide
    · omega
  have z : ((s.st u).initialized) = 0 := by rw [hu]; rfl
  refine ⟨_, .step (.call t u n (.inl ht)) (.step (.notReady (t := t) (u := u) (n := n) (by simp) (by simp [z]))
    (.step (.zero (t := t) (u := u) (n := n) (by simp) (by simp [z]))
    (.step (.casOk (t := t) (u := u) (n := n) (by simp) (by simp [z]))
    (.step (.allocOk (t := t) (u := u) (n := n) b (by simp))
    (.step (.mk (t := t) (u := u) (n := n) (by simp))
    (.step (.store (t := t) (u := u) (n := n) (by simp))
    (.step (.leave (t := t) (u := u) (n := n) (by simp) (by simpa using h2)) .refl))))))), ?_, ?_, ?_, ?_⟩
  · simp
  · simp
  · intro v hv
    simp [at1_other _ _ hv]
  · intro x hx
    simp [at1_other _ _ hx]

/-- Not vacuous: a thread that has returned from the constructor of the pool for type 0, two threads, two
types. -/
theorem C50_not_vacuous : ∃ s : PoolMem Nat Nat, PoolReach s ∧ s.pc 0 = .done 0 ∧ 0 < s.objs 0 ∧
    (s.st 1) = .zero ∧ s.pc 1 = .out := by
  obtain ⟨s, hr, h1, h2, h3, h4⟩ := run_first (U := Nat) (T := Nat) (s := .init) (t := 0) (u := 0) 0 77
    (by decide) rfl rfl
  exact ⟨s, hr.reach .init, h1, by rw [h2]; decide, (h3 1 (by decide)).1, h4 1 (by decide)⟩

/-- **C50 is false for the converting constructor**: an allocator object made from one for another element
type exists - and its constructor has returned - although no pool exists for its type; `allocate` on it goes
through a null pointer. -/
theorem C50_converting_constructor_has_no_pool : ∃ s : PoolMem Nat Nat, PoolReachC s ∧
    s.pc 1 = .done 1 ∧ 0 < s.objs 1 ∧ s.made 1 = 0 ∧ ¬ Usable s 1 := by
  obtain ⟨s, hr, -, h2, h3, h4⟩ := C50_not_vacuous
  have sub : ∀ {s : PoolMem Nat Nat}, PoolReach s → PoolReachC s := by
    intro s h
    induction h with
    | init => exact .init
    | step _ hs ih => exact ih.step hs
  have hc := sub hr
  refine ⟨_, hc.conv (.conv 1 0 1 (.inl h4) h2), by simp, by simp, ?_, ?_⟩
  · exact (PoolInv.reach hr).start 1 (by rw [h3]; rfl)
  · simp [Usable, h3, PoolSt.zero]

/-- Every constructor can finish once the pool of its type exists: within four steps of its own thread,
whatever the others do (their steps do not change these states, `C50_pool_stays`). -/
theorem C50_constructor_finishes {s : PoolMem U T} {t : T} {u : U}
    (hu : 2 ≤ (s.st u).initialized)
    (ht : (∃ n, s.pc t = .load u n) ∨ (∃ n, s.pc t = .load2 u n) ∨ (∃ n, s.pc t = .cas u n) ∨
      (∃ n, s.pc t = .spin u n)) :
    ∃ s', PoolRun s s' ∧ s'.pc t = .done u := by
  have fin : ∀ (p : T → PoolPC U) (n : Nat), p t = .spin u n →
      ∃ s', PoolRun { s with pc := p } s' ∧ s'.pc t = .done u := by
    intro p n h
    exact ⟨_, .step (.leave (t := t) (u := u) (n := n) h hu) .refl, by simp⟩
  rcases ht with ⟨n, h⟩ | ⟨n, h⟩ | ⟨n, h⟩ | ⟨n, h⟩
  · exact ⟨_, .step (.ready h hu) .refl, by simp⟩
  · obtain ⟨s', h1, h2⟩ := fin (at1 s.pc t (.spin u n)) n (by simp)
    exact ⟨s', .step (.nonzero h (by omega)) h1, h2⟩
  · obtain ⟨s', h1, h2⟩ := fin (at1 s.pc t (.spin u n)) n (by simp)
    exact ⟨s', .step (.casFail h (by omega)) h1, h2⟩
  · exact fin s.pc n h

/-- The pool of `u` is dead: `initialized` is one and nobody is making the pool. (specification, no code) -/
def Dead (s : PoolMem U T) (u : U) : Prop :=
  (s.st u).initialized = 1 ∧ (∀ t, (s.pc t).inside ≠ some u) ∧ (∀ t, s.pc t ≠ .done u) ∧ s.objs u = 0

theorem Dead.step {s s' : PoolMem U T} {u : U} (d : Dead s u) (h : PoolStep s s') : Dead s' u := by
  obtain ⟨d1, d2, d3, d4⟩ := d
  have mv : ∀ (t : T) (p : PoolPC U) (σ : U → PoolSt) (m : U → Nat) (o : U → Nat), p.inside ≠ some u →
      p ≠ .done u → σ u = s.st u → o u = s.objs u → Dead ⟨σ, m, at1 s.pc t p, o⟩ u := by
    intro t p σ m o hp hd hσ ho
    refine ⟨by simp only [hσ]; exact d1, fun x => ?_, fun x => ?_, by simp only [ho]; exact d4⟩
    · by_cases hx : x = t
      · subst hx; simpa using hp
      · simpa [at1_other _ _ hx] using d2 x
    · by_cases hx : x = t
      · subst hx; simpa using hd
      · simpa [at1_other _ _ hx] using d3 x
  have oth : ∀ {t : T} {v : U} {p : PoolPC U}, s.pc t = p → p.inside = some v → u ≠ v := by
    rintro t v p h1 h2 rfl
    exact d2 t (by rw [h1]; exact h2)
  have low : ∀ {v : U}, 2 ≤ (s.st v).initialized → u ≠ v := by
    rintro v h1 rfl
    omega
  cases h with
  | call t v n h => exact mv _ _ _ _ _ (by simp [PoolPC.inside]) (by simp) rfl rfl
  | @ready t v n h h2 =>
    have hne := low h2
    exact mv _ _ _ _ _ (by simp [PoolPC.inside]) (by simpa using fun e => hne e.symm) rfl (at1_other _ _ hne)
  | notReady h h2 => exact mv _ _ _ _ _ (by simp [PoolPC.inside]) (by simp) rfl rfl
  | zero h h2 => exact mv _ _ _ _ _ (by simp [PoolPC.inside]) (by simp) rfl rfl
  | nonzero h h2 => exact mv _ _ _ _ _ (by simp [PoolPC.inside]) (by simp) rfl rfl
  | @casOk t v n h h2 =>
    have hne : u ≠ v := by rintro rfl; omega
    exact mv _ _ _ _ _ (by simpa [PoolPC.inside] using fun e => hne e.symm) (by simp) (at1_other _ _ hne) rfl
  | casFail h h2 => exact mv _ _ _ _ _ (by simp [PoolPC.inside]) (by simp) rfl rfl
  | @allocOk t v n b h =>
    have hne := oth h rfl
    exact mv _ _ _ _ _ (by simpa [PoolPC.inside] using fun e => hne e.symm) (by simp) (at1_other _ _ hne) rfl
  | allocFail h => exact mv _ _ _ _ _ (by simp [PoolPC.inside]) (by simp) rfl rfl
  | @mk t v n h =>
    have hne := oth h rfl
    exact mv _ _ _ _ _ (by simpa [PoolPC.inside] using fun e => hne e.symm) (by simp) (at1_other _ _ hne) rfl
  | @store t v n h =>
    have hne := oth h rfl
    exact mv _ _ _ _ _ (by simp [PoolPC.inside]) (by simp) (at1_other _ _ hne) rfl
  | spin h h2 => exact ⟨d1, d2, d3, d4⟩
  | @leave t v n h h2 =>
    have hne := low h2
    exact mv _ _ _ _ _ (by simp [PoolPC.inside]) (by simpa using fun e => hne e.symm) rfl (at1_other _ _ hne)
  | copy t v h h2 =>
    have hne : u ≠ v := by rintro rfl; omega
    exact mv _ _ _ _ _ (by simp [PoolPC.inside]) (by simpa using fun e => hne e.symm) rfl (at1_other _ _ hne)

/-- **After a failed allocation no constructor of that type ever returns** (poolallocator.hpp 131: the
exception leaves `initialized` at one): in no later state, whatever the schedule, is a thread past it. -/
theorem C50_failed_allocation_hangs {s s' : PoolMem U T} (h : PoolReach s) {t : T} {u : U} {n : Nat}
    (ht : s.pc t = .alloc u n) (s1 : PoolMem U T)
    (hs1 : s1 = { s with pc := at1 s.pc t (.threw u) }) (r : PoolRun s1 s') :
    PoolStep s s1 ∧ ∀ x, s'.pc x ≠ .done u := by
  subst hs1
  refine ⟨.allocFail ht, ?_⟩
  have I := PoolInv.reach h
  have hi : (s.pc t).inside = some u := by rw [ht]; rfl
  have hb := I.busy t u hi
  have hd : Dead { s with pc := at1 s.pc t (.threw u) } u := by
    refine ⟨hb, fun x => ?_, fun x => ?_, ?_⟩
    · by_cases hx : x = t
      · subst hx; simp [PoolPC.inside]
      · simpa [at1_other _ _ hx] using I.sole hi x hx
    · by_cases hx : x = t
      · subst hx; simp
      · simp only [at1_other _ _ hx]
        intro e
        have := I.done x u e
        omega
    · show s.objs u = 0
      have := I.obj u
      omega
  have key : ∀ {a b : PoolMem U T}, PoolRun a b → Dead a u → Dead b u := by
    intro a b r
    induction r with
    | refl => exact id
    | step hs _ ih => exact fun d => ih (d.step hs)
  exact (key r hd).2.2.1

/-- Not vacuous: such a state is reached. -/
theorem C50_failed_allocation_occurs : ∃ s : PoolMem Nat Nat, PoolReach s ∧ s.pc 0 = .alloc 0 0 :=
  ⟨_, .step (.step (.step (.step .init (.call 0 0 0 (.inl rfl)))
    (.notReady (t := 0) (u := 0) (n := 0) (by simp) (by decide)))
    (.zero (t := 0) (u := 0) (n := 0) (by simp) (by rfl)))
    (.casOk (t := 0) (u := 0) (n := 0) (by simp) (by rfl)), by simp⟩

/-- **A pool of size one hangs its own constructor**: `initialized` is set to the size of the pool (line 135),
and the constructor waits for a value of at least two (line 149). -/
theorem C50_size_one_hangs {s s' : PoolMem U T} (h : PoolReach s) {t : T} {u : U}
    (ht : s.pc t = .store u 1) (s1 : PoolMem U T) (hs : PoolStep s s1)
    (hs1 : s1.pc t = .spin u 1) (r : PoolRun s1 s') : ∀ x, s'.pc x ≠ .done u := by
  have I := PoolInv.reach h
  have hi : (s.pc t).inside = some u := by rw [ht]; rfl
  have hb := I.busy t u hi
  have I1 := I.step hs
  have hini : (s1.st u).initialized = 1 ∧ (∀ x, (s1.pc x).inside ≠ some u) := by
    have key : ∀ (x : T) (p : PoolPC U), at1 s.pc x p t = .spin u 1 → x ≠ t → False := by
      intro x p h1 h2
      rw [at1_other _ _ (Ne.symm h2), ht] at h1
      cases h1
    cases hs with
    | @store x v n hx =>
      by_cases hxt : x = t
      · subst hxt
        rw [ht] at hx
        cases hx
        refine ⟨by simp [tempN], fun y => ?_⟩
        by_cases hy : y = x
        · subst hy; simp [PoolPC.inside]
        · simpa [at1_other _ _ hy] using I.sole hi y hy
      · exact (key _ _ hs1 hxt).elim
    | spin h h2 => rw [ht] at hs1; cases hs1
    | @call x v n hx =>
      by_cases hxt : x = t
      · subst hxt; simp at hs1
      · exact (key _ _ hs1 hxt).elim
    | @copy x v hx h2 =>
      by_cases hxt : x = t
      · subst hxt; simp at hs1
      · exact (key _ _ hs1 hxt).elim
    | @allocOk x v n b hx =>
      by_cases hxt : x = t
      · subst hxt; simp at hs1
      · exact (key _ _ hs1 hxt).elim
    | @nonzero x v n hx _ | @casFail x v n hx _ | @ready x v n hx _ | @notReady x v n hx _
    | @zero x v n hx _ | @casOk x v n hx _ | @leave x v n hx _ | @allocFail x v n hx | @mk x v n hx =>
      by_cases hxt : x = t
      · subst hxt; rw [ht] at hx; cases hx
      · exact (key _ _ hs1 hxt).elim
  have hd : Dead s1 u := by
    refine ⟨hini.1, hini.2, fun x e => ?_, ?_⟩
    · have := I1.done x u e
      omega
    · have := I1.obj u
      omega
  have key : ∀ {a b : PoolMem U T}, PoolRun a b → Dead a u → Dead b u := by
    intro a b r
    induction r with
    | refl => exact id
    | step hs _ ih => exact fun d => ih (d.step hs)
  exact (key r hd).2.2.1

/-- Not vacuous. -/
theorem C50_size_one_occurs : ∃ s s1 : PoolMem Nat Nat, PoolReach s ∧ s.pc 0 = .store 0 1 ∧
    PoolStep s s1 ∧ s1.pc 0 = .spin 0 1 :=
  ⟨_, _, .step (.step (.step (.step (.step (.step .init (.call 0 0 1 (.inl rfl)))
    (.notReady (t := 0) (u := 0) (n := 1) (by simp) (by decide)))
    (.zero (t := 0) (u := 0) (n := 1) (by simp) (by rfl)))
    (.casOk (t := 0) (u := 0) (n := 1) (by simp) (by rfl)))
    (.allocOk (t := 0) (u := 0) (n := 1) 77 (by simp)))
    (.mk (t := 0) (u := 0) (n := 1) (by simp)), by simp,
    .store (t := 0) (u := 0) (n := 1) (by simp), by simp⟩

end Growt
