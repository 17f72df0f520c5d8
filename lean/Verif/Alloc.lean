/-
The allocators: `GenericAlignedAllocator` (allocator/alignedallocator.hpp) and the shared pool of
`BasePoolAllocator` (allocator/poolallocator.hpp).

`size_t` is a number below `2^64` and every product of two `size_t` is reduced modulo `2^64`, as the C++
standard prescribes.  The pool is a piece of state shared by all threads, one per element type (the four
static members, poolallocator.hpp 74-79, belong to the instantiation of the template), and the constructors
of any number of threads run interleaved, one atomic access of `initialized` at a time.
`tbb::fixed_pool` itself is a library: only its creation is recorded.
-/
import Verif.Mapper

set_option linter.unusedSectionVars false

namespace Growt

/-- `size_t` arithmetic is modulo this number (x86-64; no line, language rule). (no code) -/
def sizeMod : Nat := 2 ^ 64

/-- Outcome of an allocation: an exception, or a request of that many bytes passed to the system.
(`alignedallocator.hpp:59-65`, `poolallocator.hpp:160-166`) -/
inductive AllocOut where
  | throws
  | request (bytes : Nat)
deriving DecidableEq, Repr

/-- `GenericAlignedAllocator::max_size`, alignedallocator.hpp 83: `size_t(-1) / sizeof(T)`. -/
def alignedMax (sz : Nat) : Nat := (sizeMod - 1) / sz

/-- `GenericAlignedAllocator::allocate`, alignedallocator.hpp 59-65; `sz` is `sizeof(T)`, `n` the number of
objects.  The product is computed in `size_t`. -/
def alignedAllocate (sz n : Nat) : AllocOut :=
  if n > alignedMax sz then .throws else .request (n * sz % sizeMod)

/-- `GROWT_MEMPOOL_SIZE`, poolallocator.hpp 37: two GiB (the default; a configuration file can change it). -/
def defaultPoolSize : Nat := 1024 * 1024 * 1024 * 2

/-- `BasePoolAllocator::max_size`, poolallocator.hpp 184-187. -/
def poolMax (sz : Nat) : Nat := defaultPoolSize / sz

/-- `BasePoolAllocator::allocate`, poolallocator.hpp 160-166 (the request goes to `pool->malloc`). -/
def poolAllocate (sz n : Nat) : AllocOut :=
  if n > poolMax sz then .throws else .request (n * sz % sizeMod)

/-- The part of the statics of one instantiation, poolallocator.hpp 74-79: `initialized`; `pool`, here the
number of the pool object it points to, `none` for the null pointer.  `buffer` is `pool_buffer`. -/
structure PoolSt where
  initialized : Nat
  pool : Option Nat
  buffer : Option Nat
deriving DecidableEq, Repr

/-- Initial values, poolallocator.hpp 229-236. -/
def PoolSt.zero : PoolSt := ⟨0, none, none⟩

/-- Where a thread is in a constructor of the allocator for element type `u`, called with size `n` (`poolallocator.hpp`):
`load` before line 145; `load2` before line 125; `cas` before line 128; `alloc` before line 131;
`mk` before line 134; `store` before line 135; `spin` before line 149; `done` after the constructor;
`threw`: `AS().alloc` has thrown (lines 46-50 and 61-66). -/
inductive PoolPC (U : Type) where
  | out
  | load (u : U) (n : Nat)
  | load2 (u : U) (n : Nat)
  | cas (u : U) (n : Nat)
  | alloc (u : U) (n : Nat)
  | mk (u : U) (n : Nat)
  | store (u : U) (n : Nat)
  | spin (u : U) (n : Nat)
  | done (u : U)
  | threw (u : U)

/-- The statics of all instantiations, the number of pools created so far for each, the threads.
(`poolallocator.hpp:74-79`) -/
structure PoolMem (U T : Type) where
  st : U → PoolSt
  made : U → Nat
  pc : T → PoolPC U
  /-- the allocator objects that exist, by element type (ghost) -/
  objs : U → Nat

variable {U T : Type} [DecidableEq U] [DecidableEq T]

/-- Update of a function at one point (model bookkeeping, no code). -/
def at1 {X Y : Type} [DecidableEq X] (f : X → Y) (x : X) (y : Y) : X → Y :=
  fun z => if z = x then y else f z

@[simp] theorem at1_same {X Y : Type} [DecidableEq X] (f : X → Y) (x : X) (y : Y) : at1 f x y x = y := by
  simp [at1]

theorem at1_other {X Y : Type} [DecidableEq X] (f : X → Y) {x z : X} (y : Y) (h : z ≠ x) :
    at1 f x y z = f z := by simp [at1, h]

/-- `tempN`, poolallocator.hpp 130. -/
def tempN (n : Nat) : Nat := if n = 0 then defaultPoolSize else n

/-- One atomic action of one thread in a constructor, poolallocator.hpp 123-156.

`reset` (112-120) is not modelled: it may only be called when no allocator is used any more. -/
inductive PoolStep : PoolMem U T → PoolMem U T → Prop where
  /-- a thread calls `BasePoolAllocator(size_t n)`, line 143 -/
  | call {s} (t : T) (u : U) (n : Nat) : (s.pc t = .out ∨ (∃ w, s.pc t = .done w)) →
      PoolStep s { s with pc := at1 s.pc t (.load u n) }
  /-- line 145 and 147: the pool exists -/
  | ready {s t u n} : s.pc t = .load u n → 2 ≤ (s.st u).initialized →
      PoolStep s { s with pc := at1 s.pc t (.done u), objs := at1 s.objs u (s.objs u + 1) }
  /-- line 145 and 148 -/
  | notReady {s t u n} : s.pc t = .load u n → (s.st u).initialized < 2 →
      PoolStep s { s with pc := at1 s.pc t (.load2 u n) }
  /-- line 125, zero -/
  | zero {s t u n} : s.pc t = .load2 u n → (s.st u).initialized = 0 →
      PoolStep s { s with pc := at1 s.pc t (.cas u n) }
  /-- line 125, not zero -/
  | nonzero {s t u n} : s.pc t = .load2 u n → (s.st u).initialized ≠ 0 →
      PoolStep s { s with pc := at1 s.pc t (.spin u n) }
  /-- line 128, the exchange succeeds -/
  | casOk {s t u n} : s.pc t = .cas u n → (s.st u).initialized = 0 →
      PoolStep s { s with
        st := at1 s.st u ⟨1, (s.st u).pool, (s.st u).buffer⟩,
        pc := at1 s.pc t (.alloc u n) }
  /-- line 128, the exchange fails -/
  | casFail {s t u n} : s.pc t = .cas u n → (s.st u).initialized ≠ 0 →
      PoolStep s { s with pc := at1 s.pc t (.spin u n) }
  /-- line 131, `AS().alloc` returns a buffer (line 132 is then true: `Malloc::alloc` and
  `HugePageAlloc::alloc` never return a null pointer) -/
  | allocOk {s t u n} (b : Nat) : s.pc t = .alloc u n →
      PoolStep s { s with
        st := at1 s.st u ⟨(s.st u).initialized, (s.st u).pool, some b⟩,
        pc := at1 s.pc t (.mk u n) }
  /-- line 131, `AS().alloc` throws (lines 48 and 66) -/
  | allocFail {s t u n} : s.pc t = .alloc u n →
      PoolStep s { s with pc := at1 s.pc t (.threw u) }
  /-- line 134 -/
  | mk {s t u n} : s.pc t = .mk u n →
      PoolStep s { s with
        st := at1 s.st u ⟨(s.st u).initialized, some (s.made u), (s.st u).buffer⟩,
        made := at1 s.made u (s.made u + 1),
        pc := at1 s.pc t (.store u n) }
  /-- line 135 (and 136) -/
  | store {s t u n} : s.pc t = .store u n →
      PoolStep s { s with
        st := at1 s.st u ⟨tempN n, (s.st u).pool, (s.st u).buffer⟩,
        pc := at1 s.pc t (.spin u n) }
  /-- line 149, once more -/
  | spin {s t u n} : s.pc t = .spin u n → (s.st u).initialized < 2 → PoolStep s s
  /-- line 149, end of the constructor -/
  | leave {s t u n} : s.pc t = .spin u n → 2 ≤ (s.st u).initialized →
      PoolStep s { s with pc := at1 s.pc t (.done u), objs := at1 s.objs u (s.objs u + 1) }
  /-- the copy constructor, line 152: there is an object to copy -/
  | copy {s} (t : T) (u : U) : (s.pc t = .out ∨ (∃ w, s.pc t = .done w)) → 0 < s.objs u →
      PoolStep s { s with pc := at1 s.pc t (.done u), objs := at1 s.objs u (s.objs u + 1) }

/-- The converting constructor `BasePoolAllocator(const BasePoolAllocator<U>&) noexcept {}`, `poolallocator.hpp:153-154`:
an object for the element type `v` is made from an object for the type `u`; its body is empty. -/
inductive PoolConv : PoolMem U T → PoolMem U T → Prop where
  | conv {s} (t : T) (u v : U) : (s.pc t = .out ∨ (∃ w, s.pc t = .done w)) → 0 < s.objs u →
      PoolConv s { s with pc := at1 s.pc t (.done v), objs := at1 s.objs v (s.objs v + 1) }

/-- Before the program: the values of `poolallocator.hpp:229-236`. -/
def PoolMem.init : PoolMem U T := ⟨fun _ => .zero, fun _ => 0, fun _ => .out, fun _ => 0⟩

/-- States reached by constructors, without the converting one. (`poolallocator.hpp:123-156`) -/
inductive PoolReach : PoolMem U T → Prop where
  | init : PoolReach .init
  | step {s s'} : PoolReach s → PoolStep s s' → PoolReach s'

/-- States reached by all constructors. (`poolallocator.hpp:123-156`) -/
inductive PoolReachC : PoolMem U T → Prop where
  | init : PoolReachC .init
  | step {s s'} : PoolReachC s → PoolStep s s' → PoolReachC s'
  | conv {s s'} : PoolReachC s → PoolConv s s' → PoolReachC s'

/-- The thread is in the part of `init` that only the winner of `poolallocator.hpp:128` executes. -/
def PoolPC.inside : PoolPC U → Option U
  | .alloc u _ => some u
  | .mk u _ => some u
  | .store u _ => some u
  | _ => none

/-- What holds of the statics of one type while its pool is made. (proof, no code) -/
structure PoolInv (s : PoolMem U T) : Prop where
  one : ∀ t t' u, (s.pc t).inside = some u → (s.pc t').inside = some u → t = t'
  busy : ∀ t u, (s.pc t).inside = some u → (s.st u).initialized = 1
  start : ∀ u, (s.st u).initialized = 0 → s.made u = 0
  alloc : ∀ t u n, s.pc t = .alloc u n → s.made u = 0
  mkd : ∀ t u n, s.pc t = .mk u n → s.made u = 0 ∧ (s.st u).buffer.isSome
  store : ∀ t u n, s.pc t = .store u n → s.made u = 1 ∧ (s.st u).pool = some 0 ∧ (s.st u).buffer.isSome
  up : ∀ u, 2 ≤ (s.st u).initialized → s.made u = 1 ∧ (s.st u).pool = some 0 ∧ (s.st u).buffer.isSome
  le : ∀ u, s.made u ≤ 1
  obj : ∀ u, 0 < s.objs u → 2 ≤ (s.st u).initialized
  done : ∀ t u, s.pc t = .done u → 2 ≤ (s.st u).initialized

theorem PoolInv.init : PoolInv (PoolMem.init : PoolMem U T) := by
  constructor <;> simp [PoolMem.init, PoolPC.inside, PoolSt.zero]

/-- A step of thread `t` that changes only its place, and perhaps creates an object. -/
theorem PoolInv.move {s : PoolMem U T} (I : PoolInv s) {t : T} {p : PoolPC U} {ob : U → Nat}
    (hp : p.inside = none) (hd : ∀ u, p = .done u → 2 ≤ (s.st u).initialized)
    (ho : ∀ u, 0 < ob u → 2 ≤ (s.st u).initialized) :
    PoolInv { s with pc := at1 s.pc t p, objs := ob } := by
  have key : ∀ x u, ((at1 s.pc t p) x).inside = some u → x ≠ t ∧ (s.pc x).inside = some u := by
    intro x u h
    by_cases hx : x = t
    · subst hx; rw [at1_same, hp] at h; cases h
    · rw [at1_other _ _ hx] at h; exact ⟨hx, h⟩
  have back : ∀ x q, (at1 s.pc t p) x = q → q.inside ≠ none → s.pc x = q := by
    intro x q h hq
    by_cases hx : x = t
    · subst hx; rw [at1_same] at h; rw [← h, hp] at hq; exact absurd rfl hq
    · rwa [at1_other _ _ hx] at h
  refine ⟨fun x x' u h h' => I.one x x' u (key x u h).2 (key x' u h').2, fun x u h => I.busy x u (key x u h).2,
    I.start, fun x u n h => I.alloc x u n (back x _ h (by simp [PoolPC.inside])),
    fun x u n h => I.mkd x u n (back x _ h (by simp [PoolPC.inside])),
    fun x u n h => I.store x u n (back x _ h (by simp [PoolPC.inside])), I.up, I.le, ho, ?_⟩
  intro x u h
  by_cases hx : x = t
  · subst hx; simp only [at1_same] at h; exact hd u h
  · simp only [at1_other _ _ hx] at h; exact I.done x u h

/-- The facts a step of the winner has to establish anew. -/
theorem PoolInv.win {s : PoolMem U T} (I : PoolInv s) {t : T} {u : U} {p : PoolPC U} {σ : PoolSt} {m : Nat}
    (hsole : ∀ x, x ≠ t → (s.pc x).inside ≠ some u)
    (hlow : (s.st u).initialized < 2)
    (hin : p.inside = some u ∨ p.inside = none)
    (hbusy : p.inside = some u → σ.initialized = 1)
    (hstart : σ.initialized = 0 → m = 0)
    (halloc : ∀ n, p = .alloc u n → m = 0)
    (hmk : ∀ n, p = .mk u n → m = 0 ∧ σ.buffer.isSome)
    (hstore : ∀ n, p = .store u n → m = 1 ∧ σ.pool = some 0 ∧ σ.buffer.isSome)
    (hup : 2 ≤ σ.initialized → m = 1 ∧ σ.pool = some 0 ∧ σ.buffer.isSome)
    (hle : m ≤ 1) (hnd : ∀ w, p ≠ .done w) :
    PoolInv { s with st := at1 s.st u σ, made := at1 s.made u m, pc := at1 s.pc t p } := by
  have key : ∀ x v, ((at1 s.pc t p) x).inside = some v →
      (x = t ∧ v = u ∧ p.inside = some u) ∨ (x ≠ t ∧ v ≠ u ∧ (s.pc x).inside = some v) := by
    intro x v h
    by_cases hx : x = t
    · subst hx
      rw [at1_same] at h
      rcases hin with hin | hin
      · rw [hin] at h
        cases h
        exact .inl ⟨rfl, rfl, hin⟩
      · rw [hin] at h; cases h
    · rw [at1_other _ _ hx] at h
      refine .inr ⟨hx, ?_, h⟩
      rintro rfl
      exact hsole x hx h
  have other : ∀ x v q, (at1 s.pc t p) x = q → q.inside = some v →
      (x = t ∧ v = u ∧ p = q) ∨ (v ≠ u ∧ s.pc x = q) := by
    intro x v q h hq
    have := key x v (by rw [h]; exact hq)
    rcases this with ⟨rfl, hv, -⟩ | ⟨hx, hv, -⟩
    · rw [at1_same] at h
      exact .inl ⟨rfl, hv, h⟩
    · rw [at1_other _ _ hx] at h
      exact .inr ⟨hv, h⟩
  refine ⟨?_, ?_, ?_, ?_, ?_, ?_, ?_, ?_, ?_, ?_⟩
  · intro x x' v h h'
    rcases key x v h with ⟨rfl, rfl, -⟩ | ⟨-, hv, hi⟩ <;> rcases key x' v h' with ⟨rfl, e, -⟩ | ⟨-, hv', hi'⟩
    · rfl
    · exact absurd rfl hv'
    · exact absurd e hv
    · exact I.one x x' v hi hi'
  · intro x v h
    rcases key x v h with ⟨rfl, rfl, hpi⟩ | ⟨-, hv, hi⟩
    · simpa using hbusy hpi
    · simpa [at1_other _ _ hv] using I.busy x v hi
  · intro v h
    by_cases hv : v = u
    · subst hv; simp only [at1_same] at h ⊢; exact hstart h
    · simp only [at1_other _ _ hv] at h ⊢; exact I.start v h
  · intro x v n h
    rcases other x v _ h rfl with ⟨rfl, rfl, hq⟩ | ⟨hv, hq⟩
    · simpa using halloc n hq
    · simpa [at1_other _ _ hv] using I.alloc x v n hq
  · intro x v n h
    rcases other x v _ h rfl with ⟨rfl, rfl, hq⟩ | ⟨hv, hq⟩
    · simpa using hmk n hq
    · simpa [at1_other _ _ hv] using I.mkd x v n hq
  · intro x v n h
    rcases other x v _ h rfl with ⟨rfl, rfl, hq⟩ | ⟨hv, hq⟩
    · simpa using hstore n hq
    · simpa [at1_other _ _ hv] using I.store x v n hq
  · intro v h
    by_cases hv : v = u
    · subst hv; simp only [at1_same] at h ⊢; exact hup h
    · simp only [at1_other _ _ hv] at h ⊢; exact I.up v h
  · intro v
    by_cases hv : v = u
    · subst hv; simpa using hle
    · simpa [at1_other _ _ hv] using I.le v
  · intro v h
    by_cases hv : v = u
    · subst hv
      have := I.obj v h
      omega
    · simpa [at1_other _ _ hv] using I.obj v h
  · intro x v h
    by_cases hx : x = t
    · subst hx; simp only [at1_same] at h; exact absurd h (hnd v)
    · simp only [at1_other _ _ hx] at h
      have h2 := I.done x v h
      by_cases hv : v = u
      · subst hv; omega
      · simpa [at1_other _ _ hv] using h2

theorem PoolInv.sole {s : PoolMem U T} (I : PoolInv s) {t : T} {u : U} (h : (s.pc t).inside = some u) :
    ∀ x, x ≠ t → (s.pc x).inside ≠ some u := fun x hx hx' => hx (I.one x t u hx' h)

/-- The invariant is kept by every step. -/
theorem PoolInv.step {s s' : PoolMem U T} (I : PoolInv s) (h : PoolStep s s') : PoolInv s' := by
  have up1 : ∀ {u : U} (_ : 2 ≤ (s.st u).initialized) (v : U), 0 < at1 s.objs u (s.objs u + 1) v →
      2 ≤ (s.st v).initialized := by
    intro u hu v hv
    by_cases h : v = u
    · subst h; exact hu
    · rw [at1_other _ _ h] at hv; exact I.obj v hv
  cases h with
  | call t u n h => exact I.move rfl (fun _ e => by cases e) I.obj
  | ready h h2 => exact I.move rfl (fun w e => by cases e; exact h2) (up1 h2)
  | notReady h h2 => exact I.move rfl (fun _ e => by cases e) I.obj
  | zero h h2 => exact I.move rfl (fun _ e => by cases e) I.obj
  | nonzero h h2 => exact I.move rfl (fun _ e => by cases e) I.obj
  | @casOk t u n h h2 =>
    have hm := I.start u h2
    have e : (at1 s.made u 0) = s.made := by
      funext v
      by_cases hv : v = u
      · subst hv; simp [hm]
      · simp [at1_other _ _ hv]
    have := I.win (t := t) (u := u) (p := .alloc u n) (σ := ⟨1, (s.st u).pool, (s.st u).buffer⟩) (m := 0)
      (fun x _ hx => by have := I.busy x u hx; omega) (by omega) (.inl rfl) (fun _ => rfl) (fun h => by cases h)
      (fun _ _ => rfl) (fun _ h => by cases h) (fun _ h => by cases h) (fun h => by simp at h) (by omega)
      (fun _ h => by cases h)
    rwa [e] at this
  | casFail h h2 => exact I.move rfl (fun _ e => by cases e) I.obj
  | @allocOk t u n b h =>
    have hi : (s.pc t).inside = some u := by rw [h]; rfl
    have hb := I.busy t u hi
    have hm := I.alloc t u n h
    have e : (at1 s.made u 0) = s.made := by
      funext v
      by_cases hv : v = u
      · subst hv; simp [hm]
      · simp [at1_other _ _ hv]
    have := I.win (t := t) (u := u) (p := .mk u n) (σ := ⟨(s.st u).initialized, (s.st u).pool, some b⟩) (m := 0)
      (I.sole hi) (by omega) (.inl rfl) (fun _ => hb) (fun h => by simp [hb] at h)
      (fun _ h => by cases h) (fun _ _ => ⟨rfl, rfl⟩) (fun _ h => by cases h) (fun h => by simp [hb] at h) (by omega)
      (fun _ h => by cases h)
    rwa [e] at this
  | allocFail h => exact I.move rfl (fun _ e => by cases e) I.obj
  | @mk t u n h =>
    have hi : (s.pc t).inside = some u := by rw [h]; rfl
    have hb := I.busy t u hi
    obtain ⟨hm, hbuf⟩ := I.mkd t u n h
    exact I.win (t := t) (u := u) (p := .store u n)
      (σ := ⟨(s.st u).initialized, some (s.made u), (s.st u).buffer⟩) (m := s.made u + 1)
      (I.sole hi) (by omega) (.inl rfl) (fun _ => hb) (fun h => by simp [hb] at h)
      (fun _ h => by cases h) (fun _ h => by cases h) (fun _ _ => by simp [hm, hbuf]) (fun h => by simp [hb] at h)
      (by omega) (fun _ h => by cases h)
  | @store t u n h =>
    have hi : (s.pc t).inside = some u := by rw [h]; rfl
    have hb := I.busy t u hi
    obtain ⟨hm, hp, hbuf⟩ := I.store t u n h
    have e : (at1 s.made u 1) = s.made := by
      funext v
      by_cases hv : v = u
      · subst hv; simp [hm]
      · simp [at1_other _ _ hv]
    have hne : tempN n ≠ 0 := by
      unfold tempN
      split
      · decide
      · assumption
    have := I.win (t := t) (u := u) (p := .spin u n)
      (σ := ⟨tempN n, (s.st u).pool, (s.st u).buffer⟩) (m := 1)
      (I.sole hi) (by omega) (.inr rfl) (fun h => by cases h) (fun h => absurd h hne)
      (fun _ h => by cases h) (fun _ h => by cases h) (fun _ h => by cases h) (fun _ => ⟨rfl, hp, hbuf⟩)
      (by omega) (fun _ h => by cases h)
    rwa [e] at this
  | spin h h2 => exact I
  | leave h h2 => exact I.move rfl (fun w e => by cases e; exact h2) (up1 h2)
  | copy t u h h2 => exact I.move rfl (fun w e => by cases e; exact I.obj u h2) (up1 (I.obj u h2))

theorem PoolInv.reach {s : PoolMem U T} (h : PoolReach s) : PoolInv s := by
  induction h with
  | init => exact PoolInv.init
  | step _ hs ih => exact ih.step hs

end Growt
