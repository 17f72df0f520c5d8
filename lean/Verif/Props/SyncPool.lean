/-
C60: with synchronised growth and the thread pool, a new table becomes current only after the old one has
been migrated completely, no deleted table is accessed, and growing threads get done.

The code violates all three, also without spurious wake-ups.  With one handle they hold in executions in
which no sleeping thread is woken before its counter has changed.
-/
import Verif.SyncPoolInv
import Verif.SyncPoolMany

set_option linter.unusedSectionVars false

namespace Growt
namespace SyncPool

/-! ### What holds -/

/-- **C60, first half, partial**: one handle, nobody woken too early, any schedule.  Nothing undefined has
happened; if the table with version `v` is current - or has been deleted - then all tables before it - or it
itself - have been migrated completely; and a thread that has left `execute_migration` for the table `v`
finds `v` migrated. -/
theorem C60_published_after_migration_partial {blocks : Nat → Nat} {s : St} {l : List Act}
    (h0 : ∀ a ∈ l, a.handle = 0) (ht : TimelyRun blocks St.init l) (hr : run blocks St.init l = some s) :
    s.ub = false ∧
    (∀ v w, s.cur = .clear v ∨ s.cur = .mark v → w < v → ∀ k, k < blocks w → s.fin w k = true) ∧
    (∀ v, s.freed v = true → ∀ k, k < blocks v → s.fin v k = true) ∧
    (∀ v, s.user 0 = .gr10 v ∨ s.user 0 = .gr11 v ∨ (∃ n j, s.user 0 = .gr12 v n j) ∨ s.user 0 = .gr13 v ∨
      s.user 0 = .gr14 v → ∀ k, k < blocks v → s.fin v k = true) := by
  obtain ⟨⟨v, I⟩, -⟩ := JL.run (J.init blocks) L.init h0 ht hr
  refine ⟨I.def_, ?_, ?_, ?_⟩
  · intro v' w hc hw
    refine I.old w (Nat.lt_of_lt_of_le hw ?_)
    have hu := I.u
    have hp := I.p
    generalize s.user 0 = x at hu
    cases x <;> simp_all [UInv, Quiet, Begun]
  · intro w hf
    rcases Nat.lt_or_ge w v with h | h
    · exact I.old w h
    · rw [I.live w h] at hf; cases hf
  · intro w hw
    have hu := I.u
    rcases hw with h | h | ⟨n, j, h⟩ | h | h <;> rw [h] at hu
    · obtain ⟨-, -, h3, rfl, -⟩ := hu; exact I.now h3
    · obtain ⟨-, -, h3, rfl, -⟩ := hu; exact I.now h3
    · obtain ⟨-, -, h3, rfl, -⟩ := hu; exact I.now h3
    · obtain ⟨-, -, h3, rfl, -⟩ := hu; exact I.now h3
    · obtain ⟨-, rfl⟩ := hu; exact I.old w (by omega)

/-- At some time of the schedule the new table is published: `_table` is set to the successor of `v`.
(specification, no code) -/
def Publishes (blocks : Nat → Nat) (s : St) (v : Nat) (l : List Act) : Prop :=
  ∃ l1 l2 s1, l = l1 ++ l2 ∧ run blocks s l1 = some s1 ∧ s1.cur = .clear (v + 1)

/-- The thread has called `grow` for the table `v` (spec: the positions from `grow(v)` until the new table
is published). (specification, no code) -/
def Grows (v : Nat) (p : UPC) : Prop :=
  p = .gr1 v ∨ (∃ e, p = .gr2 v e) ∨ p = .gr3 v ∨ p = .gr6 v ∨ (∃ n j, p = .gr7 v n j) ∨ p = .gr8 v ∨ (∃ g, p = .ex1 g v) ∨
    (∃ g, p = .ex2 g v) ∨ (∃ g, p = .ex3 g v) ∨ (∃ g, p = .asleep g v) ∨ p = .gr10 v ∨ p = .gr11 v ∨
    (∃ n j, p = .gr12 v n j) ∨ p = .gr13 v

theorem Grows.growing {v : Nat} {p : UPC} (h : Grows v p) : growing v p = true := by
  rcases h with rfl | ⟨_, rfl⟩ | rfl | rfl | ⟨_, _, rfl⟩ | rfl | ⟨_, rfl⟩ | ⟨_, rfl⟩ | ⟨_, rfl⟩ | ⟨_, rfl⟩ | rfl | rfl |
    ⟨_, _, rfl⟩ | rfl <;> simp [SyncPool.growing]

theorem Grows.version {blocks : Nat → Nat} {s : St} {v w : Nat} (I : J blocks s w) (h : Grows v (s.user 0)) :
    w = v := (growing_version I h.growing).symm

theorem publishes {blocks : Nat → Nat} {s s' : St} {l : List Act} {v : Nat} (I : J blocks s v) (J0 : L s)
    (h0 : ∀ a ∈ l, a.handle = 0) (hg : growing v (s.user 0) = true) (ht : TimelyRun blocks s l)
    (hr : run blocks s l = some s') (hl : rank blocks v s < l.length) : Publishes blocks s v l := by
  induction l generalizing s with
  | nil => simp at hl
  | cons a l ih =>
    simp only [run] at hr
    cases ha : act blocks s a with
    | none => rw [ha] at hr; cases hr
    | some s1 =>
      rw [ha] at hr
      rcases closer I J0 (h0 a (by simp)) ht.1 hg ha with ⟨_, h⟩ | ⟨h1, h2⟩
      · exact ⟨[a], l, s1, rfl, by simp [run, ha], h⟩
      · obtain ⟨w, I1⟩ := I.act (h0 a (by simp)) ht.1 ha
        obtain rfl := growing_version I1 h1
        obtain ⟨l1, l2, s2, e, h3, h4⟩ := ih I1 (J0.act I (h0 a (by simp)) ha) (fun b hb => h0 b (by simp [hb])) h1
          (ht.2 s1 ha) hr (by simp at hl; omega)
        exact ⟨a :: l1, l2, s2, by simp [e], by simp [run, ha, h3], h4⟩

/-- **C60, second half, partial**: one handle, nobody woken too early.  From every state that is reached, a
thread that has called `grow` has published the new table after at most `19 * (2 * blocks + 15)` further
actions, however its steps and those of the pool thread are interleaved. -/
theorem C60_growth_ends_partial {blocks : Nat → Nat} {s s' : St} {l0 l : List Act} {v : Nat}
    (h0 : ∀ a ∈ l0 ++ l, a.handle = 0) (ht0 : TimelyRun blocks St.init l0)
    (hr0 : run blocks St.init l0 = some s) (hg : Grows v (s.user 0))
    (ht : TimelyRun blocks s l) (hr : run blocks s l = some s')
    (hl : 19 * (2 * blocks v + 15) < l.length) : Publishes blocks s v l := by
  obtain ⟨⟨w, I⟩, J0⟩ := JL.run (J.init blocks) L.init (fun a ha => h0 a (by simp [ha])) ht0 hr0
  obtain rfl := hg.version I
  have := rank_le blocks w s
  exact publishes I J0 (fun a ha => h0 a (by simp [ha])) hg.growing ht hr (by omega)

/-- ... and until then one of the two threads can take a step: no deadlock. -/
theorem C60_no_deadlock_partial {blocks : Nat → Nat} {s : St} {l : List Act} {v : Nat}
    (h0 : ∀ a ∈ l, a.handle = 0) (ht : TimelyRun blocks St.init l)
    (hr : run blocks St.init l = some s) (hg : Grows v (s.user 0)) :
    (∃ s', act blocks s (.user 0) = some s') ∨ (∃ s', act blocks s (.pool 0) = some s') := by
  obtain ⟨⟨w, I⟩, J0⟩ := JL.run (J.init blocks) L.init h0 ht hr
  obtain rfl := hg.version I
  exact enabled I J0 hg.growing

/-! ### Schedules that are computed -/

/-- `timely`, computed for the handles below `n`. (specification, no code) -/
def timelyb (n : Nat) (s : St) : Act → Bool
  | .spurU t => match s.user t with
    | .asleep _ v => s.uw != v
    | _ => true
  | .spurP t => match s.pool t with
    | .asleep e => s.gw != e
    | _ => true
  | .user t => (List.range n).all fun p => match s.pool p with
    | .asleep e => s.gw != e || s.stop p || (match s.user t with | .ex2 _ _ => false | .join => false | _ => true)
    | _ => true
  | .pool t => (List.range n).all fun u => match s.user u with
    | .asleep _ v => s.uw != v || (match s.pool t with | .wk _ _ => false | _ => true)
    | _ => true
  | _ => true

/-- Only handles below `n` have threads. (specification, no code) -/
def Below (n : Nat) (s : St) : Prop := ∀ t, n ≤ t → s.user t = .fresh ∧ s.pool t = .none

theorem Below.init (n : Nat) : Below n St.init := fun _ _ => ⟨rfl, rfl⟩

theorem timely_of {n : Nat} {s : St} (hb : Below n s) {a : Act} (h : timelyb n s a = true) : timely s a := by
  cases a with
  | create t => trivial
  | call t => trivial
  | exit t g => trivial
  | destroy t => trivial
  | spurU t =>
    intro g v hv
    simp only [timelyb, hv] at h
    simpa using h
  | spurP t =>
    intro e he
    simp only [timelyb, he] at h
    simpa using h
  | user t =>
    intro hu p e he
    rcases Nat.lt_or_ge p n with hp | hp
    · simp only [timelyb, List.all_eq_true] at h
      have := h p (by simpa using hp)
      simp only [he] at this
      rcases hu with ⟨g, v, hv⟩ | hv
      · simpa [hv] using this
      · simpa [hv] using this
    · rw [(hb p hp).2] at he; cases he
  | pool t =>
    intro hu u g v hv
    rcases Nat.lt_or_ge u n with hp | hp
    · simp only [timelyb, List.all_eq_true] at h
      have := h u (by simpa using hp)
      simp only [hv] at this
      obtain ⟨e, r, he⟩ := hu
      simpa [he] using this
    · rw [(hb u hp).1] at hv; cases hv

theorem Below.act {n : Nat} {blocks : Nat → Nat} {s s' : St} (hb : Below n s) {a : Act} (ha : a.handle < n)
    (h : act blocks s a = some s') : Below n s' := by
  intro t ht
  obtain ⟨h1, h2⟩ := hb t ht
  have hne : t ≠ a.handle := by omega
  unfold SyncPool.act at h
  split at h
  · cases h
  · cases a with
    | create u =>
      have hne : t ≠ u := hne
      dsimp only at h
      split at h
      · simp only [Option.some.injEq] at h; subst h; simp [put_other _ _ hne, h1, h2]
      · cases h
    | call u =>
      have hne : t ≠ u := hne
      dsimp only at h
      split at h
      · simp only [Option.some.injEq] at h; subst h; simp [St.u, put_other _ _ hne, h1, h2]
      · cases h
    | exit u g =>
      have hne : t ≠ u := hne
      dsimp only at h
      split at h
      · simp only [Option.some.injEq] at h; subst h; simp [St.u, put_other _ _ hne, h1, h2]
      · cases h
    | destroy u =>
      have hne : t ≠ u := hne
      dsimp only at h
      split at h
      · simp only [Option.some.injEq] at h; subst h; simp [St.u, put_other _ _ hne, h1, h2]
      · cases h
    | spurU u =>
      have hne : t ≠ u := hne
      dsimp only at h
      split at h
      · simp only [Option.some.injEq] at h; subst h; simp [St.u, put_other _ _ hne, h1, h2]
      · cases h
    | spurP u =>
      have hne : t ≠ u := hne
      dsimp only at h
      split at h
      · simp only [Option.some.injEq] at h; subst h; simp [St.p, put_other _ _ hne, h1, h2]
      · cases h
    | user u =>
      have hne : t ≠ u := hne
      dsimp only at h
      unfold userStep at h
      repeat' split at h
      all_goals first
        | (simp only [Option.some.injEq] at h; subst h; simp [St.u, put_other _ _ hne, h1, h2, wakeP]; done)
        | cases h
    | pool u =>
      have hne : t ≠ u := hne
      dsimp only at h
      unfold poolStep at h
      repeat' split at h
      all_goals first
        | (simp only [Option.some.injEq] at h; subst h; simp [St.p, put_other _ _ hne, h1, h2, wakeU]; done)
        | cases h

/-- A schedule of handles below `n` in which nobody is woken too early, computed. (specification, no code) -/
def runb (n : Nat) (blocks : Nat → Nat) (s : St) : List Act → Option St
  | [] => some s
  | a :: l =>
    if timelyb n s a && decide (a.handle < n) then (act blocks s a).bind fun s' => runb n blocks s' l else none

theorem runb_run {n : Nat} {blocks : Nat → Nat} {s s' : St} (hb : Below n s) {l : List Act}
    (h : runb n blocks s l = some s') :
    TimelyRun blocks s l ∧ run blocks s l = some s' ∧ Below n s' ∧ ∀ a ∈ l, a.handle < n := by
  induction l generalizing s with
  | nil =>
    simp only [runb, Option.some.injEq] at h
    subst h
    exact ⟨trivial, rfl, hb, by simp⟩
  | cons a l ih =>
    simp only [runb] at h
    split at h
    · rename_i ha
      simp only [Bool.and_eq_true, decide_eq_true_eq] at ha
      cases hc : SyncPool.act blocks s a with
      | none => rw [hc] at h; cases h
      | some s1 =>
        rw [hc] at h
        obtain ⟨h1, h2, h3, h4⟩ := ih (hb.act ha.2 hc) h
        refine ⟨⟨timely_of hb ha.1, fun s2 h3 => ?_⟩, by simp [run, hc, h2], h3, ?_⟩
        · rw [hc] at h3
          cases h3
          exact h1
        · intro b hb
          rcases List.mem_cons.mp hb with rfl | hb
          · exact ha.2
          · exact h4 b hb
    · cases h

/-- `n` steps of a user's thread, of a pool thread. (example, no code) -/
def us (t n : Nat) : List Act := List.replicate n (.user t)
/-- As above. (example, no code) -/
def ps (t n : Nat) : List Act := List.replicate n (.pool t)

/-- What a schedule computes, from what can be computed of it. -/
theorem some_of {X : Type} {o : Option X} {f : X → Bool} (h : o.map f = some true) :
    ∃ x, o = some x ∧ f x = true := by
  cases o with
  | none => cases h
  | some x => exact ⟨x, rfl, by simpa using h⟩

/-- The handle 0 is created, its pool thread falls asleep, the table grows until the user's thread sleeps.
(example, no code) -/
def grow0 : List Act :=
  [.create 0, .pool 0, .call 0] ++ us 0 3 ++ [.exit 0 true] ++ us 0 10

/-- ... and the growth ends. (example, no code) -/
def grown : List Act := grow0 ++ ps 0 10 ++ us 0 6 ++ ps 0 1

/-- Not vacuous: a thread that is growing the table and sleeps, with a table of three blocks. -/
theorem C60_not_vacuous : ∃ l s, (∀ a ∈ l, a.handle = 0) ∧ TimelyRun (fun _ => 3) St.init l ∧
    run (fun _ => 3) St.init l = some s ∧ Grows 0 (s.user 0) ∧ s.cur = .mark 0 := by
  obtain ⟨s, h1, h2⟩ := some_of (o := runb 1 (fun _ => 3) St.init grow0)
    (f := fun s => decide (s.user 0 = .asleep true 0) && decide (s.cur = .mark 0)) (by decide)
  obtain ⟨t1, r1, -, hh⟩ := runb_run (Below.init 1) h1
  simp only [Bool.and_eq_true, decide_eq_true_eq] at h2
  exact ⟨_, s, fun a ha => by have := hh a ha; omega, t1, r1, by simp [Grows, h2.1], h2.2⟩

/-- ... and one in which the table has grown and the old table has been deleted. -/
theorem C60_not_vacuous_grown : ∃ l s, (∀ a ∈ l, a.handle = 0) ∧ TimelyRun (fun _ => 1) St.init l ∧
    run (fun _ => 1) St.init l = some s ∧ s.cur = .clear 1 ∧ s.freed 0 = true ∧ s.fin 0 0 = true := by
  obtain ⟨s, h1, h2⟩ := some_of (o := runb 1 (fun _ => 1) St.init grown)
    (f := fun s => decide (s.cur = .clear 1) && s.freed 0 && s.fin 0 0) (by decide)
  obtain ⟨t1, r1, -, hh⟩ := runb_run (Below.init 1) h1
  simp only [Bool.and_eq_true, decide_eq_true_eq] at h2
  exact ⟨_, s, fun a ha => by have := hh a ha; omega, t1, r1, h2.1.1, h2.1.2, h2.2⟩

/-! ### What does not hold -/

/-- No action is a spurious wake-up. (specification, no code) -/
def Unspurious (l : List Act) : Prop := ∀ a ∈ l, a.spurious = false

/-- Destroying a handle wakes the pool threads of the others. (example, no code) -/
def woken : List Act :=
  [.create 0, .pool 0, .create 1, .destroy 1, .user 1] ++ ps 0 6 ++ [.call 0] ++ us 0 3 ++ [.exit 0 true]

/-- **C60 is false, 1**: no spurious wake-ups.  Another handle is destroyed (`deinit` wakes all pool
threads, wstrat_pool.hpp 184-187): the pool thread of handle 0 wakes although there is nothing to migrate
and increments `_user_wait`.  When the table grows, the growing thread does not wait; it publishes the new
table, of which no cell has been initialised, and deletes the old one.  All elements are lost. -/
theorem C60_destroyed_handle_loses_table : ∃ l s, Unspurious l ∧ run (fun _ => 1) St.init l = some s ∧
    s.ub = false ∧ s.cur = .clear 1 ∧ s.freed 0 = true ∧ s.claimed 0 = 0 ∧ s.fin 0 0 = false := by
  obtain ⟨s, h1, h2⟩ := some_of (o := run (fun _ => 1) St.init (woken ++ us 0 18))
    (f := fun s => !s.ub && decide (s.cur = .clear 1) && s.freed 0 && decide (s.claimed 0 = 0) && !s.fin 0 0)
    (by decide)
  simp only [Bool.and_eq_true, decide_eq_true_eq, Bool.not_eq_true'] at h2
  exact ⟨_, s, by unfold Unspurious; decide, h1, h2.1.1.1.1, h2.1.1.1.2, h2.1.1.2, h2.1.2, h2.2⟩

/-- **C60 is false, 2**: no spurious wake-ups.  In the same situation the pool thread, woken for the
migration, loads `_table`, and stores `mig_protect` when the old table has already been deleted: it accesses
a deleted table. -/
theorem C60_deleted_table_accessed : ∃ l s, Unspurious l ∧ run (fun _ => 1) St.init l = some s ∧
    s.ub = true := by
  obtain ⟨s, h1, h2⟩ := some_of (o := run (fun _ => 1) St.init (woken ++ us 0 10 ++ ps 0 2 ++ us 0 8 ++ ps 0 2))
    (f := fun s => s.ub) (by decide)
  exact ⟨_, s, by unfold Unspurious; decide, h1, h2⟩

/-- **C60 is false, 3**: nobody is woken too early, no spurious wake-ups.  A deadlock: `migrate` loads
`_table` before the growth is announced there but `_epoch` after it has been incremented (estrat_sync.hpp
400-403), so the pool thread takes the epoch for done that is just beginning and waits for the next one.
The growing thread sleeps, and only a new handle or a spurious wake-up could wake it. -/
theorem C60_deadlock : ∃ l s, Unspurious l ∧ TimelyRun (fun _ => 1) St.init l ∧
    run (fun _ => 1) St.init l = some s ∧ s.user 1 = .asleep true 1 ∧ s.cur = .mark 1 ∧
    ∀ a : Act, a.spurious = false → (∀ t, a ≠ .create t) → act (fun _ => 1) s a = none := by
  obtain ⟨s, h1, h2⟩ := some_of (o := runb 2 (fun _ => 1) St.init
      (grown ++ [.create 1] ++ ps 1 3 ++ [.destroy 0, .user 0, .pool 0, .user 0, .call 1] ++ us 1 3 ++
        [.exit 1 true] ++ us 1 2 ++ ps 1 3 ++ us 1 9 ++ ps 1 1))
    (f := fun s => decide (s.user 0 = .gone) && decide (s.pool 0 = .ended) &&
      decide (s.user 1 = .asleep true 1) && decide (s.pool 1 = .asleep 2) && decide (s.cur = .mark 1)) (by decide)
  obtain ⟨t1, r1, hb, -⟩ := runb_run (Below.init 2) h1
  simp only [Bool.and_eq_true, decide_eq_true_eq] at h2
  obtain ⟨⟨⟨⟨e1, e2⟩, e3⟩, e4⟩, e5⟩ := h2
  refine ⟨_, s, by unfold Unspurious; decide, t1, r1, e3, e5, ?_⟩
  have hu : ∀ t, s.user t = .gone ∨ s.user t = .asleep true 1 ∨ s.user t = .fresh := by
    intro t
    match t with
    | 0 => exact .inl e1
    | 1 => exact .inr (.inl e3)
    | t + 2 => exact .inr (.inr (hb (t + 2) (by omega)).1)
  have hp : ∀ t, s.pool t = .ended ∨ s.pool t = .asleep 2 ∨ s.pool t = .none := by
    intro t
    match t with
    | 0 => exact .inl e2
    | 1 => exact .inr (.inl e4)
    | t + 2 => exact .inr (.inr (hb (t + 2) (by omega)).2)
  intro a ha hc
  cases a with
  | create t => exact absurd rfl (hc t)
  | call t => rcases hu t with h | h | h <;> simp [act, h]
  | exit t g => rcases hu t with h | h | h <;> simp [act, h]
  | user t => rcases hu t with h | h | h <;> simp [act, userStep, h]
  | pool t => rcases hp t with h | h | h <;> simp [act, poolStep, h]
  | destroy t => rcases hu t with h | h | h <;> simp [act, h]
  | spurU t => cases ha
  | spurP t => cases ha

/-- **C60 is false, 4**: nobody is woken too early, no spurious wake-ups, no handle is destroyed.  The same
race with a second pool thread: it has taken an epoch for done too early, wakes when that growth happens,
finds nothing to migrate, and increments `_user_wait` for the growth after it.  That growth publishes a
table without having migrated anything. -/
theorem C60_two_handles_lose_table : ∃ l s, Unspurious l ∧ TimelyRun (fun _ => 1) St.init l ∧
    run (fun _ => 1) St.init l = some s ∧ s.ub = false ∧ s.cur = .clear 3 ∧ s.claimed 2 = 0 ∧
    s.fin 2 0 = false := by
  obtain ⟨s, h1, h2⟩ := some_of (o := runb 2 (fun _ => 1) St.init
      (grown ++ [.create 1] ++ ps 1 3 ++ [.call 0] ++ us 0 3 ++ [.exit 0 true] ++ us 0 2 ++ ps 1 7 ++
        us 0 9 ++ ps 0 10 ++ us 0 7 ++ ps 0 1 ++ ps 1 3 ++ [.call 0] ++ us 0 3 ++ [.exit 0 true] ++ us 0 17))
    (f := fun s => !s.ub && decide (s.cur = .clear 3) && decide (s.claimed 2 = 0) && !s.fin 2 0) (by decide)
  obtain ⟨t1, r1, -, -⟩ := runb_run (Below.init 2) h1
  simp only [Bool.and_eq_true, decide_eq_true_eq, Bool.not_eq_true'] at h2
  exact ⟨_, s, by unfold Unspurious; decide, t1, r1, h2.1.1.1, h2.1.1.2, h2.1.2, h2.2⟩

/-- **C60, any number of handles**: in every execution, with any wake-ups, at most one thread is between its
exchange of `_epoch` and the publication of the new table; it replaces the current table, and `_epoch` is one ahead
of that. -/
theorem C60_one_grower {blocks : Nat → Nat} {s : St} {l : List Act} (h : run blocks St.init l = some s)
    {t : Nat} {v : Nat} (hg : replacing (s.user t) = some v) :
    (∀ t' v', replacing (s.user t') = some v' → t' = t ∧ v' = v) ∧ s.ep = v + 1 ∧
      (s.cur = .clear v ∨ s.cur = .mark v ∨ s.cur = .null) := by
  have I := Many.run Many.init h
  obtain ⟨h1, h2, h3⟩ := I.grow t v hg
  refine ⟨fun t' v' hg' => ?_, h1, ?_⟩
  · have := I.one t' t v' v hg' hg
    subst this
    rw [hg] at hg'
    cases hg'
    exact ⟨rfl, rfl⟩
  · have hv : s.ver = v := h2.symm
    unfold St.ver at hv
    cases hc : s.cur with
    | clear c => rw [hc] at hv; exact .inl (by rw [← hv])
    | mark c => rw [hc] at hv; exact .inr (.inl (by rw [← hv]))
    | null => exact .inr (.inr rfl)

/-- **C60, any number of handles**: in every execution, with any wake-ups, the table that `_table` points to (marked
or not) has not been deleted, and `_epoch` is its version, or one more while a thread replaces it. -/
theorem C60_current_not_deleted {blocks : Nat → Nat} {s : St} {l : List Act} (h : run blocks St.init l = some s)
    {c : Nat} (hc : s.cur = .clear c ∨ s.cur = .mark c) :
    s.freed c = false ∧ c ≤ s.ep ∧ s.ep ≤ c + 1 := by
  have I := Many.run Many.init h
  have hv : s.ver = c := by unfold St.ver; rcases hc with e | e <;> rw [e]
  refine ⟨?_, ?_⟩
  · cases hf : s.freed c with
    | false => rfl
    | true => have := I.freed c hf; omega
  · rcases hc with e | e
    · exact I.clear c e
    · have := I.mark c e; omega

/-- **C60, any number of handles**: `_epoch` only ever grows, by one; `_table` is marked only after `_epoch` has
been incremented, then becomes null, and then the next version: no table is replaced twice and none is skipped. -/
theorem C60_versions_increase {blocks : Nat → Nat} {s s' : St} {l : List Act} (h : run blocks St.init l = some s)
    {a : Act} (ha : act blocks s a = some s') :
    (s'.ep = s.ep ∨ s'.ep = s.ep + 1 ∧ s.cur = .clear s.ep) ∧
      (s'.cur = s.cur ∨ (∃ v, s.cur = .clear v ∧ s'.cur = .mark v ∧ s.ep = v + 1) ∨
        (∃ v, s.cur = .mark v ∧ s'.cur = .null) ∨ s.cur = .null ∧ s'.cur = .clear s.ep) := by
  have I := Many.run Many.init h
  unfold SyncPool.act at ha
  split at ha
  · cases ha
  cases a with
  | user t => exact I.user_tab ha
  | pool t =>
    have := pool_tab ha
    exact ⟨.inl this.2, .inl this.1⟩
  | _ =>
    simp only at ha
    split at ha <;> first
      | (cases ha; done)
      | (simp only [Option.some.injEq] at ha; subst ha; exact ⟨.inl rfl, .inl rfl⟩)

/-- Two handles: the second one grows the table that the first one has grown; a concrete case for the three theorems
above. -/
example : ∃ l s, run (fun _ => 1) St.init l = some s ∧ s.cur = .mark 1 ∧ replacing (s.user 1) = some 1 ∧
    s.user 0 ≠ .fresh ∧ s.freed 0 = true := by
  obtain ⟨s, h1, h2⟩ := some_of (o := run (fun _ => 1) St.init
      (grown ++ [.create 1] ++ ps 1 3 ++ [.call 1] ++ us 1 3 ++ [.exit 1 true] ++ us 1 6))
    (f := fun s => decide (s.cur = .mark 1) && decide (replacing (s.user 1) = some 1) &&
      decide (s.user 0 ≠ .fresh) && s.freed 0) (by decide)
  simp only [Bool.and_eq_true, decide_eq_true_eq] at h2
  exact ⟨_, s, h1, h2.1.1.1, h2.1.1.2, h2.1.2, h2.2⟩

end SyncPool
end Growt
