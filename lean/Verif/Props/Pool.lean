/-
C47: with the thread pool a thread that requested a migration continues only after it, and it continues.

The code violates both halves, in several ways, also without spurious wake-ups.  With one handle both hold
in executions in which no sleeping thread is woken before its counter has changed.
-/
import Verif.PoolInv
import Verif.PoolMany

set_option linter.unusedSectionVars false

namespace Growt
namespace Pool

variable {T : Type} [DecidableEq T]

/-! ### What holds -/

theorem inv_run {blocks : Nat → Nat} {s s' : St Unit} {l : List (Act Unit)} (I : J blocks s) (h : L s)
    (ht : TimelyRun blocks s l) (hr : run blocks s l = some s') : J blocks s' ∧ L s' := by
  induction l generalizing s with
  | nil =>
    simp only [run, Option.some.injEq] at hr
    subst hr
    exact ⟨I, h⟩
  | cons a l ih =>
    simp only [run] at hr
    cases ha : act blocks s a with
    | none => rw [ha] at hr; cases hr
    | some s1 =>
      rw [ha] at hr
      exact ih (I.act ht.1 ha) (h.act I ha) (ht.2 s1 ha) hr

/-- **C47, first half, partial**: one handle, no thread woken too early, any schedule.  A thread that has left
`execute_migration` for the table with version `v` - it is in `end_grow` - finds all blocks of that table
migrated; and every table that was replaced had been migrated completely. -/
theorem C47_continues_after_migration_partial {blocks : Nat → Nat} {s : St Unit} {l : List (Act Unit)}
    (ht : TimelyRun blocks St.init l) (hr : run blocks St.init l = some s) :
    (∀ v, s.user () = .eg1 v ∨ s.user () = .eg2 v → ∀ k, k < blocks v → s.fin v k = true) ∧
    (∀ v, v < s.glob → ∀ k, k < blocks v → s.fin v k = true) := by
  obtain ⟨I, -⟩ := inv_run (J.init blocks) L.init ht hr
  refine ⟨?_, I.old⟩
  intro v hv
  have hu := I.u
  rcases hv with h | h <;> (rw [h] at hu; obtain ⟨rfl, -, h3⟩ := hu; exact I.now h3)

/-- The thread has continued at some time of the schedule. (specification, no code) -/
def Continues (blocks : Nat → Nat) (s : St Unit) (v : Nat) (l : List (Act Unit)) : Prop :=
  ∃ l1 l2 s1, l = l1 ++ l2 ∧ run blocks s l1 = some s1 ∧ s1.user () = .eg1 v

/-- **C47, second half, partial**: one handle.  From every state that is reached, a thread that waits in
`execute_migration` has continued after at most `rank` actions, however user's thread and pool thread are
interleaved (as long as nobody is woken too early). -/
theorem C47_continues_eventually_partial {blocks : Nat → Nat} {s s' : St Unit} {l0 l : List (Act Unit)} {v : Nat}
    (ht0 : TimelyRun blocks St.init l0) (hr0 : run blocks St.init l0 = some s)
    (hw : waitsFor v (s.user ()) = true)
    (ht : TimelyRun blocks s l) (hr : run blocks s l = some s') (hl : rank blocks s < l.length) :
    Continues blocks s v l := by
  obtain ⟨I, -⟩ := inv_run (J.init blocks) L.init ht0 hr0
  clear ht0 hr0
  induction l generalizing s with
  | nil => simp at hl
  | cons a l ih =>
    simp only [run] at hr
    cases ha : act blocks s a with
    | none => rw [ha] at hr; cases hr
    | some s1 =>
      rw [ha] at hr
      rcases closer I ht.1 hw ha with h | ⟨h1, h2⟩
      · exact ⟨[a], l, s1, rfl, by simp [run, ha], h⟩
      · obtain ⟨l1, l2, s2, e, h3, h4⟩ := ih h1 (ht.2 s1 ha) hr (by simp at hl; omega) (I.act ht.1 ha)
        exact ⟨a :: l1, l2, s2, by simp [e], by simp [run, ha, h3], h4⟩

/-- ... and until then one of the two threads can take a step: no deadlock. -/
theorem C47_no_deadlock_partial {blocks : Nat → Nat} {s : St Unit} {l : List (Act Unit)} {v : Nat}
    (ht : TimelyRun blocks St.init l) (hr : run blocks St.init l = some s)
    (hw : waitsFor v (s.user ()) = true) :
    (∃ s', act blocks s (.user ()) = some s') ∨ (∃ s', act blocks s (.pool ()) = some s') := by
  obtain ⟨I, h⟩ := inv_run (J.init blocks) L.init ht hr
  exact enabled I h hw

/-- **C47, what remains for any number of handles**, whatever is woken when, spurious wake-ups included: no table
is replaced that has no successor; no two pool threads migrate the same block, and none migrates a block again;
a block that has been given out is finished or being migrated; and `_n_helper` is the number of pool threads in
`migrate`. -/
theorem C47_any_number_of_handles {blocks : Nat → Nat} {s : St T} {l : List (Act T)}
    (hr : run blocks St.init l = some s) :
    (∀ v, v < s.glob → s.att v = true) ∧
    (∀ t t' e e' w k, s.pool t = .m5 e w k → s.pool t' = .m5 e' w k → t = t') ∧
    (∀ t e w k, s.pool t = .m5 e w k → s.fin w k = false ∧ k < blocks w) ∧
    (∀ w k, k < s.claimed w → k < blocks w → s.fin w k = true ∨ ∃ t e, s.pool t = .m5 e w k) ∧
    (∃ ts : List T, ts.Nodup ∧ ts.length = s.helpers ∧ ∀ t, t ∈ ts ↔
      (∃ e, s.pool t = .m1 e) ∨ (∃ e w, s.pool t = .m2 e w) ∨ (∃ e w, s.pool t = .m4 e w) ∨
      (∃ e w k, s.pool t = .m5 e w k) ∨ ∃ e r, s.pool t = .m6 e r) := by
  have I := ((Any.init blocks).run (fun _ _ => rfl) hr).1
  refine ⟨I.old, ?_, ?_, ?_, ?_⟩
  · intro t t' e e' w k h h'
    exact I.one t t' w k (by rw [h]; rfl) (by rw [h']; rfl)
  · intro t e w k h
    have := I.blk t w k (by rw [h]; rfl)
    exact ⟨this.2.2, this.2.1⟩
  · intro w k h1 h2
    rcases I.got w k h1 h2 with h | ⟨t, h⟩
    · exact .inl h
    · cases hp : s.pool t <;> rw [hp] at h <;> cases h
      exact .inr ⟨t, _, hp⟩
  · obtain ⟨ts, h1, h2, h3⟩ := I.cnt
    refine ⟨ts, h1, h2, fun t => ?_⟩
    rw [h3]
    cases s.pool t <;> simp [PPC.inside]

/-- ... and in each step the current table stays or is replaced by its successor. -/
theorem C47_replaced_by_successor {blocks : Nat → Nat} {s s' : St T} {l : List (Act T)} {a : Act T}
    (hr : run blocks St.init l = some s) (ha : act blocks s a = some s') :
    s'.glob = s.glob ∨ (s'.glob = s.glob + 1 ∧ s.att s.glob = true) := by
  have I := ((Any.init blocks).run (fun _ _ => rfl) hr).1
  cases a with
  | user t =>
    simp only [act, userStep] at ha
    cases hu : s.user t <;> rw [hu] at ha <;> simp only at ha <;> (repeat' split at ha) <;>
      first
      | (cases ha; exact .inl rfl)
      | (cases ha; done)
      | skip
    rename_i v hg
    cases ha
    subst hg
    exact .inr ⟨rfl, (I.u t s.glob true (by rw [hu]; rfl)).2 rfl⟩
  | pool t =>
    simp only [act, poolStep] at ha
    cases hu : s.pool t <;> rw [hu] at ha <;> simp only at ha <;> (repeat' split at ha) <;>
      first
      | (cases ha; exact .inl rfl)
      | (cases ha; done)
  | _ =>
    simp only [act] at ha
    (repeat' split at ha) <;>
      first
      | (cases ha; exact .inl rfl)
      | (cases ha; done)

/-! ### Schedules that are computed -/

/-- `timely`, computed for the threads in `ts`. (specification, no code) -/
def timelyb (ts : List T) (s : St T) : Act T → Bool
  | .spurU t => match s.user t with
    | .asleep v => s.uw != v
    | _ => true
  | .spurP t => match s.pool t with
    | .asleep e => s.gw != e
    | _ => true
  | .user t => ts.all fun p => match s.pool p with
    | .asleep e => s.gw != e || s.stop p || (match s.user t with | .ex2 _ => false | .join => false | _ => true)
    | _ => true
  | .pool t => ts.all fun u => match s.user u with
    | .asleep v => s.uw != v || (match s.pool t with | .wk _ _ => false | _ => true)
    | _ => true
  | _ => true

theorem timely_of {ts : List T} (hts : ∀ t, t ∈ ts) {s : St T} {a : Act T} (h : timelyb ts s a = true) :
    timely s a := by
  cases a with
  | create t => trivial
  | grow t => trivial
  | help t => trivial
  | destroy t => trivial
  | spurU t =>
    intro v hv
    simp only [timelyb, hv] at h
    simpa using h
  | spurP t =>
    intro e he
    simp only [timelyb, he] at h
    simpa using h
  | user t =>
    intro hu p e he
    simp only [timelyb, List.all_eq_true] at h
    have := h p (hts p)
    simp only [he] at this
    rcases hu with ⟨v, hv⟩ | hv
    · simpa [hv] using this
    · simpa [hv] using this
  | pool t =>
    intro hu u v hv
    simp only [timelyb, List.all_eq_true] at h
    have := h u (hts u)
    simp only [hv] at this
    obtain ⟨e, r, he⟩ := hu
    simpa [he] using this

/-- A schedule in which nobody is woken too early, computed. (specification, no code) -/
def runb (ts : List T) (blocks : Nat → Nat) (s : St T) : List (Act T) → Option (St T)
  | [] => some s
  | a :: l => if timelyb ts s a then (act blocks s a).bind fun s' => runb ts blocks s' l else none

theorem runb_run {ts : List T} (hts : ∀ t, t ∈ ts) {blocks : Nat → Nat} {s s' : St T} {l : List (Act T)}
    (h : runb ts blocks s l = some s') : TimelyRun blocks s l ∧ run blocks s l = some s' := by
  induction l generalizing s with
  | nil => exact ⟨trivial, h⟩
  | cons a l ih =>
    simp only [runb] at h
    split at h
    · rename_i ha
      cases hc : act blocks s a with
      | none => rw [hc] at h; cases h
      | some s1 =>
        rw [hc] at h
        obtain ⟨h1, h2⟩ := ih h
        refine ⟨⟨timely_of hts ha, fun s2 h3 => ?_⟩, by simp [run, hc, h2]⟩
        rw [hc] at h3
        cases h3
        exact h1
    · cases h

/-- `n` steps of a user's thread, of a pool thread. (example, no code) -/
def us (t : T) (n : Nat) : List (Act T) := List.replicate n (.user t)
/-- As above. (example, no code) -/
def ps (t : T) (n : Nat) : List (Act T) := List.replicate n (.pool t)

/-- What a schedule computes, from what can be computed of it. -/
theorem some_of {X Y : Type} {o : Option X} {f : X → Y} {y : Y} (h : o.map f = some y) :
    ∃ x, o = some x ∧ f x = y := by
  cases o with
  | none => cases h
  | some x => exact ⟨x, rfl, by simpa using h⟩

/-- Not vacuous: the pool thread sleeps, the user's thread requests a migration, wakes it and falls asleep. -/
theorem C47_not_vacuous : ∃ l s, TimelyRun (fun _ => 3) (St.init : St Unit) l ∧
    run (fun _ => 3) St.init l = some s ∧ waitsFor 0 (s.user ()) = true ∧
    ∃ l' s', TimelyRun (fun _ => 3) s l' ∧ run (fun _ => 3) s l' = some s' ∧ s'.user () = .idle 1 ∧ s'.glob = 1 := by
  obtain ⟨s, h1, h2⟩ := some_of (o := runb [()] (fun _ => 3) (St.init : St Unit)
    ([.create (), .pool (), .grow ()] ++ us () 4)) (f := fun s => (s.user (), s.pool ()))
    (y := (.asleep 0, .chk 0)) (by decide)
  obtain ⟨s', h3, h4⟩ := some_of (o := runb [()] (fun _ => 3) (St.init : St Unit)
    (([.create (), .pool (), .grow ()] ++ us () 4) ++ (ps () 14 ++ us () 3)))
    (f := fun s => (s.user (), s.glob)) (y := (.idle 1, 1)) (by decide)
  obtain ⟨t1, r1⟩ := runb_run (by simp) h1
  obtain ⟨t2, r2⟩ := runb_run (by simp) h3
  rw [run_append, r1] at r2
  have tt : ∀ (l l' : List (Act Unit)) (a b : St Unit), TimelyRun (fun _ => 3) a (l ++ l') →
      run (fun _ => 3) a l = some b → TimelyRun (fun _ => 3) b l' := by
    intro l
    induction l with
    | nil =>
      intro l' a b h hr
      simp only [run, Option.some.injEq] at hr
      subst hr
      exact h
    | cons x l ih =>
      intro l' a b h hr
      simp only [run] at hr
      cases hx : act (fun _ => 3) a x with
      | none => rw [hx] at hr; cases hr
      | some c =>
        rw [hx] at hr
        exact ih l' c b (h.2 c hx) hr
  simp only [Prod.mk.injEq] at h2 h4
  exact ⟨_, s, t1, r1, by rw [h2.1]; rfl, _, s', tt _ _ _ _ t2 r1, r2, h4.1, h4.2⟩

/-- Two pool threads in the middle of a migration of three blocks, each with its own block. -/
example : ∃ l s, run (fun _ => 3) (St.init : St Bool) l = some s ∧ s.helpers = 2 ∧ s.pool false = .m5 0 0 0 ∧
    s.pool true = .m5 0 0 1 := by
  obtain ⟨s, h1, h2⟩ := some_of (o := run (fun _ => 3) (St.init : St Bool)
    ([.create false, .create true, .grow false] ++ us false 3 ++ ps false 6 ++ ps true 6))
    (f := fun s => (s.helpers, s.pool false, s.pool true)) (y := (2, .m5 0 0 0, .m5 0 0 1)) (by decide)
  simp only [Prod.mk.injEq] at h2
  exact ⟨_, s, h1, h2⟩

/-! ### What does not hold -/

/-- **C47 is false, 1**: one handle, one pool thread, no spurious wake-up.  The user's thread is slow between
increment and wake-up (wstrat_pool.hpp 198), the pool thread migrates and falls asleep again, is woken too
late, finds nothing to do and increments `_user_wait` once more.  The next time the table grows, the thread
does not wait: it replaces the table although not one block has been migrated - all elements are lost. -/
theorem C47_late_wake_loses_table : ∃ (l : List (Act Unit)) (s : St Unit),
    (∀ a ∈ l, a.spurious = false) ∧ run (fun _ => 1) St.init l = some s ∧
    s.glob = 2 ∧ s.claimed 1 = 0 ∧ s.fin 1 0 = false := by
  obtain ⟨s, h1, h2⟩ := some_of (o := run (fun _ => 1) (St.init : St Unit)
    ([.create (), .grow ()] ++ us () 2 ++ ps () 12 ++ us () 1 ++ ps () 9 ++ us () 4 ++ [.grow ()] ++ us () 6))
    (f := fun s => (s.glob, s.claimed 1, s.fin 1 0)) (y := (2, 0, false)) (by decide)
  simp only [Prod.mk.injEq] at h2
  exact ⟨_, s, by decide, h1, h2⟩

/-- **C47 is false, 2**: a spurious wake-up of the user's thread does the same, the first time the table
grows (wstrat_pool.hpp 200 does not look at the counter again). -/
theorem C47_spurious_wake_loses_table : ∃ (l : List (Act Unit)) (s : St Unit),
    run (fun _ => 1) St.init l = some s ∧ s.glob = 1 ∧ s.claimed 0 = 0 ∧ s.fin 0 0 = false := by
  obtain ⟨s, h1, h2⟩ := some_of (o := run (fun _ => 1) (St.init : St Unit)
    ([.create (), .pool (), .grow ()] ++ us () 4 ++ [.spurU ()] ++ us () 2))
    (f := fun s => (s.glob, s.claimed 0, s.fin 0 0)) (y := (1, 0, false)) (by decide)
  simp only [Prod.mk.injEq] at h2
  exact ⟨_, s, h1, h2⟩

/-- **C47 is false, 3**: with two handles a table is lost even if no thread is ever woken too early: a pool
thread that was slow in one migration takes part in the next one before it has been announced; its local
epoch is then too large and it increments `_user_wait` for a migration that has not begun. -/
theorem C47_two_handles_lose_table : ∃ (l : List (Act Bool)) (s : St Bool),
    TimelyRun (fun _ => 1) St.init l ∧ run (fun _ => 1) St.init l = some s ∧
    s.glob = 3 ∧ s.claimed 2 = 0 ∧ s.fin 2 0 = false := by
  obtain ⟨s, h1, h2⟩ := some_of (o := runb [false, true] (fun _ => 1) (St.init : St Bool)
    ([.create false, .create true, .grow false] ++ us false 3 ++ ps true 1 ++ ps false 12 ++ us false 4 ++
      [.grow false] ++ us false 1 ++ ps true 17 ++ us false 3 ++ ps false 8 ++ ps true 3 ++ us false 3 ++
      [.grow false] ++ us false 6))
    (f := fun s => (s.glob, s.claimed 2, s.fin 2 0)) (y := (3, 0, false)) (by decide)
  obtain ⟨t1, r1⟩ := runb_run (by decide) h1
  simp only [Prod.mk.injEq] at h2
  exact ⟨_, s, t1, r1, h2⟩

/-- **C47 is false, 4**: a deadlock.  The pool thread of a handle that is created when the table has grown
before starts with epoch 0 (wstrat_pool.hpp 113); it migrates, but does not increment `_user_wait`, and its
wake-up comes before the user's thread sleeps.  Both sleep for ever: no action but a spurious wake-up or a
further handle is possible. -/
theorem C47_start_deadlock : ∃ (l : List (Act Bool)) (s : St Bool),
    TimelyRun (fun _ => 1) St.init l ∧ run (fun _ => 1) St.init l = some s ∧
    s.user true = .asleep 1 ∧ ∀ a : Act Bool, a.spurious = false → act (fun _ => 1) s a = none := by
  obtain ⟨s, h1, h2⟩ := some_of (o := runb [false, true] (fun _ => 1) (St.init : St Bool)
    ([.create false, .grow false] ++ us false 3 ++ ps false 12 ++ us false 4 ++ [.destroy false] ++ us false 1 ++
      ps false 1 ++ us false 1 ++
      [.create true, .grow true] ++ us true 3 ++ ps true 12 ++ us true 1))
    (f := fun s => (s.user false, s.user true, s.pool false, s.pool true))
    (y := (.gone, .asleep 1, .ended, .asleep 2)) (by decide)
  obtain ⟨t1, r1⟩ := runb_run (by decide) h1
  simp only [Prod.mk.injEq] at h2
  obtain ⟨e1, e2, e3, e4⟩ := h2
  refine ⟨_, s, t1, r1, e2, ?_⟩
  intro a ha
  cases a with
  | create t => cases t <;> simp [act, e1, e2]
  | grow t => cases t <;> simp [act, e1, e2]
  | help t => cases t <;> simp [act, e1, e2]
  | user t => cases t <;> simp [act, userStep, e1, e2]
  | pool t => cases t <;> simp [act, poolStep, e3, e4]
  | destroy t => cases t <;> simp [act, e1, e2]
  | spurU t => cases ha
  | spurP t => cases ha

end Pool
end Growt
