import Verif.HeapMem
import Verif.Props.AsyncRun

/-!
# C38: heap allocated elements are freed exactly once

`hrun` is the specification: a heap on which `malloc` and `free` are called in the order of the history;
freeing a block that is not in use is undefined behaviour.  Freed addresses may be reused by the
allocator; the only assumption is that it does not give out blocks that are in use (`≠ .badAlloc`).
-/

set_option linter.unusedSectionVars false

namespace Growt
namespace HeapMem
section
variable {T A K : Type} [DecidableEq T] [DecidableEq A] [DecidableEq K]

/-- The empty heap. (example, no code) -/
def noBlocks : Addr → Bool := fun _ => false

/-! ## Effects -/

/-- The object, restricted to the calls `P`. (specification, no code) -/
def only {O R D : Type} (P : O → Prop) (S : Growt.Obj O R D) : Growt.Obj O R D :=
  ⟨S.init, fun d o r d' => S.legal d o r d' ∧ P o⟩

theorem legal_only {O R D : Type} {P : O → Prop} {S : Growt.Obj O R D} {d d' : D} {l : List (O × R)}
    (h : Legal S d l d') (hP : ∀ x ∈ l, P x.1) : Legal (only P S) d l d' := by
  induction h with
  | nil => exact .nil _
  | cons h _ ih =>
    exact .cons ⟨h, hP _ List.mem_cons_self⟩ (ih fun x hx => hP x (List.mem_cons_of_mem _ hx))

theorem effects_called {O R : Type} {P : O → Prop} {p p' : T → Phase O R} {l : List (Ev T O R)}
    (hw : WellFormed p l p') (hp : ∀ i o, p i = .called o → P o) (hl : ∀ i o, .call i o ∈ l → P o) :
    ∀ x ∈ effects l, P x.1 := by
  induction hw with
  | nil => intro x hx; cases hx
  | @call p q p' i o l h hq hf _ ih =>
    refine ih (fun j o' hj => ?_) fun i' o' hm => hl i' o' (List.mem_cons_of_mem _ hm)
    by_cases e : j = i
    · rw [e, hq] at hj; cases hj; exact hl i o List.mem_cons_self
    · rw [hf j e] at hj; exact hp j o' hj
  | @lin p q p' i o r l h hq hf _ ih =>
    have := ih (fun j o' hj => by
      by_cases e : j = i
      · rw [e, hq] at hj; cases hj
      · rw [hf j e] at hj; exact hp j o' hj) fun i' o' hm => hl i' o' (List.mem_cons_of_mem _ hm)
    intro x hx
    rcases List.mem_cons.1 hx with rfl | hx
    · exact hp i o h
    · exact this x hx
  | @ret p q p' i o r l h hq hf _ ih =>
    refine ih (fun j o' hj => ?_) fun i' o' hm => hl i' o' (List.mem_cons_of_mem _ hm)
    by_cases e : j = i
    · rw [e, hq] at hj; cases hj
    · rw [hf j e] at hj; exact hp j o' hj

theorem call_visible {O R : Type} {l : List (Ev T O R)} {i : T} {o : O} (h : .call i o ∈ l) :
    .call i o ∈ visible l := by
  induction l with
  | nil => cases h
  | cons e l ih =>
    rcases List.mem_cons.1 h with rfl | hm
    · exact List.mem_cons_self
    · cases e with
      | lin _ _ _ => exact ih hm
      | call _ _ => exact List.mem_cons_of_mem _ (ih hm)
      | ret _ _ _ => exact List.mem_cons_of_mem _ (ih hm)

theorem inPlace_eff (m : Bool) (a : Addr) : inPlace.eff m a = (a, a) := by
  unfold UpdFn.eff inPlace; cases m <;> rfl

theorem put_self {d : Dict K Addr} {k : K} {a : Addr} (h : d k = some a) : d.put k a = d := by
  funext x; unfold Dict.put; split
  · rename_i e; rw [e, h]
  · rfl

/-- Effect of a call on the ideal map. -/
theorem sem_account {m : Bool} {op : Op K Addr} (hc : heapCall op) (d : Dict K Addr) (ok : Bool)
    (hok : ok = ((op.toSpec m).sem d).2.ok) :
    (((op.toSpec m).sem d).1 = d ∧ freed op ok = alloc? op) ∨
    ∃ k a, alloc? op = some a ∧ freed op ok = none ∧ d k = none ∧ ((op.toSpec m).sem d).1 k = some a ∧
      ∀ k', k' ≠ k → ((op.toSpec m).sem d).1 k' = d k' := by
  cases op with
  | find k | locate k => left; cases ok <;> exact ⟨rfl, rfl⟩
  | insert k a =>
    simp only [Op.toSpec, SOp.sem] at hok ⊢
    split at hok <;> rename_i e
    · right
      simp only
      refine ⟨k, a, rfl, by rw [hok]; rfl, e, by simp [Dict.put], fun k' hk => by simp [Dict.put, hk]⟩
    · left
      simp only
      exact ⟨trivial, by rw [hok]; rfl⟩
  | update k f =>
    cases hc
    left
    refine ⟨?_, by cases ok <;> rfl⟩
    simp only [Op.toSpec, SOp.sem]
    split
    · rfl
    · rename_i e; simp only [inPlace_eff]; exact put_self e
  | updateBackoff k f b =>
    cases hc
    left
    refine ⟨?_, by cases ok <;> rfl⟩
    simp only [Op.toSpec, SOp.sem]
    split
    · rfl
    · rename_i e; simp only [inPlace_eff]; exact put_self e
  | insertOrUpdate k a f =>
    cases hc
    simp only [Op.toSpec, SOp.sem] at hok ⊢
    split at hok <;> rename_i e
    · right
      simp only
      refine ⟨k, a, rfl, by rw [hok]; rfl, e, by simp [Dict.put], fun k' hk => by simp [Dict.put, hk]⟩
    · left
      simp only [inPlace_eff]
      exact ⟨put_self e, by rw [hok]; rfl⟩
  | updateUnsafe k f => cases hc
  | insertOrUpdateUnsafe k d f => cases hc
  | erase k => cases hc
  | eraseIf k d => cases hc

theorem bounded_accounts (m : Bool) :
    Accounts (K := K) alloc? (fun o r => freed o (r.ok o)) (only heapCall (boundedObj m)) := by
  rintro d op r d' ⟨hl, hc⟩
  rcases hl with ⟨rfl, hok, -⟩ | ⟨c, hr, rfl, rfl, -⟩
  · exact sem_account hc d _ hok
  · left
    refine ⟨rfl, ?_⟩
    cases op <;> simp only [Op.mayRefuse] at hr
    · subst hr; rfl
    · obtain ⟨rfl, -⟩ := hr; rfl
    · subst hr; rfl
    · cases hc

theorem grow_accounts (m : Bool) :
    Accounts (K := K) alloc? (fun o x => freed o x.ok) (only heapCall (Sync.growObj m)) := by
  rintro d op r d' ⟨hl, hc⟩
  rcases hl with ⟨rfl, hok, -⟩ | ⟨⟨k, f, b, n, rfl, -⟩, rfl, rfl⟩
  · exact sem_account hc d _ hok
  · left; exact ⟨rfl, rfl⟩

theorem nodup_filterMap {α β : Type} {f : α → Option β} {L : List α} (hn : L.Nodup)
    (hf : ∀ x ∈ L, ∀ y ∈ L, ∀ a, f x = some a → f y = some a → x = y) : (L.filterMap f).Nodup := by
  induction L with
  | nil => exact List.nodup_nil
  | cons x L ih =>
    have ht := ih (List.nodup_cons.1 hn).2 fun y hy z hz =>
      hf y (List.mem_cons_of_mem _ hy) z (List.mem_cons_of_mem _ hz)
    rw [List.filterMap_cons]
    split
    · exact ht
    · rename_i b hb
      refine List.nodup_cons.2 ⟨fun hm => ?_, ht⟩
      obtain ⟨y, hy, hyb⟩ := List.mem_filterMap.1 hm
      have := hf x List.mem_cons_self y (List.mem_cons_of_mem _ hy) b hb hyb
      exact (List.nodup_cons.1 hn).1 (this ▸ hy)

/-- The elements of the ideal map are freed by `slot_cleanup`, each once. -/
theorem cleanup_all {E : Env K} {t : Tbl K Addr} {d : Dict K Addr} {h : Addr → Bool} (hI : Inv E t)
    (hS : Stores E t d) (hinj : ∀ k k' a, d k = some a → d k' = some a → k = k')
    (hh : ∀ a, h a = true ↔ ∃ k, d k = some a) :
    hrun h ((slotCleanup E t).map .free) = .ok noBlocks := by
  have val : ∀ {x : Cell K Addr} {a : Addr}, x.val? = some a ↔ ∃ k, x.c = .live k a := by
    intro x a
    unfold Cell.val?
    cases x.c <;> simp
  refine hrun_free_all ?_ fun a => ?_
  · refine nodup_filterMap List.nodup_range fun i hi j hj a h1 h2 => ?_
    obtain ⟨k, hk⟩ := val.1 h1
    obtain ⟨k', hk'⟩ := val.1 h2
    rw [List.mem_range] at hi hj
    have := hinj k k' a ((hS k a).2 ⟨i, hi, hk⟩) ((hS k' a).2 ⟨j, hj, hk'⟩)
    subst this
    exact hI.unique hi hj hk hk'
  · rw [hh]
    simp only [slotCleanup, List.mem_filterMap, List.mem_range, val]
    constructor
    · rintro ⟨k, hk⟩
      obtain ⟨i, hi, hc⟩ := (hS k a).1 hk
      exact ⟨i, hi, k, hc⟩
    · rintro ⟨i, hi, k, hc⟩
      exact ⟨k, (hS k a).2 ⟨i, hi, hc⟩⟩

theorem heap_mix (m : Bool) : Mix m (heapCall (K := K)) := by
  refine ⟨fun op h => ⟨?_, ?_⟩, fun _ k => .inl ?_⟩
  · rintro k f rfl; exact h
  · rintro k d f rfl; exact h
  · rintro op h (rfl | ⟨d, rfl⟩) <;> exact h

theorem heap_safe (op : Op K Addr) (h : heapCall op) : op.isSafe := by
  cases op <;> first | trivial | exact h

theorem balance_init {O R : Type} {al : O → Option Addr} {fr : O → R → Option Addr} :
    Balance (K := K) (fun _ : T => holder al fr .idle) (fun _ => none) noBlocks where
  used := by
    intro a
    constructor
    · nofun
    · rintro (⟨_, h⟩ | ⟨_, h⟩) <;> cases h
  held := nofun
  apart := nofun
  inj := nofun

/-- When no call is running, the blocks in use are the elements of the map. -/
theorem Balance.calm {p : T → Option Addr} {d : Dict K Addr} {h : Addr → Bool} (hB : Balance p d h)
    (hp : ∀ i, p i = none) (a : Addr) : h a = true ↔ ∃ k, d k = some a := by
  rw [hB.used]
  constructor
  · rintro (⟨i, hi⟩ | h)
    · rw [hp i] at hi; cases hi
    · exact h
  · exact .inr

/-! ## Table that does not grow -/

theorem exec_calls {E : Env K} {ok : Op K Addr → Prop} {l : List (TEv T K Addr)} {s0 s : CSt T K Addr}
    (h : Exec (CStep E ok) s0 l s) : ∀ i o, .call i o ∈ l → ok o := by
  induction h with
  | init => nofun
  | silent _ _ ih => exact ih
  | vis _ hs ih =>
    intro i o hm
    rcases List.mem_append.1 hm with hm | hm
    · exact ih i o hm
    · rw [List.mem_singleton] at hm
      subst hm
      cases hs with
      | call _ ho => exact ho

/-- **C38 for a table that does not grow.**  In every sequentially consistent execution with any number of
threads: no block is freed that is not in use; an element that a slot, a local variable of a call or
a result refers to, that was shown to a caller, or that was inserted is still allocated; and if the
table is destroyed when no call is running, every element has been freed, exactly once. -/
theorem C38_bounded {E : Env K} (hE : E.OK) {l : List (TEv T K Addr)} {s : CSt T K Addr}
    (h : Exec (CStep E heapCall) CSt.init l s) (hsane : hrun noBlocks (baseTrace l) ≠ .badAlloc) :
    ∃ used, hrun noBlocks (baseTrace l) = .ok used ∧
      (∀ a, baseReach s a → used a = true) ∧
      (∀ i o r a, .ret i o r ∈ l → baseShown o r a → used a = true) ∧
      ((∀ i, s.thr i = .idle) →
        hrun noBlocks (baseTrace l ++ baseDtor true E s.tbl) = .ok noBlocks) := by
  obtain ⟨-, used, hu, hG⟩ := (base_discipline (T := T) E).good (s0 := CSt.init) (fun _ => trivial)
    (fun a ha => by
      rcases ha with ⟨p, hp⟩ | ⟨i, hi⟩
      · cases hp
      · exact hi) (fun _ => rfl) h hsane
  refine ⟨used, hu, hG.live, hG.seen, fun hq => ?_⟩
  obtain ⟨hw, d, hl, hd⟩ := exec_explained hE (heap_mix E.m) h
  have hI := CInv.reach hE (heap_mix E.m) h
  obtain ⟨h', e, hB⟩ := balance_run (bounded_accounts (K := K) E.m) hw
    (legal_only hl (effects_called hw nofun (exec_calls h))) balance_init hsane
  have e' : hrun noBlocks (baseTrace l) = .ok h' := e
  rw [hrun_append, e']
  exact cleanup_all hI.inv hd hB.inj (hB.calm fun i => by rw [hq i]; rfl)

/-! ## Tables that grow -/

theorem exec_view {S : Type} {A : Type} [DecidableEq A] {step : S → Option (Ev T (Op K Addr) (SRes Addr)) → S → Prop}
    {view : S → View T A K} (hv : ∀ {s e s'}, step s e s' → VStep (view s) e (view s'))
    {s0 s : S} {l : List (Ev T (Op K Addr) (SRes Addr))} (h : Exec step s0 l s) :
    Exec VStep (view s0) l (view s) := by
  induction h with
  | init => exact .init
  | silent _ hs ih => exact .silent ih (hv hs)
  | vis _ hs ih => exact .vis ih (hv hs)

theorem view_good {A : Type} [DecidableEq A] {v0 v : View T A K} (hm : ∀ a, ¬ memReach v0.mem v0.jobs a)
    (ht : ∀ i, v0.thr i = .idle) {l : List (Ev T (Op K Addr) (SRes Addr))} (h : Exec VStep v0 l v)
    (hsane : hrun noBlocks (growTrace l) ≠ .badAlloc) :
    ∃ used, hrun noBlocks (growTrace l) = .ok used ∧ (∀ a, v.reach a → used a = true) ∧
      ∀ i o x a, .ret i o x ∈ l → growShown o x a → used a = true := by
  obtain ⟨-, used, hu, hG⟩ := grow_discipline.good (fun i => by rw [ht i]; trivial)
    (fun a ha => by
      rcases ha with h | ⟨i, hi⟩
      · exact hm a h
      · rw [ht i] at hi; exact hi) (fun i => by rw [ht i]; rfl) h hsane
  exact ⟨used, hu, hG.live, hG.seen⟩

theorem init_reach {A : Type} {E : Env K} {jobs : A → Nat → Option (JobPC K Addr)} (hj : ∀ t c, jobs t c = none)
    (a : Addr) : ¬ memReach (fun (_ : A) q => if q < E.M.total then some (Cell.emptyCell : Cell K Addr) else none) jobs a := by
  rintro (⟨t, p, x, h, hx⟩ | ⟨t, c, pc, h, -⟩)
  · simp only at h
    split at h <;> cases h
    cases hx
  · rw [hj] at h; cases h

/-- **C38, asynchronous growth**: nothing is freed too early, and nothing is freed that is not in use,
before the destructor runs; in every sequentially consistent execution - also with torn marks -
with any number of threads and growth steps. -/
theorem C38_async_no_early_free {u : Bool} {E : Env K} {t : A} {l : List (Ev T (Op K Addr) (SRes Addr))}
    {s : Async.DSt T A K Addr} (h : Exec (Async.DStep u heapCall) (Async.DSt.init E t) l s)
    (hsane : hrun noBlocks (growTrace l) ≠ .badAlloc) :
    ∃ used, hrun noBlocks (growTrace l) = .ok used ∧
      (∀ a, (asyncView s).reach a → used a = true) ∧
      ∀ i o x a, .ret i o x ∈ l → growShown o x a → used a = true :=
  view_good (init_reach fun _ _ => rfl) (fun _ => rfl) (exec_view (view := asyncView) async_view h) hsane

/-- **C38, synchronous growth**: the same. -/
theorem C38_sync_no_early_free {u : Bool} {E : Env K} {t : A} {l : List (Ev T (Op K Addr) (SRes Addr))}
    {s : Sync.DSt T A K Addr} (h : Exec (Sync.DStep u heapCall) (Sync.DSt.init E t) l s)
    (hsane : hrun noBlocks (growTrace l) ≠ .badAlloc) :
    ∃ used, hrun noBlocks (growTrace l) = .ok used ∧
      (∀ a, (syncView s).reach a → used a = true) ∧
      ∀ i o x a, .ret i o x ∈ l → growShown o x a → used a = true :=
  view_good (init_reach fun _ _ => rfl) (fun _ => rfl) (exec_view (view := syncView) sync_view h) hsane

theorem async_calls {u : Bool} {ok : Op K Addr → Prop} {l : List (Ev T (Op K Addr) (SRes Addr))}
    {s0 s : Async.DSt T A K Addr} (h : Exec (Async.DStepW u ok) s0 l s) : ∀ i o, .call i o ∈ l → ok o := by
  induction h with
  | init => nofun
  | silent _ _ ih => exact ih
  | vis _ hs ih =>
    intro i o hm
    rcases List.mem_append.1 hm with hm | hm
    · exact ih i o hm
    · rw [List.mem_singleton] at hm
      subst hm
      cases hs.1 with
      | call _ _ ho => exact ho

theorem sync_calls {u : Bool} {ok : Op K Addr → Prop} {l : List (Ev T (Op K Addr) (SRes Addr))}
    {s0 s : Sync.DSt T A K Addr} (h : Exec (Sync.DStepW u ok) s0 l s) : ∀ i o, .call i o ∈ l → ok o := by
  induction h with
  | init => nofun
  | silent _ _ ih => exact ih
  | vis _ hs ih =>
    intro i o hm
    rcases List.mem_append.1 hm with hm | hm
    · exact ih i o hm
    · rw [List.mem_singleton] at hm
      subst hm
      cases hs.1 with
      | call _ _ ho => exact ho

/-- **C38, asynchronous growth, exactly once.**  If the table is destroyed when no call is running, every
element that was ever allocated has been freed, exactly once.

Missing for the full claim (hence `_partial`): executions with a torn mark, in which it is false
(`C38_async_double_free`); limits on the size of the tables (`Within`). -/
theorem C38_async_partial {u : Bool} {E : Env K} (hE : E.OK) (hcombo : E.M.cm = true → E.M.cp = true)
    (hm : E.m = true) {t : A} {l : List (Ev T (Op K Addr) (SRes Addr))} {s : Async.DSt T A K Addr}
    (h : Exec (Async.DStepW u heapCall) (Async.DSt.init E t) l s)
    (hsane : hrun noBlocks (growTrace l) ≠ .badAlloc) (hq : ∀ i, s.thr i = .idle) :
    hrun noBlocks (growTrace l ++ asyncDtor s) = .ok noBlocks := by
  obtain ⟨ev, d, D, hv, hw, hl, hI⟩ := Async.dexec_explained heap_safe ⟨hE, hcombo, hm⟩ h
  have hc : ∀ i o, .call i o ∈ ev → heapCall o := fun i o hm =>
    async_calls h i o (by rw [← hv]; exact call_visible hm)
  have hsane' : hrun noBlocks (growTrace ev) ≠ .badAlloc := by
    unfold growTrace; rw [← trace_visible, hv]; exact hsane
  obtain ⟨h', e, hB⟩ := balance_run (grow_accounts (K := K) true) hw
    (legal_only hl (effects_called hw nofun hc)) balance_init hsane'
  have e' : hrun noBlocks (growTrace l) = .ok h' := by
    unfold growTrace; rw [← hv, trace_visible]; exact e
  have hT : Async.Tab (s.env s.p.glob) (s.mem s.p.glob) d := by
    by_cases hg : s.p.glob = s.p.cur
    · rw [hg]; exact hI.tabs.cur
    · exact (hI.tabs.done hg).2.1
  rw [hrun_append, e']
  simp only [asyncDtor, baseDtor, Bool.false_eq_true, if_false, List.append_nil]
  exact cleanup_all hT.inv hT.stores hB.inj
    (hB.calm fun i => by unfold Async.DSt.phases; rw [hq i]; rfl)

/-- **C38, synchronous growth.**  When no call is running and the table does not grow, the elements in use
are exactly those in the slots of the current table, each in one slot: freeing the elements in the
slots, once, would free everything.

Missing for the full claim (hence `_partial`): the destructor does not do so, see `C38_sync_leaks`;
limits on the size of the tables. -/
theorem C38_sync_partial {u : Bool} {E : Env K} (hE : E.OK) (hcombo : E.M.cm = true → E.M.cp = true)
    {t : A} {l : List (Ev T (Op K Addr) (SRes Addr))} {s : Sync.DSt T A K Addr}
    (h : Exec (Sync.DStepW u heapCall) (Sync.DSt.init E t) l s)
    (hsane : hrun noBlocks (growTrace l) ≠ .badAlloc) (hq : ∀ i, s.thr i = .idle) {a : A}
    (ha : s.p.stage = .solo a) :
    hrun noBlocks (growTrace l ++ (slotCleanup (s.env a) (published (s.mem a))).map .free) = .ok noBlocks := by
  obtain ⟨hw, d, hl, hI⟩ := Sync.dexec_explained ⟨hE, hcombo, rfl⟩ (heap_mix E.m) h
  obtain ⟨h', e, hB⟩ := balance_run (grow_accounts (K := K) E.m) hw
    (legal_only hl (effects_called hw nofun (sync_calls h))) balance_init hsane
  have e' : hrun noBlocks (growTrace l) = .ok h' := e
  have hT := hI.stage
  rw [ha] at hT
  rw [hrun_append, e']
  exact cleanup_all hT.1.inv hT.1.stores hB.inj (hB.calm fun i => by rw [hq i]; rfl)

/-- **C38 is false for synchronous growth**: every element that was inserted is leaked when the table is
destroyed (`estrat_sync.hpp:197-200`: the destructor of the base table of a growing table does not
clean its slots, and unlike `estrat_async.hpp:118-131` nobody else does). -/
theorem C38_sync_leaks {u : Bool} {E : Env K} {t : A} {l : List (Ev T (Op K Addr) (SRes Addr))}
    {s : Sync.DSt T A K Addr} (h : Exec (Sync.DStep u heapCall) (Sync.DSt.init E t) l s)
    (hsane : hrun noBlocks (growTrace l) ≠ .badAlloc) (b : A) :
    ∃ used, hrun noBlocks (growTrace l ++ syncDtor s b) = .ok used ∧
      ∀ i o x a, .ret i o x ∈ l → alloc? o = some a → x.ok = true → used a = true := by
  obtain ⟨used, h1, -, h3⟩ := C38_sync_no_early_free h hsane
  refine ⟨used, ?_, fun i o x a hm ha hx => h3 i o x a hm (.inr ⟨ha, hx⟩)⟩
  simp only [syncDtor, baseDtor, Bool.false_eq_true, if_false, List.append_nil]
  exact h1

end

/-! ## Witnesses -/

/-- Allowed calls are all the calls that are made. -/
theorem sync_recall {T A K : Type} [DecidableEq T] [DecidableEq A] [DecidableEq K] {u : Bool}
    {ok ok' : Op K Addr → Prop} {s s' : Sync.DSt T A K Addr}
    {e : Option (Ev T (Op K Addr) (SRes Addr))} (h : Sync.DStep u ok s e s')
    (hc : ∀ i o, e = some (.call i o) → ok' o) : Sync.DStep u ok' s e s' := by
  cases h with
  | call hp ht _ => exact .call hp ht (hc _ _ rfl)
  | ret hp ht => exact .ret hp ht
  | quiet hs => exact .quiet hs
  | enter hs ht => exact .enter hs ht
  | visit hs ht => exact .visit hs ht
  | op hs ht hst => exact .op hs ht hst
  | opLin hs ht hst hx => exact .opLin hs ht hst hx
  | opAgain hs ht hst hx => exact .opAgain hs ht hst hx
  | exitAgain hs ht => exact .exitAgain hs ht
  | exit hs ht hx => exact .exit hs ht hx
  | make i d hs ho hn => exact .make i d hs ho hn
  | claim hs ho => exact .claim hs ho
  | work hs hk hj he hst => exact .work hs hk hj he hst
  | done hs hk hj he => exact .done hs hk hj he
  | leave hs => exact .leave hs
  | publish hs => exact .publish hs
  | free hs => exact .free hs

theorem sync_recallX {T A K : Type} [DecidableEq T] [DecidableEq A] [DecidableEq K] {u : Bool}
    {ok ok' : Op K Addr → Prop} {s0 s : Sync.DSt T A K Addr}
    {l : List (Ev T (Op K Addr) (SRes Addr))} (h : Exec (Sync.DStepW u ok) s0 l s)
    (hc : ∀ i o, .call i o ∈ l → ok' o) : Exec (Sync.DStepW u ok') s0 l s := by
  induction h with
  | init => exact .init
  | silent _ hs ih => exact .silent (ih hc) ⟨sync_recall hs.1 nofun, hs.2⟩
  | vis _ hs ih =>
    refine .vis (ih fun i o hm => hc i o (List.mem_append_left _ hm)) ⟨sync_recall hs.1 fun i o e => ?_, hs.2⟩
    cases e
    exact hc i o (List.mem_append_right _ List.mem_cons_self)

/-- **C38, witness for the synchronous strategy**: an element is inserted, the table is grown, the element is
found; nothing is wrong with the calls to the allocator so far, and after the destruction of the
table the element is still allocated. -/
theorem C38_sync_leak_happens : ∃ (l : List (Ev Nat (Op Nat Nat) (SRes Nat))) (s : Sync.DSt Nat Nat Nat Nat),
    Exec (Sync.DStepW false heapCall) (Sync.DSt.init exE 0) l s ∧ s.p.table = .clear 1 ∧
    ∃ used, hrun noBlocks (growTrace l ++ syncDtor s 1) = .ok used ∧ used 5 = true := by
  obtain ⟨l, s, h, hv, ht, -⟩ := Sync.C30_not_vacuous
  have hx : Exec (Sync.DStepW false heapCall) (Sync.DSt.init exE 0) l s := by
    refine sync_recallX h fun i o hm => ?_
    have := call_visible hm
    rw [hv] at this
    simp only [List.mem_cons, List.not_mem_nil, or_false, reduceCtorEq, false_or, Ev.call.injEq] at this
    rcases this with ⟨-, rfl⟩ | ⟨-, rfl⟩ <;> trivial
  have ht' : growTrace l = [.malloc 5] := by unfold growTrace; rw [← trace_visible, hv]; rfl
  refine ⟨l, s, hx, ht, _, by simp only [ht', syncDtor, baseDtor]; rfl, by decide⟩

/-- **C38, the case of `C38_sync_partial`**: in that execution the clean-up that the destructor of the table
does not do would have freed the element. -/
theorem C38_sync_not_vacuous : ∃ (l : List (Ev Nat (Op Nat Nat) (SRes Nat))) (s : Sync.DSt Nat Nat Nat Nat),
    Exec (Sync.DStepW false heapCall) (Sync.DSt.init exE 0) l s ∧ growTrace l = [.malloc 5] ∧
    (∀ i, s.thr i = .idle) ∧ s.p.stage = .solo 1 ∧
    hrun noBlocks (growTrace l ++ (slotCleanup (s.env 1) (published (s.mem 1))).map .free) = .ok noBlocks := by
  obtain ⟨l, s, h, hv, ht, -, -, hst, hi⟩ := Sync.C30_not_vacuous
  have hx : Exec (Sync.DStepW false heapCall) (Sync.DSt.init exE 0) l s := by
    refine sync_recallX h fun i o hm => ?_
    have := call_visible hm
    rw [hv] at this
    simp only [List.mem_cons, List.not_mem_nil, or_false, reduceCtorEq, false_or, Ev.call.injEq] at this
    rcases this with ⟨-, rfl⟩ | ⟨-, rfl⟩ <;> trivial
  have ht' : growTrace l = [.malloc 5] := by unfold growTrace; rw [← trace_visible, hv]; rfl
  refine ⟨l, s, hx, ht', hi, hst, C38_sync_partial exE_ok (by decide) hx ?_ hi hst⟩
  rw [ht']; simp [hrun, noBlocks]

/-- Freeing an element that occurs twice. -/
theorem hrun_free_dup {L : List Addr} (hd : ¬ L.Nodup) (h : Addr → Bool) : hrun h (L.map .free) = .badFree := by
  have gone : ∀ (L : List Addr) (h : Addr → Bool) (a : Addr), h a = false → a ∈ L →
      hrun h (L.map .free) = .badFree := by
    intro L
    induction L with
    | nil => nofun
    | cons b L ih =>
      intro h a ha hm
      simp only [List.map_cons, hrun]
      split
      · rename_i hb
        rcases List.mem_cons.1 hm with rfl | hm
        · rw [ha] at hb; cases hb
        · exact ih _ a (by simp [ha]) hm
      · rfl
  induction L generalizing h with
  | nil => exact absurd List.nodup_nil hd
  | cons b L ih =>
    simp only [List.map_cons, hrun]
    split
    · by_cases hm : b ∈ L
      · exact gone L _ b (by simp) hm
      · exact ih (fun hn => hd (List.nodup_cons.2 ⟨hm, hn⟩)) _
    · rfl

theorem filterMap_dup {α : Type} {f : Nat → Option α} {n i j : Nat} {a : α} (hij : i < j) (hj : j < n)
    (h1 : f i = some a) (h2 : f j = some a) : ¬ ((List.range n).filterMap f).Nodup := by
  intro hn
  have e : List.range n = List.range j ++ (List.range (n - j)).map (j + ·) := by
    rw [← List.range_add]; congr 1; omega
  rw [e, List.filterMap_append, List.nodup_append] at hn
  refine hn.2.2 a (List.mem_filterMap.2 ⟨i, List.mem_range.2 hij, h1⟩) a
    (List.mem_filterMap.2 ⟨j, List.mem_map.2 ⟨0, List.mem_range.2 (by omega), rfl⟩, h2⟩) rfl

theorem dup_dtor {s : Async.DSt Nat Nat Nat Nat} (hg : s.p.glob = 1)
    (he : s.env = Async.upd (fun _ => exM) 1 Async.exM2) (hm : s.mem 1 = Async.tgt3) (h : Addr → Bool) :
    hrun h (asyncDtor s) = .badFree := by
  have ht : Async.exM2.M.total = 2048 := Async.exM2_facts.2.1
  simp only [asyncDtor, baseDtor, Bool.false_eq_true, if_false, List.append_nil, hg, he, hm, Async.upd_same]
  refine hrun_free_dup (filterMap_dup (i := 1023) (j := 1024) (a := 8) (by omega) ?_ rfl rfl) h
  rw [ht]; omega

/-- **C38 is false for asynchronous growth** (executions with a torn mark; `complex_slot` updates the copy
when the mark fails, `complex_slot.hpp:498-507`): two elements are inserted, a growth step copies
the pointer to one of them into two slots of the new table, and the destructor frees it twice.  Only
two calls are made, both succeed, and no thread is inside the table when it is destroyed. -/
theorem C38_async_double_free : ∃ s : Async.DSt Nat Nat Nat Nat,
    Exec (Async.DStep true heapCall) (Async.DSt.init exM 0)
      [.call 0 (.insert 511 7), .ret 0 (.insert 511 7) ⟨true, none⟩,
       .call 0 (.insert 1023 8), .ret 0 (.insert 1023 8) ⟨true, none⟩] s ∧
    s.p.pc 0 = .idle ⟨0, 0⟩ ∧ s.p.pc 1 = .idle ⟨1, 1⟩ ∧ s.thr 0 = .idle ∧ s.thr 1 = .idle ∧
    ∃ used, hrun noBlocks [.malloc 7, .malloc 8] = .ok used ∧
      hrun noBlocks ([.malloc 7, .malloc 8] ++ asyncDtor s) = .badFree := by
  obtain ⟨s, o, o1, src, h, ho1, hA, hH, hm⟩ := Async.dup_run (ok := heapCall) (fun _ _ => trivial)
  obtain ⟨⟨glob, epoch, help, heap, pc, cur⟩, env, mem, torn, jobs, thr⟩ := s
  obtain ⟨a1, a2, a3, a4, a5, a6, a7⟩ := hA
  obtain ⟨b1, b2, b3, b4, b5⟩ := hH
  simp only at a1 a2 a3 a4 a5 a6 a7 b1 b2 b3 b4 b5 hm
  subst a1 a2 a3 b1
  have g0 := h.mono (fun _ _ _ hs => hs.1)
  have g1 := g0.silent (.retire (Async.Step.egRetire (t := 1) (h := ⟨0, 0⟩) a5 a6))
  have g2 := g1.silent (.quiet (Async.Step.unprot (t := 1) (h := ⟨0, 0⟩) rfl))
  have g3 := g2.silent (.quiet (Async.Step.prot (t := 1) rfl a7))
  have g4 := g3.silent (.quiet (Async.Step.ldDone (t := 1) (a := 1) rfl a7 ho1 (by decide)))
  refine ⟨_, g4, a4, ?_, b2, b3, _, rfl, ?_⟩
  · show Async.PC.idle ⟨1, o1.ver⟩ = _
    rw [ho1]
  · have e := dup_dtor (s := ⟨⟨1, 1, 0, heap, pc, cur⟩, Async.upd (fun _ => exM) 1 Async.exM2, mem, torn, jobs, thr⟩)
      rfl rfl hm
    rw [hrun_append]
    exact e _

/-- A thread that makes no call is idle. -/
theorem async_idle {T A K : Type} [DecidableEq T] [DecidableEq A] [DecidableEq K] {u : Bool}
    {ok : Op K Addr → Prop} {E : Env K} {t : A} {l : List (Ev T (Op K Addr) (SRes Addr))}
    {s : Async.DSt T A K Addr} (h : Exec (Async.DStep u ok) (Async.DSt.init E t) l s) (i : T)
    (hi : ∀ o, .call i o ∉ l) : s.thr i = .idle := by
  have key : ∀ {s s' : Async.DSt T A K Addr} {e}, Async.DStep u ok s e s' → (∀ o, e ≠ some (.call i o)) →
      s.thr i = .idle → s'.thr i = .idle := by
    intro s s' e hs he hi
    have other : ∀ {t : T} {x : Async.UThr K Addr}, s.thr t ≠ .idle → setAt s.thr t x i = .idle := by
      intro t x ht
      rw [setAt_other (fun e => ht (by rw [← e]; exact hi))]
      exact hi
    cases hs with
    | @call t h op hp ht ho =>
      have hne : i ≠ t := fun e => he op (by rw [e])
      simp only [setAt_other hne]; exact hi
    | ret hp ht => exact other (by rw [ht]; nofun)
    | enter hs ht => exact other (by rw [ht]; nofun)
    | op hs ht hst => exact other (by rw [ht]; nofun)
    | opDone hs ht hst hx => exact other (by rw [ht]; nofun)
    | opAgain hs ht hst hx => exact other (by rw [ht]; nofun)
    | exitAgain hs ht => exact other (by rw [ht]; nofun)
    | _ => exact hi
  induction h with
  | init => rfl
  | silent _ hs ih => exact key hs nofun (ih hi)
  | vis _ hs ih =>
    refine key hs (fun o e => ?_) (ih fun o hm => hi o (List.mem_append_left _ hm))
    cases e
    exact hi o (List.mem_append_right _ List.mem_cons_self)

/-- **C38, not vacuous for the asynchronous strategy**: an execution as in `C38_async_partial`, with a growth
step, an insertion into the table that is being migrated, and no call running at the end. -/
theorem C38_async_not_vacuous : ∃ s : Async.DSt Nat Nat Nat Nat,
    Exec (Async.DStepW false heapCall) (Async.DSt.init exM 0)
      [.call 0 (.insert 511 7), .ret 0 (.insert 511 7) ⟨true, none⟩,
       .call 0 (.insert 1023 8), .ret 0 (.insert 1023 8) ⟨true, none⟩] s ∧
    s.p.glob = 1 ∧ (∀ i, s.thr i = .idle) ∧ ∃ used, hrun noBlocks [.malloc 7, .malloc 8] = .ok used ∧
      hrun noBlocks ([.malloc 7, .malloc 8] ++ asyncDtor s) = .ok noBlocks := by
  obtain ⟨s, h, hA, hH, hj⟩ := Async.part_a false true (ok := heapCall) (fun _ _ => trivial)
  obtain ⟨s, h, hA, hH, hm, hj⟩ := Async.part_b h hA hH hj
  obtain ⟨s, h, hA, hH, hm, hj⟩ := Async.blockX h hA (m := ⟨Async.src0, freshTarget Async.exM2, false⟩) hH hm hj
    (Async.job_to_tail false) (fun _ => rfl)
  obtain ⟨s', h, hA, hH, hj', hm'⟩ := Async.insertX h hA hH
  obtain ⟨src3, hr⟩ := Async.job_good false
  obtain ⟨s, h, hA, hH, hm, hj⟩ := Async.blockX h hA (m := ⟨Async.src2, Async.tgt1, false⟩) hH
    (by rw [hm']; exact hm) (by rw [hj']; exact hj) hr (fun _ => rfl)
  obtain ⟨s', o, h, hA, hH, hm'⟩ := Async.part_d h rfl hA hH hj rfl (fun _ => rfl)
  have hX := h.mono (fun _ _ _ => Async.XStep.stepW)
  have hq : ∀ i, s'.thr i = .idle := by
    intro i
    by_cases e : i = 0
    · rw [e]; exact hH.thr0
    · refine async_idle (h.mono fun _ _ _ hs => hs.1) i fun o hm => ?_
      simp only [List.mem_cons, List.mem_append, List.not_mem_nil, or_false, reduceCtorEq,
        Ev.call.injEq, e, false_and] at hm
  refine ⟨s', hX, hA.glob, hq, _, rfl, ?_⟩
  exact C38_async_partial exM_ok (by decide) rfl hX nofun hq

/-- Two threads insert an element with the same key; both then look for it. (example, no code) -/
def heapSched : List (Sched Bool Nat Nat) :=
  [.call false (.insert 1 10), .call true (.insert 1 11), .step false, .step true, .step false, .step true,
   .step true, .ret false, .ret true, .call true (.find 1), .step true, .ret true]

/-- **C38, not vacuous for the bounded table**: one of two racing insertions fails and frees its element, the
other one is freed by the destructor. -/
theorem C38_bounded_not_vacuous : ∃ l s, Exec (CStep exE heapCall) (CSt.init : CSt Bool Nat Nat) l s ∧
    baseTrace l = [.malloc 10, .malloc 11, .free 11] ∧ (∀ i, s.thr i = .idle) ∧
    hrun noBlocks ([.malloc 10, .malloc 11, .free 11] ++ baseDtor true exE s.tbl) = .ok noBlocks := by
  have hrun' : (runSched exE heapSched CSt.init).map (fun x => (baseTrace x.1, x.2.thr true, x.2.thr false)) =
      some ([.malloc 10, .malloc 11, .free 11], .idle, .idle) := by rfl
  cases h : runSched exE heapSched CSt.init with
  | none => rw [h] at hrun'; cases hrun'
  | some x =>
    obtain ⟨l, s⟩ := x
    rw [h] at hrun'
    simp only [Option.map_some, Option.some.injEq, Prod.mk.injEq] at hrun'
    have hX := runSched_sound (ok := heapCall) heapSched [] CSt.init s l (by
      simp [heapSched, Sched.allowed, heapCall]) .init h
    simp only [List.nil_append] at hX
    have hq : ∀ i, s.thr i = .idle := by
      intro i; cases i
      · exact hrun'.2.2
      · exact hrun'.2.1
    refine ⟨l, s, hX, hrun'.1, hq, ?_⟩
    obtain ⟨_, _, _, _, h4⟩ := C38_bounded exE_ok hX (by rw [hrun'.1]; nofun)
    rw [hrun'.1] at h4
    exact h4 hq

end HeapMem
end Growt
