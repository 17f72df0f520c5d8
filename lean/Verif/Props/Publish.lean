import Verif.Publish
import Verif.Props.HeapMem

/-!
# C67: elements on the heap are seen constructed

A thread that gets the address of an element out of a slot must see the element as it was constructed.
-/

set_option linter.unusedSectionVars false

namespace Growt
namespace HeapMem
section
variable {T A K : Type} [DecidableEq T] [DecidableEq A] [DecidableEq K]

/-! ## x86 -/

/-- The bounded table on a machine with store buffers. (specification, no code) -/
abbrev X86Base (E : Env K) := TStep (CStep (T := T) E heapCall) alloc? (fun o r => freed o (r.ok o)) rmwBase

/-- The table with asynchronous growth on a machine with store buffers. (specification, no code) -/
abbrev X86Async (u : Bool) :=
  TStep (Async.DStep (T := T) (A := A) (K := K) u heapCall) alloc? (fun o x => freed o x.ok) rmwAsync

/-- The table with synchronised growth on a machine with store buffers. (specification, no code) -/
abbrev X86Sync (u : Bool) :=
  TStep (Sync.DStep (T := T) (A := A) (K := K) u heapCall) alloc? (fun o x => freed o x.ok) rmwSync

/-- **C67 on x86, tables that do not grow.**  For any number of threads and every interleaving of their accesses and
of the delayed stores: an element that a slot, a local variable of a call or a result refers to is completely
constructed in memory. -/
theorem C67_x86_bounded {E : Env K} {m : Addr → Bool} {l : List (TEv T K Addr)} {x : TSt (CSt T K Addr) T}
    (h : Exec (X86Base E) ⟨CSt.init, m, fun _ => []⟩ l x) (hsane : hrun noBlocks (baseTrace l) ≠ .badAlloc) :
    ∀ a, baseReach x.s a → x.init a = true :=
  (tso_reached (s0 := CSt.init) (base_discipline (T := T) E) (fun _ hs hc hr => base_rmw hs hc hr) (fun _ => trivial) base_start
    (fun _ => rfl) h hsane).reached

theorem async_tso {u : Bool} {x0 x : TSt (Async.DSt T A K Addr) T} {l : List (Ev T (Op K Addr) (SRes Addr))}
    (h : Exec (X86Async u) x0 l x) :
    Exec (TStep VStep alloc? (fun o x => freed o x.ok) rmwView) ⟨asyncView x0.s, x0.init, x0.buf⟩ l
      ⟨asyncView x.s, x.init, x.buf⟩ := by
  have key : ∀ {x x' : TSt (Async.DSt T A K Addr) T} {e}, X86Async u x e x' →
      TStep VStep alloc? (fun o x => freed o x.ok) rmwView ⟨asyncView x.s, x.init, x.buf⟩ e
        ⟨asyncView x'.s, x'.init, x'.buf⟩ := by
    intro x x' e hs
    cases hs with
    | quiet h hc hr hb =>
      refine .quiet (async_view h) hc hr fun i hi => hb i ?_
      obtain ⟨op, j, att, c, h1, h2⟩ := hi
      refine ⟨op, j, att, c, ?_, fun e => h2 (congrArg asyncCall e)⟩
      have h1 : asyncCall (_ : Async.UThr K Addr) = _ := h1
      revert h1
      generalize Async.DSt.thr _ i = w
      intro h1
      cases w <;> cases h1
      rfl
    | call h => exact .call (async_view h)
    | ret h hb => exact .ret (async_view h) hb
    | flush h => exact .flush h
  induction h with
  | init => exact .init
  | silent _ hs ih => exact .silent ih (key hs)
  | vis _ hs ih => exact .vis ih (key hs)

theorem sync_tso {u : Bool} {x0 x : TSt (Sync.DSt T A K Addr) T} {l : List (Ev T (Op K Addr) (SRes Addr))}
    (h : Exec (X86Sync u) x0 l x) :
    Exec (TStep VStep alloc? (fun o x => freed o x.ok) rmwView) ⟨syncView x0.s, x0.init, x0.buf⟩ l
      ⟨syncView x.s, x.init, x.buf⟩ := by
  have key : ∀ {x x' : TSt (Sync.DSt T A K Addr) T} {e}, X86Sync u x e x' →
      TStep VStep alloc? (fun o x => freed o x.ok) rmwView ⟨syncView x.s, x.init, x.buf⟩ e
        ⟨syncView x'.s, x'.init, x'.buf⟩ := by
    intro x x' e hs
    cases hs with
    | quiet h hc hr hb =>
      refine .quiet (sync_view h) hc hr fun i hi => hb i ?_
      obtain ⟨op, j, att, c, h1, h2⟩ := hi
      refine ⟨op, j, att, c, ?_, fun e => h2 (congrArg syncCall e)⟩
      have h1 : syncCall (_ : Sync.UThr K Addr) = _ := h1
      revert h1
      generalize Sync.DSt.thr _ i = w
      intro h1
      cases w <;> cases h1
      rfl
    | call h => exact .call (sync_view h)
    | ret h hb => exact .ret (sync_view h) hb
    | flush h => exact .flush h
  induction h with
  | init => exact .init
  | silent _ hs ih => exact .silent ih (key hs)
  | vis _ hs ih => exact .vis ih (key hs)

theorem view_tso {v0 : View T A K} (hm : ∀ a, ¬ memReach v0.mem v0.jobs a) (ht : ∀ i, v0.thr i = .idle)
    {m : Addr → Bool} {l : List (Ev T (Op K Addr) (SRes Addr))} {x : TSt (View T A K) T}
    (h : Exec (TStep VStep alloc? (fun o x => freed o x.ok) rmwView) ⟨v0, m, fun _ => []⟩ l x)
    (hsane : hrun noBlocks (growTrace l) ≠ .badAlloc) : ∀ a, x.s.reach a → x.init a = true :=
  (tso_reached grow_discipline (fun _ hs hc hr => view_rmw hs hc hr) (fun i => by rw [ht i]; trivial)
    (fun a ha => by
      rcases ha with h | ⟨i, hi⟩
      · exact hm a h
      · rw [ht i] at hi; exact hi) (fun i => by rw [ht i]; rfl) h hsane).reached

/-- **C67 on x86, asynchronous growth**: the same, also for elements reached through any table that exists or has
existed, and through local variables of `migrate`; any number of growth steps. -/
theorem C67_x86_async {u : Bool} {E : Env K} {t : A} {m : Addr → Bool} {l : List (Ev T (Op K Addr) (SRes Addr))}
    {x : TSt (Async.DSt T A K Addr) T} (h : Exec (X86Async u) ⟨Async.DSt.init E t, m, fun _ => []⟩ l x)
    (hsane : hrun noBlocks (growTrace l) ≠ .badAlloc) : ∀ a, (asyncView x.s).reach a → x.init a = true :=
  view_tso (init_reach fun _ _ => rfl) (fun _ => rfl) (async_tso h) hsane

/-- **C67 on x86, synchronised growth**: the same. -/
theorem C67_x86_sync {u : Bool} {E : Env K} {t : A} {m : Addr → Bool} {l : List (Ev T (Op K Addr) (SRes Addr))}
    {x : TSt (Sync.DSt T A K Addr) T} (h : Exec (X86Sync u) ⟨Sync.DSt.init E t, m, fun _ => []⟩ l x)
    (hsane : hrun noBlocks (growTrace l) ≠ .badAlloc) : ∀ a, (syncView x.s).reach a → x.init a = true :=
  view_tso (init_reach fun _ _ => rfl) (fun _ => rfl) (sync_tso h) hsane

/-! ## The language -/

/-- The first insertion into an empty table. -/
theorem first_insert {E : Env K} (hE : E.OK) (k : K) (a : Addr) :
    E.M.remap (E.M.map (E.h k)) < E.M.total ∧
    step E (.insert k a) (.load (E.M.map (E.h k)) 0) emptyTbl =
      (emptyTbl, .cont (.act (E.M.map (E.h k)) 0 Cell.emptyCell)) ∧
    step E (.insert k a) (.act (E.M.map (E.h k)) 0 Cell.emptyCell) emptyTbl =
      ((emptyTbl : Tbl K Addr).set (E.M.remap (E.M.map (E.h k))) (Cell.liveCell k a),
        .done ⟨some .SUCCESS_IN, some (E.M.remap (E.M.map (E.h k)), Cell.emptyCell)⟩) := by
  obtain ⟨n, hw⟩ := hE.wf
  have h1 := hw.map_lt (hE.hash k)
  have h2 := hw.addr_le_total
  have hp : E.M.remap (E.M.map (E.h k)) < E.M.total := by
    cases hcp : E.M.cp
    · rw [Mapper.remap_lin hcp]; omega
    · exact hw.remap_lt_cp hcp _
  refine ⟨hp, ?_, ?_⟩
  · have hf : tooFar E (E.M.remap (E.M.map (E.h k))) = false := by
      unfold tooFar
      cases hcp : E.M.cp
      · rw [Mapper.remap_lin hcp]; simp; omega
      · rfl
    simp [step, hp, afterLoad, emptyTbl, hf, Cell.isEmpty, Cell.emptyCell]
  · simp [step, hp, actStep, casStep, emptyTbl]

/-- An insertion by thread `i` and a lookup by thread `j` that is about to load the slot. -/
theorem insert_find {o : Orders} {E : Env K} (hE : E.OK) {i j : T} (hij : i ≠ j) (k : K) (a : Addr) :
    ∃ (l : List (TEv T K Addr)) (x : PSt T K), Exec (PStep o E) PSt.init l x ∧
      hrun noBlocks (baseTrace l) ≠ .badAlloc ∧ Reads E x.c j (E.M.remap (E.M.map (E.h k))) a ∧
      x.know j a = false ∧ x.msg (E.M.remap (E.M.map (E.h k))) a = o.rel := by
  obtain ⟨hp, s1, s2⟩ := first_insert hE k a
  have e1 : Exec (PStep o E) (PSt.init : PSt T K) [.call i (.insert k a)] _ := .vis .init (.call rfl trivial)
  have e2 := Exec.silent e1 (.cont (i := i) (setAt_same _ _ _) s1)
  have e3 := Exec.vis e2 (.done (i := i) (setAt_same _ _ _) s2)
  have e4 := Exec.vis e3 (.call (i := j) (op := .find k) (by
    show setAt _ i _ j = _
    rw [setAt_other (Ne.symm hij)]
    show setAt _ i _ j = _
    rw [setAt_other (Ne.symm hij)]
    show setAt _ i _ j = _
    rw [setAt_other (Ne.symm hij)]; rfl) trivial)
  refine ⟨_, _, e4, ?_, ⟨.find k, _, 0, setAt_same _ _ _, rfl, hp, ?_⟩, ?_, ?_⟩
  · simp [baseTrace, trace, alloc?, hrun, noBlocks]
  · simp [Tbl.set, Cell.liveCell, Op.key]
  · have hji := Ne.symm hij
    cases h : o.acq <;> simp [setB, alloc?, learn, start, hji, setAt, h]
  · cases h : o.rel <;> cases h' : o.acq <;>
      simp [setB, alloc?, tell, learn, PSt.init, start, casSlot, CSt.init, emptyTbl, h, h', setAt_same]

/-- **C67 in the language, the code violates it.**  In every table that does not grow, for every key and every two
threads: a lookup can read the key of an element whose construction does not happen before the read; the load
and the compare-and-swap are relaxed, so this is a data race. -/
theorem C67_relaxed_is_a_race {E : Env K} (hE : E.OK) {i j : T} (hij : i ≠ j) (k : K) (a : Addr) :
    ∃ (l : List (TEv T K Addr)) (x : PSt T K) (p : Nat), Exec (PStep codeOrders E) PSt.init l x ∧
      hrun noBlocks (baseTrace l) ≠ .badAlloc ∧ Reads E x.c j p a ∧ Seen codeOrders x j p a = false := by
  obtain ⟨l, x, h, hs, hr, h1, h2⟩ := insert_find (o := codeOrders) hE hij k a
  exact ⟨l, x, _, h, hs, hr, by simp [Seen, h1, codeOrders]⟩

/-- **C67 in the language, what would be needed.**  There are no such races in any execution of a table that does not
grow if and only if the load acquires and the compare-and-swap releases. -/
theorem C67_release_acquire_is_needed {E : Env K} (hE : E.OK) {i j : T} (hij : i ≠ j) (k : K) (o : Orders) :
    (∀ (l : List (TEv T K Addr)) (x : PSt T K), Exec (PStep o E) PSt.init l x →
      hrun noBlocks (baseTrace l) ≠ .badAlloc → ∀ t p a, Reads E x.c t p a → Seen o x t p a = true) ↔
    o.acq = true ∧ o.rel = true := by
  constructor
  · intro h
    obtain ⟨l, x, hx, hs, hr, h1, h2⟩ := insert_find (o := o) hE hij k 0
    have := h l x hx hs j _ 0 hr
    simpa [Seen, h1, h2] using this
  · rintro ⟨hacq, hrel⟩ l x hx hs t p a ⟨op, q, att, -, rfl, -, hc⟩
    have := (PInv.reach hacq hrel hx hs).slot (E.M.remap q) a (by simp [Cell.val?, hc])
    simp [Seen, hacq, this]

/-- With these orders a thread also sees the construction of every element to which a local variable of its call or
the result of its call refers. -/
theorem C67_release_acquire_results {E : Env K} {o : Orders} (hacq : o.acq = true) (hrel : o.rel = true)
    {l : List (TEv T K Addr)} {x : PSt T K} (h : Exec (PStep o E) PSt.init l x)
    (hsane : hrun noBlocks (baseTrace l) ≠ .badAlloc) :
    (∀ i op pc a, x.c.thr i = .busy op pc → pcCopy pc = some a → x.know i a = true) ∧
    (∀ i op r a, x.c.thr i = .fin op r → baseShown op r a → x.know i a = true) := by
  have hI := PInv.reach hacq hrel h hsane
  exact ⟨fun i op pc a h1 h2 => hI.held i a (by rw [h1]; exact h2),
    fun i op r a h1 h2 => hI.held i a (by rw [h1]; exact h2)⟩

/-! ## The hypotheses can be met -/

/-- Every execution of the system is possible with store buffers (flush after every call). -/
theorem tso_all {S O R : Type} {step : S → Option (Ev T O R) → S → Prop} {al : O → Option Addr}
    {fr : O → R → Option Addr} {rmw : S → S → T → Prop} {s0 s : S} {l : List (Ev T O R)} (h : Exec step s0 l s)
    (m : Addr → Bool) : ∃ m', Exec (TStep step al fr rmw) ⟨s0, m, fun _ => []⟩ l ⟨s, m', fun _ => []⟩ := by
  have back : ∀ (i : T) (b : List Addr), setAt (setAt (fun _ : T => ([] : List Addr)) i b) i [] = fun _ => [] := by
    intro i b; funext j; simp only [setAt]; split <;> rfl
  have same : ∀ (i : T), setAt (fun _ : T => ([] : List Addr)) i [] = fun _ => [] := by
    intro i; funext j; simp only [setAt]; split <;> rfl
  induction h with
  | init => exact ⟨m, .init⟩
  | silent _ hs ih =>
    obtain ⟨m', ih⟩ := ih
    exact ⟨m', .silent ih (.quiet hs nofun nofun fun _ _ => rfl)⟩
  | @vis l s s' e _ hs ih =>
    obtain ⟨m', ih⟩ := ih
    cases e with
    | lin i o r => exact ⟨m', .vis ih (.quiet hs nofun nofun fun _ _ => rfl)⟩
    | ret i o r => exact ⟨m', .vis ih (.ret hs fun _ => rfl)⟩
    | call i o =>
      have h1 := Exec.vis ih (TStep.call hs)
      cases ha : al o with
      | none =>
        rw [ha] at h1
        simp only [Option.toList_none, List.append_nil, same] at h1
        exact ⟨_, h1⟩
      | some a =>
        rw [ha] at h1
        have h2 := Exec.silent h1 (TStep.flush (i := i) (a := a) (l := []) (setAt_same _ _ _))
        rw [back] at h2
        exact ⟨_, h2⟩

/-- **C67, not vacuous on x86 and not by accident**: in every table that does not grow and for every key there is an
execution in which the construction is delayed at first and the element is reachable in the end; and if
compare-and-swap did not wait for the delayed stores, the element could be reachable before it is constructed. -/
theorem C67_x86_not_vacuous {E : Env K} (hE : E.OK) (i : T) (k : K) (a : Addr) :
    (∃ (x : TSt (CSt T K Addr) T), Exec (X86Base E) ⟨CSt.init, noBlocks, fun _ => []⟩ [.call i (.insert k a)] x ∧
      a ∈ x.buf i ∧ x.init a = false) ∧
    (∃ (l : List (TEv T K Addr)) (x : TSt (CSt T K Addr) T),
      Exec (X86Base E) ⟨CSt.init, noBlocks, fun _ => []⟩ l x ∧
      hrun noBlocks (baseTrace l) ≠ .badAlloc ∧ baseReach x.s a) ∧
    ∃ (l : List (TEv T K Addr)) (x : TSt (CSt T K Addr) T),
      Exec (TStep (CStep E heapCall) alloc? (fun o r => freed o (r.ok o)) fun _ _ _ => False)
        ⟨CSt.init, noBlocks, fun _ => []⟩ l x ∧
      hrun noBlocks (baseTrace l) ≠ .badAlloc ∧ baseReach x.s a ∧ x.init a = false := by
  obtain ⟨hp, s1, s2⟩ := first_insert hE k a
  have r : ∀ {th : T → Thr K Addr}, baseReach (⟨(emptyTbl : Tbl K Addr).set (E.M.remap (E.M.map (E.h k)))
      (Cell.liveCell k a), th⟩ : CSt T K Addr) a :=
    .inl ⟨E.M.remap (E.M.map (E.h k)), by simp [Tbl.set, Cell.liveCell, Cell.val?]⟩
  refine ⟨⟨_, .vis .init (.call (.call rfl trivial)), ?_, ?_⟩, ?_, ?_⟩
  · simp [setAt_same, alloc?]
  · simp [setB, alloc?]
  · have e1 : Exec (CStep E heapCall) (CSt.init : CSt T K Addr) [.call i (.insert k a)] _ :=
      .vis .init (.call rfl trivial)
    have e2 := Exec.silent e1 (.cont (i := i) (setAt_same _ _ _) s1)
    have e3 := Exec.vis e2 (.done (i := i) (setAt_same _ _ _) s2)
    obtain ⟨m', h⟩ := tso_all e3 noBlocks
    exact ⟨_, _, h, by simp [baseTrace, trace, alloc?, hrun, noBlocks], r⟩
  · have e1 : Exec (TStep (CStep (T := T) E heapCall) alloc? (fun o r => freed o (r.ok o)) fun _ _ _ => False)
        ⟨CSt.init, noBlocks, fun _ => []⟩ [.call i (.insert k a)] _ := .vis .init (.call (.call rfl trivial))
    have e2 := Exec.silent e1 (.quiet (.cont (i := i) (setAt_same _ _ _) s1) nofun nofun fun _ h => h.elim)
    have e3 := Exec.vis e2 (.quiet (.done (i := i) (setAt_same _ _ _) s2) nofun nofun fun _ h => h.elim)
    refine ⟨_, _, e3, by simp [baseTrace, trace, alloc?, hrun, noBlocks], r, ?_⟩
    simp [setB, alloc?]

/-- **C67, not vacuous with growth on x86**: executions as in `C67_x86_async` and `C67_x86_sync` with a growth step
and insertions before and after it. -/
theorem C67_x86_growing_not_vacuous :
    (∃ x : TSt (Async.DSt Nat Nat Nat Nat) Nat, Exec (X86Async false) ⟨Async.DSt.init exM 0, noBlocks, fun _ => []⟩
      [.call 0 (.insert 511 7), .ret 0 (.insert 511 7) ⟨true, none⟩,
       .call 0 (.insert 1023 8), .ret 0 (.insert 1023 8) ⟨true, none⟩] x ∧ x.s.p.glob = 1) ∧
    ∃ (l : List (Ev Nat (Op Nat Nat) (SRes Nat))) (x : TSt (Sync.DSt Nat Nat Nat Nat) Nat),
      Exec (X86Sync false) ⟨Sync.DSt.init exE 0, noBlocks, fun _ => []⟩ l x ∧
      hrun noBlocks (growTrace l) ≠ .badAlloc ∧ x.s.p.table = .clear 1 := by
  constructor
  · obtain ⟨s, h, hg, -⟩ := C38_async_not_vacuous
    obtain ⟨m', h'⟩ := tso_all (al := alloc?) (fr := fun (o : Op Nat Addr) (x : SRes Addr) => freed o x.ok)
      (rmw := rmwAsync) (h.mono fun _ _ _ hs => hs.1) noBlocks
    exact ⟨_, h', hg⟩
  · obtain ⟨l, s, h, ht, used, hu, -⟩ := C38_sync_leak_happens
    obtain ⟨m', h'⟩ := tso_all (al := alloc?) (fr := fun (o : Op Nat Addr) (x : SRes Addr) => freed o x.ok)
      (rmw := rmwSync) (h.mono fun _ _ _ hs => hs.1) noBlocks
    refine ⟨l, _, h', hrun_prefix (l' := syncDtor s 1) ?_, ht⟩
    rw [hu]; nofun

end
end HeapMem
end Growt
