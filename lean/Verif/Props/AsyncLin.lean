import Verif.AsyncDataInv
import Verif.Props.Conc
import Verif.Props.SyncLin
import Verif.Props.Async

/-!
# C24: operations on an asynchronously growing table

Any number of threads and handles, any calls of the operations that are meant for concurrent use, any
number of growth steps, every sequentially consistent interleaving of single accesses - also with the
steps of `migrate`.
-/

set_option linter.unusedSectionVars false

namespace Growt
namespace Async
section
variable {T A K V : Type} [DecidableEq T] [DecidableEq A] [DecidableEq K] [DecidableEq V] [Inhabited V]

/-- A step after which the limits hold and no mark was torn. (specification, no code) -/
def DStepW (u : Bool) (ok : Op K V → Prop) (s : DSt T A K V) (e : Option (Ev T (Op K V) (SRes V)))
    (s' : DSt T A K V) : Prop := DStep u ok s e s' ∧ s'.Within ∧ s'.torn = false

/-- Every execution can be completed by effects (`lin` events) to a well formed history whose effects
are those of an ideal map. -/
theorem dexec_explained {u : Bool} {ok : Op K V → Prop} (hok : ∀ op, ok op → op.isSafe) {E : Env K}
    (hk : Sync.Kind true E) {a : A} {l : List (Ev T (Op K V) (SRes V))} {s : DSt T A K V}
    (h : Exec (DStepW u ok) (DSt.init E a) l s) :
    ∃ ev d D, visible ev = l ∧ WellFormed (fun _ => .idle) ev (s.phases D) ∧
      Legal (Sync.growObj true) (fun _ => none) (effects ev) d ∧ DInv u ok s d D := by
  have key : ∀ {l : List (Ev T (Op K V) (SRes V))} {s s' : DSt T A K V} {e}, (∃ ev d D, visible ev = l ∧ WellFormed (fun _ => .idle) ev (DSt.phases s D) ∧
      Legal (Sync.growObj true) (fun _ => none) (effects ev) d ∧ DInv u ok s d D) →
      DStepW u ok s e s' →
      ∃ ev d D, visible ev = l ++ e.toList ∧ WellFormed (fun _ => .idle) ev (DSt.phases s' D) ∧
      Legal (Sync.growObj true) (fun _ => none) (effects ev) d ∧ DInv u ok s' d D := by
    rintro l s s' e ⟨ev, d, D, hv, hw, hl, hI⟩ hs
    obtain ⟨d', D', ev', hI', hv', hw', hl'⟩ := hI.next hok hs.1 hs.2.1 hs.2.2
    exact ⟨ev ++ ev', d', D', by rw [visible_append, hv, hv'], hw.append hw',
      by rw [effects_append]; exact hl.append hl', hI'⟩
  induction h with
  | init => exact ⟨[], _, fun _ _ => none, rfl, .nil _, .nil _, DInv.init hk a _⟩
  | silent h hs ih => simpa using key ih hs
  | vis h hs ih => exact key ih hs

/-- **C24.**  For every number of threads and handles, every sequence of calls of operations made for
concurrent use, every sequentially consistent interleaving - also of single accesses of `migrate` with
the operations - and any number of growth steps: the calls through the handles of an asynchronously
growing table are linearizable with respect to an ideal map (which never refuses an insertion).

Missing for the full claim (hence `_partial`): executions in which a mark behind the end of a block
fails because the slot was changed after it was loaded (`torn`): then the claim is false, see
`C24_torn_mark_loses_element`.  Tables are not grown beyond `2^32` slots, and with circular probing a
table that is being migrated has a free slot (`Within`; C23). -/
theorem C24_linearizable_partial {u : Bool} {ok : Op K V → Prop} (hok : ∀ op, ok op → op.isSafe)
    {E : Env K} (hE : E.OK) (hcombo : E.M.cm = true → E.M.cp = true) (hm : E.m = true) {a : A}
    {l : List (Ev T (Op K V) (SRes V))} {s : DSt T A K V}
    (h : Exec (DStepW u ok) (DSt.init E a) l s) : Linearizable (Sync.growObj true) l := by
  obtain ⟨ev, d, D, hv, hw, hl, -⟩ := dexec_explained hok ⟨hE, hcombo, hm⟩ h
  exact ⟨ev, _, d, hv, hw, hl⟩

/-- All tables of linear probing. -/
theorem DStep.linear {u : Bool} {ok : Op K V → Prop} {s s' : DSt T A K V}
    {e : Option (Ev T (Op K V) (SRes V))} (hs : DStep u ok s e s')
    (h : ∀ a, (s.env a).M.cp = false) (a : A) : (s'.env a).M.cp = false := by
  cases hs with
  | @make p' t a' b o i d hs ho hn =>
    simp only [upd]
    split
    · exact h a'
    · exact h a
  | _ => exact h a

/-- **C24 for linear probing** (the default): the only limits are the size of the tables and torn
marks. -/
theorem C24_linear_probing_partial {u : Bool} {ok : Op K V → Prop} (hok : ∀ op, ok op → op.isSafe)
    {E : Env K} (hE : E.OK) (hcm : E.M.cm = false) (hcp : E.M.cp = false) (hm : E.m = true) {a : A}
    {l : List (Ev T (Op K V) (SRes V))} {s : DSt T A K V}
    (h : Exec (fun s e s' => DStep u ok s e s' ∧ (∀ a, (s'.env a).M.addr < 2 ^ 32) ∧ s'.torn = false)
      (DSt.init E a : DSt T A K V) l s) : Linearizable (Sync.growObj true) l := by
  have room : ∀ {E : Env K} {t : Tbl K V}, E.M.cp = false → HasRoom E t :=
    fun h hc => by rw [h] at hc; cases hc
  have key : Exec (DStepW u ok) (DSt.init E a : DSt T A K V) l s ∧ ∀ a, (s.env a).M.cp = false := by
    induction h with
    | init => exact ⟨.init, fun _ => hcp⟩
    | silent _ hs ih =>
      have hl := hs.1.linear ih.2
      exact ⟨.silent ih.1 ⟨hs.1, ⟨fun a _ _ => hs.2.1 a, fun _ _ _ => room (hl _)⟩, hs.2.2⟩, hl⟩
    | vis _ hs ih =>
      have hl := hs.1.linear ih.2
      exact ⟨.vis ih.1 ⟨hs.1, ⟨fun a _ _ => hs.2.1 a, fun _ _ _ => room (hl _)⟩, hs.2.2⟩, hl⟩
  exact C24_linearizable_partial hok hE (by rw [hcm]; simp) hm key.1

/-- **C24, C11, C20.**  In the same executions no operation accesses a slot outside the allocation or
one that was never written, and no helper does so in `migrate` (in a step that does not tear a mark). -/
theorem C24_no_wild_access_partial {u : Bool} {ok : Op K V → Prop} (hok : ∀ op, ok op → op.isSafe)
    {E : Env K} (hE : E.OK) (hcombo : E.M.cm = true → E.M.cp = true) (hm : E.m = true) {a : A}
    {l : List (Ev T (Op K V) (SRes V))} {s : DSt T A K V}
    (h : Exec (DStepW u ok) (DSt.init E a) l s) (t : T) :
    (∀ h op pc, s.p.pc t = .use h → s.thr t = .busy op pc →
      (step (s.env h.tab) op pc (published (s.mem h.tab))).2 ≠ .oob ∧
      ∀ q, q < (s.env h.tab).M.total → s.mem h.tab q ≠ none) ∧
    (∀ w c n k pc, s.p.pc t = .mg5 w c n k → s.jobs c (k * blockSize) = some pc →
      pc.ended = false → (jobStep ⟨s.env c, s.env n, u⟩ (blockEnd (s.env c).M.addr (k * blockSize)) pc
        ⟨published (s.mem c), s.mem n, s.torn⟩).1.torn = false →
      ∃ m pc', jobStep ⟨s.env c, s.env n, u⟩ (blockEnd (s.env c).M.addr (k * blockSize)) pc
        ⟨published (s.mem c), s.mem n, s.torn⟩ = (m, .cont pc')) := by
  obtain ⟨ev, d, D, -, -, -, hI⟩ := dexec_explained hok ⟨hE, hcombo, hm⟩ h
  constructor
  · intro h op pc hp ht
    obtain ⟨h1, h2⟩ := hI.opAt hp ht
    have hh := hI.holds hp
    have hk := hI.kindOf hh
    have hT : ∃ d', Tab (s.env h.tab) (s.mem h.tab) d' := by
      rcases hI.usedTab hh with e | ⟨-, e | e⟩
      · exact ⟨_, e.2.2.2⟩
      · exact ⟨_, e.2.2⟩
      · exact ⟨_, e.2⟩
    obtain ⟨d', hT⟩ := hT
    refine ⟨fun hoob => ?_, hT.full⟩
    have hg := step_good hk.ok hT.inv h2 (safe_act hk.slots (hok _ h1) _)
    unfold StepGood at hg
    rw [hoob] at hg
    exact hg.2.2
  · intro w c n k pc hp hj he htn
    obtain ⟨o, -, -, -, -, -, -, hM⟩ := hI.blockAt hp
    obtain ⟨k', g, hS, hC⟩ := hM.core
    have hst := step_ok hS hC hj he
    have hA : (s.env c).M.addr = 2 ^ k' := hS.addr
    rw [hI.torn, hA] at htn ⊢
    obtain ⟨pc', h1, -⟩ := hst htn
    exact ⟨_, pc', Prod.ext rfl h1⟩

theorem answer_or_retry (op : Op K V) (r : Ret K V) :
    (∃ x, Sync.answer op r = some x) ∨ ∃ x, retryAs op r = some x := by
  unfold Sync.answer retryAs
  cases react op r
  case grow => exact .inr ⟨_, rfl⟩
  case help => exact .inr ⟨_, rfl⟩
  all_goals exact .inl ⟨_, rfl⟩

/-- **C24.**  In the same executions a call that is inside the table or was refused by it can always
take its next step; in particular a call that was refused because of a mark finds the successor that
`help_grow` (`estrat_async.hpp:240-245`) relies on: the premise of the step `exitHelp` of the
protocol is no restriction. -/
theorem C24_calls_continue_partial {u : Bool} {ok : Op K V → Prop} (hok : ∀ op, ok op → op.isSafe)
    {E : Env K} (hE : E.OK) (hcombo : E.M.cm = true → E.M.cp = true) (hm : E.m = true) {a : A}
    {l : List (Ev T (Op K V) (SRes V))} {s : DSt T A K V}
    (h : Exec (DStepW u ok) (DSt.init E a) l s) (t : T) :
    (∀ op pc, s.thr t = .busy op pc → ∃ h g s', s.p.pc t = .use h ∧
      g = (step (s.env h.tab) op pc (published (s.mem h.tab))).1 ∧
      DStep u ok s none s' ∧ s'.p = s.p ∧ published (s'.mem h.tab) = g) ∧
    (∀ op x, s.thr t = .again op x → ∃ s', DStep u ok s none s' ∧ s'.thr t = .pend op) := by
  have hwild := (C24_no_wild_access_partial hok hE hcombo hm h t).1
  obtain ⟨ev, d, D, -, -, -, hI⟩ := dexec_explained hok ⟨hE, hcombo, hm⟩ h
  have hc := hI.call t
  constructor
  · intro op pc ht
    rw [ht] at hc
    obtain ⟨h1, h, h2, h3⟩ := hc
    obtain ⟨o, ho, -⟩ := hI.holds h2
    have hop := Step.op h2 ho.1
    have hoob := (hwild h op pc h2 ht).1
    rcases hst : step (s.env h.tab) op pc (published (s.mem h.tab)) with ⟨g, out⟩
    rw [hst] at hoob
    have e : ∀ g : Tbl K V, published (upd s.mem h.tab (Sync.store (s.mem h.tab) g) h.tab) = g := by
      intro g; simp [upd, Sync.published_store]
    refine ⟨h, g, ?_⟩
    rw [hst]
    cases out with
    | oob => exact absurd rfl hoob
    | done r =>
      rcases answer_or_retry op r with ⟨x, hx⟩ | ⟨x, hx⟩
      · exact ⟨_, h2, rfl, .opDone hop ht hst hx, rfl, e g⟩
      · exact ⟨_, h2, rfl, .opAgain hop ht hst hx, rfl, e g⟩
    | cont pc' => exact ⟨_, h2, rfl, .op hop ht hst, rfl, e g⟩
  · intro op x ht
    rw [ht] at hc
    obtain ⟨h1, h, h2, h3⟩ := hc
    obtain ⟨o, ho, -⟩ := hI.holds h2
    cases x with
    | done => exact ⟨_, .exitAgain (Step.exitDone h2) ht, setAt_same ..⟩
    | grow => exact ⟨_, .exitAgain (Step.exitGrow h2) ht, setAt_same ..⟩
    | help =>
      obtain ⟨o, h4, h5⟩ := h3 rfl
      exact ⟨_, .exitAgain (Step.exitHelp h2 h4 h5) ht, setAt_same ..⟩

end
end Async
end Growt
