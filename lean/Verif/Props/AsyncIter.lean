import Verif.AsyncIter
import Verif.Props.AsyncRun

/-!
# C53: modifications through iterators of an asynchronously growing table

`erase_if_unchanged` and `compare_exchange`, concurrently with all other operations and with the migration of
the table.
-/

set_option linter.unusedSectionVars false

namespace Growt
namespace Async
section
variable {T A K V : Type} [DecidableEq T] [DecidableEq A] [DecidableEq K] [DecidableEq V] [Inhabited V]

/-- A step after which the limits hold and no mark was torn. (specification, no code) -/
def IStepW (u : Bool) (ok : Op K V → Prop) (okc : Cell K V → Prop) (s : ISt T A K V)
    (e : Option (Ev T (IOp K V) (SRes V))) (s' : ISt T A K V) : Prop :=
  IStep u ok okc s e s' ∧ s'.d.Within ∧ s'.d.torn = false

/-- Every execution within the limits has a sequential explanation, and its state satisfies the invariant. -/
theorem iexec_explained {u : Bool} {ok : Op K V → Prop} (hok : ∀ op, ok op → op.isSafe) (hfind : ∀ k, ok (.find k))
    {E : Env K} (hE : E.OK) (hcombo : E.M.cm = true → E.M.cp = true) (hm : E.m = true) {a : A}
    {l : List (Ev T (IOp K V) (SRes V))} {s : ISt T A K V}
    (h : Exec (IStepW u ok (fun c => c.marked = false)) (ISt.init E a) l s) :
    ∃ ev d D, visible ev = l ∧ WellFormed (fun _ => .idle) ev (s.phases D) ∧
      Legal modObj (fun _ => none) (effects ev) d ∧ IInv u ok s d D := by
  have next : ∀ {l : List (Ev T (IOp K V) (SRes V))} {s s' : ISt T A K V} {e},
      (∃ ev d D, visible ev = l ∧ WellFormed (fun _ => .idle) ev (ISt.phases s D) ∧
        Legal modObj (fun _ => none) (effects ev) d ∧ IInv u ok s d D) →
      IStepW u ok (fun c => c.marked = false) s e s' →
      ∃ ev d D, visible ev = l ++ e.toList ∧ WellFormed (fun _ => .idle) ev (ISt.phases s' D) ∧
        Legal modObj (fun _ => none) (effects ev) d ∧ IInv u ok s' d D := by
    rintro l s s' e ⟨ev, d, D, hv, hw, hl, hI⟩ hs
    obtain ⟨d', D', ev', hI', hv', hw', hl'⟩ := hI.next hok hfind (fun _ h => h) hs.1 hs.2.1 hs.2.2
    exact ⟨ev ++ ev', d', D', by rw [visible_append, hv, hv'], hw.append hw',
      by rw [effects_append]; exact hl.append hl', hI'⟩
  induction h with
  | init => exact ⟨[], _, fun _ _ => none, rfl, .nil _, .nil _, IInv.init ⟨hE, hcombo, hm⟩ a _⟩
  | silent h hs ih => simpa using next ih hs
  | vis h hs ih => exact next ih hs

/-- **C53.**  For every number of threads and handles, every sequence of calls, every sequentially consistent
interleaving of single accesses - also with those of `migrate` - and any number of growth steps: the operations
and the modifications through iterators (`erase_if_unchanged`, `compare_exchange`) are linearizable with respect
to an ideal map, provided that the copies with which modifications are tried are not marked.  This includes
modifications through iterators of tables that have been replaced, which search their key again; the searches
have no place in the history (`hfind` says that the calls `ok` include them).

Missing for the full claim (hence `_partial`): iterators that were obtained from a marked slot, for which the
claim is false (`C53_marked_copy_loses_erasure`); torn marks (C24); what follows the use of a null pointer
(`C53_erased_element_null_pointer`).  Limits as in C24. -/
theorem C53_modifications_linearizable_partial {u : Bool} {ok : Op K V → Prop} (hok : ∀ op, ok op → op.isSafe)
    (hfind : ∀ k, ok (.find k)) {E : Env K} (hE : E.OK) (hcombo : E.M.cm = true → E.M.cp = true) (hm : E.m = true)
    {a : A} {l : List (Ev T (IOp K V) (SRes V))} {s : ISt T A K V}
    (h : Exec (IStepW u ok (fun c => c.marked = false)) (ISt.init E a) l s) :
    Linearizable modObj l := by
  obtain ⟨ev, d, D, hv, hw, hl, -⟩ := iexec_explained hok hfind hE hcombo hm h
  exact ⟨ev, _, d, hv, hw, hl⟩

/-- **C53.**  In the same executions the search of a modification whose table was replaced neither leaves the
table nor reads a slot that was never written: it can go on until it has found the key - then with a slot that
has this key - or has not. -/
theorem C53_search_in_bounds {u : Bool} {ok : Op K V → Prop} (hok : ∀ op, ok op → op.isSafe)
    (hfind : ∀ k, ok (.find k)) {E : Env K} (hE : E.OK) (hcombo : E.M.cm = true → E.M.cp = true) (hm : E.m = true)
    {a : A} {l : List (Ev T (IOp K V) (SRes V))} {s : ISt T A K V}
    (h : Exec (IStepW u ok (fun c => c.marked = false)) (ISt.init E a) l s) {t : T} {k : K} {v : V} {new : Option V}
    (hl : s.mod t = .look k v new) :
    ∃ hd pc, s.d.p.pc t = .use hd ∧ s.d.thr t = .busy (.find k) pc ∧
      (∀ q, q < (s.d.env hd.tab).M.total → s.d.mem hd.tab q ≠ none) ∧
      ((∃ pc', step (s.d.env hd.tab) (.find k) pc (published (s.d.mem hd.tab)) =
          (published (s.d.mem hd.tab), .cont pc')) ∨
       (∃ r q c w, step (s.d.env hd.tab) (.find k) pc (published (s.d.mem hd.tab)) =
          (published (s.d.mem hd.tab), .done r) ∧ r.it = some (q, c) ∧ c.c = .live k w) ∨
       (∃ r, step (s.d.env hd.tab) (.find k) pc (published (s.d.mem hd.tab)) =
          (published (s.d.mem hd.tab), .done r) ∧ r.it = none)) := by
  obtain ⟨ev, d, D, -, -, -, hI⟩ := iexec_explained hok hfind hE hcombo hm h
  obtain ⟨pc, ht⟩ := hI.look t k v new hl
  have hc := hI.base.call t
  rw [ht] at hc
  obtain ⟨h1, hd, h2, h3⟩ := hc
  have hh := hI.base.holds h2
  have hk := hI.base.kindOf hh
  have hT : ∃ d', Tab (s.d.env hd.tab) (s.d.mem hd.tab) d' := by
    rcases hI.base.usedTab hh with e | ⟨-, e | e⟩
    · exact ⟨_, e.2.2.2⟩
    · exact ⟨_, e.2.2⟩
    · exact ⟨_, e.2⟩
  obtain ⟨d', hT⟩ := hT
  refine ⟨hd, pc, h2, ht, hT.full, ?_⟩
  have hg := step_good hk.ok hT.inv h3 (safe_act hk.slots (hok _ h1) _)
  have hsame : (step (s.d.env hd.tab) (.find k) pc (published (s.d.mem hd.tab))).1 =
      published (s.d.mem hd.tab) := by
    cases pc with
    | load i att => simp only [step]; split <;> rfl
    | act i att c => simp only [step]; split <;> rfl
  rcases hst : step (s.d.env hd.tab) (.find k) pc (published (s.d.mem hd.tab)) with ⟨g, out⟩
  rw [hst] at hsame
  simp only at hsame
  subst hsame
  cases out with
  | cont pc' => exact .inl ⟨pc', rfl⟩
  | oob =>
    unfold StepGood at hg
    rw [hst] at hg
    exact hg.2.2.elim
  | done r =>
    cases hi : r.it with
    | none => exact .inr (.inr ⟨r, rfl, hi⟩)
    | some x =>
      obtain ⟨q, c⟩ := x
      obtain ⟨w, hw⟩ := find_hit hst hi
      exact .inr (.inl ⟨r, q, c, w, rfl, hi, hw⟩)

/-- **C53.**  In every execution - without any restriction - a modification through an iterator whose version is
that of the table accesses a slot inside that table, which exists. -/
theorem C53_iterator_in_bounds {u : Bool} {ok : Op K V → Prop} {okc : Cell K V → Prop} {E : Env K} {a : A}
    {l : List (Ev T (IOp K V) (SRes V))} {s : ISt T A K V} (h : Exec (IStep u ok okc) (ISt.init E a) l s)
    {t : T} {hd : Hd A} {i : Itr K V} {k : K} {v : V} {new ref : Option V} (hp : s.d.p.pc t = .use hd)
    (hm : s.mod t = .want i k v new ref) :
    ∃ o, s.d.p.heap hd.tab = some o ∧ (o.ver = i.ver → i.pos < (s.d.env hd.tab).M.total) := by
  have key : Inv s.d.p ∧ (∀ t i, s.its t = some i → ItOK s.d.p s.d.env i) ∧
      (∀ t i k v new ref, s.mod t = .want i k v new ref → ItOK s.d.p s.d.env i) := by
    refine h.invariant (P := fun s => Inv s.d.p ∧ (∀ t i, s.its t = some i → ItOK s.d.p s.d.env i) ∧
      (∀ t i k v new ref, s.mod t = .want i k v new ref → ItOK s.d.p s.d.env i))
      ⟨Inv.init a _, fun _ _ h => (by cases h), fun _ _ _ _ _ _ h => (by cases h)⟩ ?_
    rintro s e s' ⟨h1, h2, h3⟩ hs
    have hbase : ∀ {e : Option (Ev T (Op K V) (SRes V))} {d' : DSt T A K V}, DStep u ok s.d e d' → Inv d'.p := by
      intro e d' hs
      cases hs with
      | call | ret => exact h1
      | quiet hs | enter hs | visit hs | op hs | opDone hs | opAgain hs | exitAgain hs | exit hs | make _ _ hs
      | attach hs | claim hs | leave hs | work hs | done hs | publish hs | switch hs | retire hs | free hs =>
        exact h1.step hs
    cases hs with
    | base hs he hl =>
      exact ⟨hbase hs, fun t i h => (h2 t i h).next h1 hs, fun t i k v new ref h => (h3 t i k v new ref h).next h1 hs⟩
    | @grab p' t a op pc g r x q c o hs ht hst hx hi ho hm =>
      have hs' : DStep u ok s.d none { s.d with
          p := p', mem := upd s.d.mem a (Sync.store (s.d.mem a) g), thr := setAt s.d.thr t (.fin op x) } :=
        .opDone hs ht hst hx
      refine ⟨hbase hs', fun t' i h => ?_, fun t i k v new ref h => (h3 t i k v new ref h).next h1 hs'⟩
      by_cases e : t' = t
      · subst e
        simp only [setAt_same] at h
        cases h
        exact ItOK.grab h1 hs ho hst hi
      · simp only [setAt_other e] at h
        exact (h2 t' i h).next h1 hs'
    | @call t h i k v new hp ht hm hi hc =>
      refine ⟨h1, h2, fun t' i' k' v' new' ref' h => ?_⟩
      by_cases e : t' = t
      · subst e
        simp only [setAt_same] at h
        cases h
        exact h2 t' i hi
      · simp only [setAt_other e] at h
        exact h3 t' i' k' v' new' ref' h
    | @again t h o i k v new hp ho hv hm =>
      refine ⟨h1, h2, fun t' i' k' v' new' ref' h => ?_⟩
      by_cases e : t' = t
      · subst e
        simp only [setAt_same] at h
        cases h
      · simp only [setAt_other e] at h
        exact h3 t' i' k' v' new' ref' h
    | @hit t h o k v w new pc g r q c hp ho hm ht hst hi hc =>
      have hit : ItOK s.d.p s.d.env (⟨o.ver, q, c⟩ : Itr K V) := ItOK.grab h1 (Step.op hp ho) ho hst hi
      refine ⟨h1, fun t' i' h => ?_, fun t' i' k' v' new' ref' h => ?_⟩
      · by_cases e : t' = t
        · subst e
          simp only [setAt_same] at h
          cases h
          exact hit
        · simp only [setAt_other e] at h
          exact h2 t' i' h
      · by_cases e : t' = t
        · subst e
          simp only [setAt_same] at h
          cases h
          exact hit
        · simp only [setAt_other e] at h
          exact h3 t' i' k' v' new' ref' h
    | @miss t h k v new pc g r hp hm ht hst hi =>
      refine ⟨h1, fun t' i' h => ?_, fun t' i' k' v' new' ref' h => ?_⟩
      · by_cases e : t' = t
        · subst e
          simp only [setAt_same] at h
          cases h
        · simp only [setAt_other e] at h
          exact h2 t' i' h
      · by_cases e : t' = t
        · subst e
          simp only [setAt_same] at h
          cases new <;> cases h
        · simp only [setAt_other e] at h
          exact h3 t' i' k' v' new' ref' h
    | @cas t h o i k v new ref r hp ho hv hm hc hr =>
      refine ⟨h1, fun t' i' h => ?_, fun t' i' k' v' new' ref' h => ?_⟩
      · by_cases e : t' = t
        · subst e
          simp only [setAt_same] at h
          cases h
          exact h3 t' i k v new ref hm
        · simp only [setAt_other e] at h
          exact h2 t' i' h
      · by_cases e : t' = t
        · subst e
          simp only [setAt_same] at h
          cases h
        · simp only [setAt_other e] at h
          exact h3 t' i' k' v' new' ref' h
    | @ret t h k v new x hp hm =>
      refine ⟨h1, h2, fun t' i' k' v' new' ref' h => ?_⟩
      by_cases e : t' = t
      · subst e
        simp only [setAt_same] at h
        cases h
      · simp only [setAt_other e] at h
        exact h3 t' i' k' v' new' ref' h
  obtain ⟨h1, -, h3⟩ := key
  have ht := h1.t t
  rw [hp] at ht
  obtain ⟨o, ho, -⟩ := ht
  exact ⟨o, ho.1, fun hv => (h3 t i k v new ref hm).2 _ o ho hv⟩

end

/-! ### Executions -/

/-- Steps of the executions: small tables with linear probing, no torn marks. (example, no code) -/
def YStep (okc : Cell Nat Nat → Prop) (s : ISt Nat Nat Nat Nat) (e : Option (Ev Nat (IOp Nat Nat) (SRes Nat)))
    (s' : ISt Nat Nat Nat Nat) : Prop :=
  IStep false (fun op => op.isSafe) okc s e s' ∧
    (∀ a, (s'.d.env a).M.cp = false ∧ (s'.d.env a).M.addr < 2 ^ 32) ∧ s'.d.torn = false

theorem YStep.stepW {okc : Cell Nat Nat → Prop} {s s' : ISt Nat Nat Nat Nat}
    {e : Option (Ev Nat (IOp Nat Nat) (SRes Nat))} (h : YStep okc s e s') :
    IStepW false (fun op => op.isSafe) okc s e s' :=
  ⟨h.1, ⟨fun a _ _ => (h.2.1 a).2, fun _ _ _ hc => by rw [(h.2.1 _).1] at hc; cases hc⟩, h.2.2⟩

/-- Calls by threads without modification; no searches. (specification, no code) -/
def Calls (md : Nat → IThr Nat Nat) (l : List (Ev Nat (Op Nat Nat) (SRes Nat))) : Prop :=
  (∀ t op, .call t op ∈ l → md t = .none) ∧ ∀ t k v new, md t ≠ .look k v new

/-- Steps of the table while iterators and modifications are kept. -/
theorem liftX {okc : Cell Nat Nat → Prop} {i0 : ISt Nat Nat Nat Nat} {l0 : List (Ev Nat (IOp Nat Nat) (SRes Nat))}
    {s s' : DSt Nat Nat Nat Nat} {its : Nat → Option (Itr Nat Nat)} {md : Nat → IThr Nat Nat}
    {l : List (Ev Nat (Op Nat Nat) (SRes Nat))} (h : Exec (XStep false true (fun op => op.isSafe)) s l s')
    (h0 : Exec (YStep okc) i0 l0 ⟨s, its, md⟩) (hc : Calls md l) :
    Exec (YStep okc) i0 (l0 ++ l.map (Ev.map .op)) ⟨s', its, md⟩ := by
  induction h with
  | init => simpa using h0
  | silent _ hs ih =>
    exact (ih hc).silent ⟨.base (e := none) hs.1 (by simp) (fun t k v new h => absurd h (hc.2 t k v new)), hs.2.1, hs.2.2 rfl⟩
  | @vis l s1 s2 e _ hs ih =>
    have := (ih ⟨fun t op hm => hc.1 t op (by simp [hm]), hc.2⟩).vis
      (e := Ev.map .op e) ⟨.base (e := some e) hs.1 (fun t op he => by
        cases he; exact hc.1 t op (by simp)) (fun t k v new h => absurd h (hc.2 t k v new)), hs.2.1, hs.2.2 rfl⟩
    simpa [List.map_append, List.append_assoc] using this

/-- `find(511)` of thread 0 ends with an iterator, which the caller keeps. -/
theorem grabX {okc : Cell Nat Nat → Prop} {i0 : ISt Nat Nat Nat Nat} {l : List (Ev Nat (IOp Nat Nat) (SRes Nat))}
    {s : DSt Nat Nat Nat Nat} {its : Nat → Option (Itr Nat Nat)} {md : Nat → IThr Nat Nat}
    (hX : Exec (YStep okc) i0 l ⟨s, its, md⟩) (hmd : ∀ t, md t = .none) {glob e help : Nat} {pc1 : PC Nat}
    {o0 : Obj Nat}
    {o1 : Option (Obj Nat)} (hA : At s glob e help (.use ⟨0, 0⟩) pc1 (some o0) o1) (ho : o0.ver = 0)
    {env : Nat → Env Nat} {x : UThr Nat Nat} {src : Tbl Nat Nat} {pc : Growt.PC Nat Nat}
    (hH : Has s env (.busy (.find 511) pc) x src false)
    (k : ∀ a, (env a).M.cp = false ∧ (env a).M.addr < 2 ^ 32) {c : Cell Nat Nat}
    (hst : step (env 0) (.find 511) pc src = (src, .done ⟨none, some (511, c)⟩)) {y : SRes Nat}
    (hy : Sync.answer (.find 511) ⟨none, some (511, c)⟩ = some y) :
    ∃ s', Exec (YStep okc) i0 (l ++ [.ret 0 (.op (.find 511)) y]) ⟨s', setAt its 0 (some ⟨0, 511, c⟩), md⟩ ∧
      At s' glob e help (.idle ⟨0, 0⟩) pc1 (some o0) o1 ∧ Has s' env .idle x src false ∧
      s'.jobs = s.jobs ∧ s'.mem 1 = s.mem 1 := by
  obtain ⟨p, env', mem, torn', jobs, thr⟩ := s
  obtain ⟨a1, a2, a3, a4, a5, a6, a7⟩ := hA
  obtain ⟨b1, b2, b3, b4, b5⟩ := hH
  simp only at a1 a2 a3 a4 a5 a6 a7 b1 b2 b3 b4 b5
  subst b1 b5
  have hl : ∀ t k v new, md t ≠ .look k v new := fun t k v new h => by rw [hmd t] at h; cases h
  have h1 := hX.silent ⟨.grab (o := o0) (Step.op (t := 0) (h := ⟨0, 0⟩) a4 a6) b2 (by rw [b4]; exact hst) hy rfl a6
    (hmd 0), k, rfl⟩
  have h2 := h1.silent ⟨.base (e := none) (.exit (Step.exitDone (t := 0) (h := ⟨0, 0⟩) a4)
    (.inr ⟨.find 511, y, setAt_same thr 0 _⟩) nofun) (by simp) (fun t k v new h => absurd h (hl t k v new)), k, rfl⟩
  have h3 := h2.vis ⟨.base (e := some (.ret 0 (.find 511) y))
    (.ret (t := 0) (h := ⟨0, 0⟩) rfl (setAt_same thr 0 (.fin (.find 511) y))) (by simp)
    (fun t k v new h => absurd h (hl t k v new)), k, rfl⟩
  rw [ho] at h3
  refine ⟨_, h3, ⟨a1, a2, a3, rfl, a5, a6, a7⟩, ⟨rfl, rfl, b3, ?_, rfl⟩, rfl, ?_⟩
  · show published (upd mem 0 (Sync.store (mem 0) src) 0) = _
    rw [upd_same, Sync.published_store]
  · show upd mem 0 (Sync.store (mem 0) src) 1 = _
    exact upd_ne _ _ Nat.one_ne_zero

/-- Thread 0, whose handle refers to the current table, calls a modification and enters the table. -/
theorem wantX {okc : Cell Nat Nat → Prop} {i0 : ISt Nat Nat Nat Nat} {l : List (Ev Nat (IOp Nat Nat) (SRes Nat))}
    {s : DSt Nat Nat Nat Nat} {its : Nat → Option (Itr Nat Nat)} {md : Nat → IThr Nat Nat}
    (hX : Exec (YStep okc) i0 l ⟨s, its, md⟩) (hmd : ∀ t, md t = .none) {glob e help b : Nat} {pc1 : PC Nat}
    {o0 o1 : Option (Obj Nat)}
    (hA : At s glob e help (.idle ⟨b, e⟩) pc1 o0 o1) {env : Nat → Env Nat} {x : UThr Nat Nat}
    {src : Tbl Nat Nat} (hH : Has s env .idle x src false)
    (k : ∀ a, (env a).M.cp = false ∧ (env a).M.addr < 2 ^ 32) {i : Itr Nat Nat}
    (hi : its 0 = some i) (hc : i.copy.c = .live 511 7) (new : Option Nat) :
    ∃ s', Exec (YStep okc) i0 (l ++ [.call 0 (.swap 511 7 new)]) ⟨s', its, setAt md 0 (.want i 511 7 new none)⟩ ∧
      At s' glob e help (.use ⟨b, e⟩) pc1 o0 o1 ∧ Has s' env .idle x src false ∧
      s'.jobs = s.jobs ∧ s'.mem = s.mem := by
  obtain ⟨p, env', mem, torn', jobs, thr⟩ := s
  obtain ⟨a1, a2, a3, a4, a5, a6, a7⟩ := hA
  obtain ⟨b1, b2, b3, b4, b5⟩ := hH
  simp only at a1 a2 a3 a4 a5 a6 a7 b1 b2 b3 b4 b5
  subst b1 b5
  have h1 := hX.vis ⟨.call (t := 0) (new := new) a4 b2 (hmd 0) hi hc, k, rfl⟩
  have h2 := h1.silent ⟨.base (e := none) (.visit (Step.gtOk (t := 0) (h := ⟨b, e⟩) a4
    (by show p.epoch ≤ e; omega)) (by intro op; show thr 0 ≠ _; rw [b2]; simp)) (by simp) (by
      intro t k v new h
      by_cases e : t = 0
      · subst e; simp only [setAt_same] at h; cases h
      · simp only [setAt_other e, hmd t] at h; cases h), k, rfl⟩
  exact ⟨_, h2, ⟨a1, a2, a3, rfl, a5, a6, a7⟩, ⟨rfl, b2, b3, b4, rfl⟩, rfl, rfl⟩

/-- Its compare-and-swap succeeds, and it returns. -/
theorem casX {okc : Cell Nat Nat → Prop} {i0 : ISt Nat Nat Nat Nat} {l : List (Ev Nat (IOp Nat Nat) (SRes Nat))}
    {s : DSt Nat Nat Nat Nat} {its : Nat → Option (Itr Nat Nat)} {md : Nat → IThr Nat Nat} {c : Cell Nat Nat}
    {pos : Nat} {ref : Option Nat} {hd : Hd Nat} {o : Obj Nat}
    (hX : Exec (YStep okc) i0 l ⟨s, its, md⟩) (hmd : ∀ t, t ≠ 0 → md t = .none)
    (hm : md 0 = .want ⟨o.ver, pos, c⟩ 511 7 none ref) {glob e help : Nat}
    {pc1 : PC Nat} {o0 o1 : Option (Obj Nat)}
    (hA : At s glob e help (.use hd) pc1 o0 o1) (ho : s.p.heap hd.tab = some o) {env : Nat → Env Nat}
    {x : UThr Nat Nat} {src : Tbl Nat Nat} (hH : Has s env .idle x src false)
    (k : ∀ a, (env a).M.cp = false ∧ (env a).M.addr < 2 ^ 32) (hc : okc c)
    (hs : published (s.mem hd.tab) pos = c) :
    ∃ s' its' md', Exec (YStep okc) i0 (l ++ [.ret 0 (.swap 511 7 none) ⟨true, ref⟩]) ⟨s', its', md'⟩ ∧
      At s' glob e help (.idle hd) pc1 o0 o1 ∧ s'.env = env ∧ s'.thr 0 = .idle ∧ s'.thr 1 = x ∧
      s'.torn = false ∧ published (s'.mem hd.tab) = (published (s.mem hd.tab)).set pos Cell.deletedCell ∧
      (∀ a, a ≠ hd.tab → s'.mem a = s.mem a) ∧ s'.jobs = s.jobs ∧ ∀ t, md' t = .none := by
  obtain ⟨p, env', mem, torn', jobs, thr⟩ := s
  obtain ⟨a1, a2, a3, a4, a5, a6, a7⟩ := hA
  obtain ⟨b1, b2, b3, b4, b5⟩ := hH
  simp only at a1 a2 a3 a4 a5 a6 a7 b1 b2 b3 b4 b5 hs ho
  subst b1 b5
  have hr : swapCell false (published (mem hd.tab) pos) c none = some (Cell.deletedCell, c, true) := by
    rw [hs]; simp [swapCell, eraseIfUnchanged, casIt]
  have h1 := hX.silent ⟨.cas (t := 0) (h := hd) a4 ho rfl hm hc hr, k, rfl⟩
  have h2 := h1.silent ⟨.base (e := none) (.exit (Step.exitDone (t := 0) (h := hd) a4)
    (.inl b2) nofun) (by simp) (by
      intro t k v new h
      by_cases e : t = 0
      · subst e; simp only [setAt_same] at h; cases h
      · simp only [setAt_other e, hmd t e] at h; cases h), k, rfl⟩
  have h3 := h2.vis ⟨.ret (t := 0) (h := hd) rfl (setAt_same md 0 _), k, rfl⟩
  refine ⟨_, _, _, h3, ⟨a1, a2, a3, rfl, a5, a6, a7⟩, rfl, b2, b3, rfl, ?_, ?_, rfl, ?_⟩
  · show published (upd mem hd.tab (Sync.store (mem hd.tab) ((published (mem hd.tab)).set pos Cell.deletedCell)) hd.tab) = _
    rw [upd_same, Sync.published_store]
  · intro a ha
    exact upd_ne _ _ ha
  · intro t
    by_cases e : t = 0
    · subst e; exact setAt_same ..
    · exact (setAt_other e).trans ((setAt_other e).trans (hmd t e))

/-- Key 511 is inserted; thread 0 then begins to search it. -/
theorem iter_start (okc : Cell Nat Nat → Prop) : ∃ s, Exec (YStep okc) (ISt.init exM 0)
    [.call 0 (.op (.insert 511 7)), .ret 0 (.op (.insert 511 7)) ⟨true, none⟩, .call 0 (.op (.find 511))]
      ⟨s, fun _ => none, fun _ => .none⟩ ∧
    At s 0 0 0 (.use ⟨0, 0⟩) (.idle ⟨0, 0⟩) (some (tab0 0 none)) none ∧
    Has s (fun _ => exM) (.busy (.find 511) (.load 511 0)) .idle src0 false ∧
    s.jobs 0 = fun _ => none := by
  have k : ∀ a : Nat, (exM.M.cp = false) ∧ exM.M.addr < 2 ^ 32 := fun _ => exM_small
  obtain ⟨s, h, hA, hH, hj⟩ := part_a1 false true (fun op => op.isSafe)
  obtain ⟨s1, h1, hA1, hH1, hj1, -⟩ := enterX h hA hH k (fun _ => rfl) (op := .insert 511 7) trivial
  obtain ⟨s2, h2, hA2, hH2, hj2, -⟩ := (opX0 h1 hA1 hH1 k (fun _ => rfl)
    (g := fun _ => Cell.emptyCell) (out := .cont (.act 511 0 Cell.emptyCell)) rfl).1 _ rfl
  obtain ⟨s3, h3, hA3, hH3, hj3, -⟩ := (opX0 h2 hA2 hH2 k (fun _ => rfl)
    (g := src0) (out := .done ⟨some .SUCCESS_IN, some (511, Cell.emptyCell)⟩) rfl).2 _ ⟨true, none⟩ rfl rfl
  obtain ⟨s4, h4, hA4, hH4, hj4, -⟩ := enterX h3 hA3 hH3 k (fun _ => rfl) (op := .find 511) trivial
  have h5 := liftX (okc := okc) (its := fun _ => none) (md := fun _ => .none) h4 .init ⟨fun _ _ _ => rfl, nofun⟩
  exact ⟨s4, h5, hA4, hH4, by rw [hj4, hj3, hj2, hj1]; exact hj⟩

theorem setAt_none {md : Nat → IThr Nat Nat} (hmd : ∀ t, md t = .none) {m : IThr Nat Nat} :
    ∀ t, t ≠ 0 → setAt md 0 m t = .none := fun t e => (setAt_other e).trans (hmd t)

theorem setAt_look {md : Nat → IThr Nat Nat} (hmd : ∀ t, md t = .none) {m : IThr Nat Nat}
    (hm : ∀ k v new, m ≠ .look k v new) : ∀ t k v new, setAt md 0 m t ≠ .look k v new := by
  intro t k v new
  by_cases e : t = 0
  · subst e; rw [setAt_same]; exact hm k v new
  · rw [setAt_other e, hmd t]; simp

/-- **C53, not vacuous**: an element is erased through an iterator, successfully, while its table is being
migrated (a helper has taken the block of the element); the copy of the iterator is not marked. -/
theorem C53_not_vacuous : ∃ s : ISt Nat Nat Nat Nat,
    Exec (IStepW false (fun op => op.isSafe) (fun c => c.marked = false)) (ISt.init exM 0)
      [.call 0 (.op (.insert 511 7)), .ret 0 (.op (.insert 511 7)) ⟨true, none⟩,
       .call 0 (.op (.find 511)), .ret 0 (.op (.find 511)) ⟨true, some 7⟩,
       .call 0 (.swap 511 7 none), .ret 0 (.swap 511 7 none) ⟨true, none⟩] s ∧
    s.d.p.pc 1 = .mg5 (some ⟨0, 0⟩) 0 1 0 ∧ (published (s.d.mem 0) 511).c = .deleted default := by
  have k : ∀ a : Nat, (exM.M.cp = false) ∧ exM.M.addr < 2 ^ 32 := fun _ => exM_small
  obtain ⟨s, h, hA, hH, hj⟩ := iter_start (fun c => c.marked = false)
  obtain ⟨s1, h, hA, hH, hj1, -⟩ := grabX h (fun _ => rfl) hA rfl hH k (c := ⟨false, .live 511 7⟩) rfl
    (y := ⟨true, some 7⟩) rfl
  obtain ⟨s2, h, hA, hH, hj2, -⟩ := wantX h (fun _ => rfl) hA hH k (setAt_same _ 0 _) rfl none
  obtain ⟨s3, h', hA, hH, hm, hj⟩ := part_b (u := false) (w := true) (ok := fun op => op.isSafe) .init hA hH
    (by rw [hj2, hj1]; exact hj)
  have h := liftX h' h ⟨fun _ _ hm => (by cases hm), setAt_look (fun _ => rfl) nofun⟩
  obtain ⟨s4, its, md, h, hA', -, -, -, -, hm', -⟩ := casX (o := tab0 1 (some 1)) h (setAt_none (fun _ => rfl))
    (setAt_same _ 0 _) hA hA.heap0 hH exEnv2_small rfl
    (by show published (s3.mem 0) 511 = _; rw [hH.mem]; rfl)
  have hm' : published (s4.mem 0) = (published (s3.mem 0)).set 511 Cell.deletedCell := hm'
  exact ⟨_, h.mono (fun _ _ _ => YStep.stepW), hA'.pc1, by rw [hm', hH.mem]; rfl⟩

/-- The history of the second execution. (example, no code) -/
def iterHist : List (Ev Nat (IOp Nat Nat) (SRes Nat)) :=
  [.call 0 (.op (.insert 511 7)), .ret 0 (.op (.insert 511 7)) ⟨true, none⟩,
   .call 0 (.op (.find 511)), .ret 0 (.op (.find 511)) ⟨true, some 7⟩,
   .call 0 (.swap 511 7 none), .ret 0 (.swap 511 7 none) ⟨true, none⟩,
   .call 0 (.op (.find 511)), .ret 0 (.op (.find 511)) ⟨true, some 7⟩]

theorem iterHist_not_linearizable : ¬ Linearizable modObj iterHist := by
  apply not_linearizable
  refine NoLin.solo (fun _ => rfl) (fun d1 h1 => ?_)
  refine NoLin.solo (fun _ => rfl) (fun d2 h2 => ?_)
  refine NoLin.solo (fun _ => rfl) (fun d3 h3 => ?_)
  refine NoLin.solo (fun _ => rfl) (fun d4 h4 => ?_)
  rcases h3 with ⟨-, -, h3⟩ | ⟨w, h3, -⟩ | ⟨h3, -⟩
  · rcases h4 with ⟨-, h4, -⟩ | ⟨⟨_, _, _, _, e, -⟩, -⟩
    · have := h3 511
      simp only [if_true] at this
      simp only [Op.toSpec, SOp.sem, this] at h4
      cases h4
    · cases e
  · cases h3
  · cases h3

/-- The rest of the migration, after the element was erased in the old table. -/
theorem job_rest : ∃ src, Runs (exG false) 9 0 ⟨src1.set 511 Cell.deletedCell, tgt1, false⟩ (.load 0 true 512)
    ⟨src, tgt1, false⟩ (.fin 0 512) := by
  refine ⟨(src1.set 511 Cell.deletedCell).set 512 ⟨true, .empty⟩, ?_⟩
  refine .step rfl (m' := ⟨src1.set 511 Cell.deletedCell, tgt1, false⟩)
    (pc' := .mark 0 true 512 Cell.emptyCell) rfl ?_
  exact .one rfl rfl

/-- **C53 is false**, without any torn mark: `find` does not look at the mark of the slot
(`base_linear.hpp:887-916`), so while the table is being migrated it can return an iterator whose copy is
marked; the compare-and-swap of `erase_if_unchanged` compares with this copy and succeeds on the slot that has
already been copied (`base_linear_iterator.hpp:288-292`).  It reports success, but the element is in the new
table.  One thread makes all the calls, one after the other; the other one migrates. -/
theorem C53_marked_copy_loses_erasure : ∃ s : ISt Nat Nat Nat Nat,
    Exec (IStepW false (fun op => op.isSafe) (fun _ => True)) (ISt.init exM 0) iterHist s ∧
    s.d.torn = false ∧ ¬ Linearizable modObj iterHist := by
  have hok : ∀ op : Op Nat Nat, op.key = 511 → start exM2 op = .load 1022 0 := by
    intro op ho; rw [start, ho, ← exM2_facts.2.2.2.2.2.2.2.2.2.1]
  obtain ⟨s, h, hA, hH, hj⟩ := iter_start (fun _ => True)
  obtain ⟨s1, h1, hA, hH, hm, hj⟩ := part_b (u := false) (w := true) (ok := fun op => op.isSafe) .init hA hH hj
  obtain ⟨s2, h1, hA, hH, hm, hj⟩ := blockX h1 hA (m := ⟨src0, freshTarget exM2, false⟩) hH hm hj
    (job_to_tail false) (fun _ => rfl)
  have h := liftX h1 h ⟨fun _ _ hm => (by cases hm), nofun⟩
  obtain ⟨s3, h, hA, hH, hj3, hm3⟩ := grabX h (fun _ => rfl) hA rfl hH exEnv2_small (c := ⟨true, .live 511 7⟩) rfl
    (y := ⟨true, some 7⟩) rfl
  obtain ⟨s4, h, hA, hH, hj4, hm4⟩ := wantX h (fun _ => rfl) hA hH exEnv2_small (setAt_same _ 0 _) rfl none
  have hs4 : published (s4.mem 0) = src1 := hH.mem
  obtain ⟨s5, its, md, h, hA, e1, e2, e3, e4, hm5, hm5', hj5, hmd⟩ := casX (o := tab0 1 (some 1)) h
    (setAt_none (fun _ => rfl)) (setAt_same _ 0 _) hA hA.heap0 hH exEnv2_small trivial
    (by show published (s4.mem 0) 511 = _; rw [hs4]; rfl)
  have hm5 : published (s5.mem 0) = (published (s4.mem 0)).set 511 Cell.deletedCell := hm5
  have hH : Has s5 (upd (fun _ => exM) 1 exM2) .idle .idle (src1.set 511 Cell.deletedCell) false :=
    ⟨e1, e2, e3, by rw [hm5, hs4], e4⟩
  obtain ⟨src, hr⟩ := job_rest
  obtain ⟨s6, h1, hA, hH, hm, hj⟩ := blockX (u := false) (w := true) (ok := fun op => op.isSafe) .init hA
    (m := ⟨src1.set 511 Cell.deletedCell, tgt1, false⟩) hH
    (by rw [hm5' 1 Nat.one_ne_zero, hm4, hm3]; exact hm)
    (by rw [hj5, hj4, hj3]; exact hj) hr (fun _ => rfl)
  obtain ⟨s7, o, h1, hA, hH, hm'⟩ := part_d h1 rfl hA hH hj rfl (fun _ => rfl)
  obtain ⟨s8, o', h1, hA, hH, hm8⟩ := enterNew h1 rfl hA hH (fun _ => rfl) (op := .find 511) trivial
  rw [hok _ rfl] at hH
  obtain ⟨s9, h1, hA, hH, -⟩ := (opX1 h1 hA hH (T := published tgt1) (by rw [hm8, hm', hm]) exEnv2_small
    (fun _ => rfl) (g := published tgt1) (out := .done ⟨none, some (1022, ⟨false, .live 511 7⟩)⟩)
    (by rw [show upd (fun _ => exM) 1 exM2 1 = exM2 from upd_same ..]; rfl)).2 _ ⟨true, some 7⟩ rfl rfl
  have h := liftX h1 h ⟨fun t op _ => hmd t, fun t k v new h => by rw [hmd t] at h; cases h⟩
  exact ⟨_, h.mono (fun _ _ _ => YStep.stepW), hH.torn, iterHist_not_linearizable⟩

/-! ### Iterators of a replaced table -/

/-- The rest of the migration. -/
theorem job_rest' : ∃ src, Runs (exG false) 9 0 ⟨src1, tgt1, false⟩ (.load 0 true 512)
    ⟨src, tgt1, false⟩ (.fin 0 512) := by
  refine ⟨src1.set 512 ⟨true, .empty⟩, ?_⟩
  refine .step rfl (m' := ⟨src1, tgt1, false⟩) (pc' := .mark 0 true 512 Cell.emptyCell) rfl ?_
  exact .one rfl rfl

/-- Thread 0 has an iterator that shows the element (511, 7), not marked; then the table is replaced. -/
theorem replaced_start : ∃ s o, Exec (YStep (fun c => c.marked = false)) (ISt.init exM 0)
    [.call 0 (.op (.insert 511 7)), .ret 0 (.op (.insert 511 7)) ⟨true, none⟩,
     .call 0 (.op (.find 511)), .ret 0 (.op (.find 511)) ⟨true, some 7⟩]
      ⟨s, setAt (fun _ => none) 0 (some ⟨0, 511, ⟨false, .live 511 7⟩⟩), fun _ => .none⟩ ∧
    At s 1 1 0 (.idle ⟨0, 0⟩) (.eg5 ⟨0, 0⟩) (some o) (some ⟨1, 1, 0, fun _ => false, none, false, false⟩) ∧
    (∃ src, Has s (upd (fun _ => exM) 1 exM2) .idle .idle src false) ∧ s.mem 1 = tgt1 := by
  have k : ∀ a : Nat, (exM.M.cp = false) ∧ exM.M.addr < 2 ^ 32 := fun _ => exM_small
  obtain ⟨s, h, hA, hH, hj⟩ := iter_start (fun c => c.marked = false)
  obtain ⟨s1, h1, hA, hH, hm, hj⟩ := part_b (u := false) (w := true) (ok := fun op => op.isSafe) .init hA hH hj
  have h := liftX h1 h ⟨fun _ _ hm => (by cases hm), nofun⟩
  obtain ⟨s2, h, hA, hH, hj1, hm1⟩ := grabX h (fun _ => rfl) hA rfl hH exEnv2_small (c := ⟨false, .live 511 7⟩) rfl
    (y := ⟨true, some 7⟩) rfl
  obtain ⟨src, hr⟩ := job_rest'
  obtain ⟨s3, h1, hA, hH, hm, hj⟩ := blockX (u := false) (w := true) (ok := fun op => op.isSafe) .init hA
    (m := ⟨src0, freshTarget exM2, false⟩) hH (by rw [hm1]; exact hm) (by rw [hj1]; exact hj)
    ((job_to_tail false).trans hr) (fun _ => rfl)
  obtain ⟨s4, o, h1, hA, hH, hm'⟩ := part_d h1 rfl hA hH hj rfl (fun _ => rfl)
  have h := liftX h1 h ⟨fun _ _ hm => (by cases hm), nofun⟩
  exact ⟨s4, o, h, hA, ⟨_, hH⟩, by rw [hm', hm]⟩

/-- A modification whose iterator has another version than the table searches its key. -/
theorem againX {okc : Cell Nat Nat → Prop} {i0 : ISt Nat Nat Nat Nat} {l : List (Ev Nat (IOp Nat Nat) (SRes Nat))}
    {s : DSt Nat Nat Nat Nat} {its : Nat → Option (Itr Nat Nat)} {md : Nat → IThr Nat Nat} {i : Itr Nat Nat}
    {new : Option Nat} (hX : Exec (YStep okc) i0 l ⟨s, its, md⟩)
    (hm : md 0 = .want i 511 7 new none) {glob e help : Nat} {o0 : Option (Obj Nat)} {o1 : Obj Nat} {pc1 : PC Nat}
    (hA : At s glob e help (.use ⟨1, e⟩) pc1 o0 (some o1)) (hv : o1.ver ≠ i.ver) {env : Nat → Env Nat}
    {x : UThr Nat Nat} {src : Tbl Nat Nat} (hH : Has s env .idle x src false)
    (k : ∀ a, (env a).M.cp = false ∧ (env a).M.addr < 2 ^ 32) :
    ∃ s', Exec (YStep okc) i0 l ⟨s', its, setAt md 0 (.look 511 7 new)⟩ ∧
      At s' glob e help (.use ⟨1, e⟩) pc1 o0 (some o1) ∧
      Has s' env (.busy (.find 511) (start (env 1) (.find 511 : Op Nat Nat))) x src false ∧ s'.mem = s.mem := by
  obtain ⟨p, env', mem, torn', jobs, thr⟩ := s
  obtain ⟨a1, a2, a3, a4, a5, a6, a7⟩ := hA
  obtain ⟨b1, b2, b3, b4, b5⟩ := hH
  simp only at a1 a2 a3 a4 a5 a6 a7 b1 b2 b3 b4 b5
  subst b1 b5
  have h1 := hX.silent ⟨.again (t := 0) (h := ⟨1, e⟩) a4 a7 hv hm, k, rfl⟩
  refine ⟨_, h1, ⟨a1, a2, a3, a4, a5, a6, a7⟩, ⟨rfl, setAt_same thr 0 _, ?_, b4, rfl⟩, rfl⟩
  exact (setAt_other (f := thr) (a := .busy (.find 511) (start (env' 1) (.find 511))) Nat.one_ne_zero).trans b3

theorem start511' (op : Op Nat Nat) (ho : op.key = 511) : start exM2 op = .load 1022 0 := by
  rw [start, ho, ← exM2_facts.2.2.2.2.2.2.2.2.2.1]

theorem start511 (op : Op Nat Nat) (ho : op.key = 511) :
    start (upd (fun _ => exM) 1 exM2 1) op = .load 1022 0 := by
  rw [show upd (fun _ => exM) 1 exM2 1 = exM2 from upd_same .., start511' op ho]

/-- **C53, not vacuous** for iterators of a replaced table, and **C44** in a concurrent execution: the iterator
shows (511, 7); the table is replaced; the element gets the value 9; `erase_if_unchanged` searches the key again
and erases the element, though it has changed.  The caller sees success; only the iterator shows the 9. -/
theorem C53_refreshed_iterator_erases : ∃ s : ISt Nat Nat Nat Nat,
    Exec (IStepW false (fun op => op.isSafe) (fun c => c.marked = false)) (ISt.init exM 0)
      [.call 0 (.op (.insert 511 7)), .ret 0 (.op (.insert 511 7)) ⟨true, none⟩,
       .call 0 (.op (.find 511)), .ret 0 (.op (.find 511)) ⟨true, some 7⟩,
       .call 0 (.op (.update 511 (overwriteFn 9))), .ret 0 (.op (.update 511 (overwriteFn 9))) ⟨true, some 9⟩,
       .call 0 (.swap 511 7 none), .ret 0 (.swap 511 7 none) ⟨true, some 9⟩] s ∧
    s.d.p.epoch = 1 ∧ (published (s.d.mem 1) 1022).c = .deleted default := by
  have eE : upd (fun _ => exM) 1 exM2 1 = exM2 := upd_same ..
  obtain ⟨s, o, h, hA, ⟨src, hH⟩, hm⟩ := replaced_start
  obtain ⟨s1, o', h1, hA, hH, hm1⟩ := enterNew (u := false) (w := true) (ok := fun op => op.isSafe) .init rfl hA hH
    (fun _ => rfl) (op := .update 511 (overwriteFn 9)) trivial
  rw [start511' _ rfl] at hH
  obtain ⟨s2, h1, hA, hH, hm2⟩ := (opX1 h1 hA hH (T := published tgt1) (by rw [hm1, hm]) exEnv2_small
    (fun _ => rfl) (g := published tgt1) (out := .cont (.act 1022 0 ⟨false, .live 511 7⟩))
    (by rw [eE]; rfl)).1 _ rfl
  obtain ⟨s3, h1, hA, hH, hm3⟩ := (opX1 h1 hA hH (T := published tgt1) hm2 exEnv2_small
    (fun _ => rfl) (g := (published tgt1).set 1022 ⟨false, .live 511 9⟩)
    (out := .done ⟨some .SUCCESS_UP, some (1022, ⟨false, .live 511 9⟩)⟩)
    (by rw [eE]; rfl)).2 _ ⟨true, some 9⟩ rfl rfl
  have h := liftX h1 h ⟨fun _ _ _ => rfl, nofun⟩
  obtain ⟨s4, h, hA, hH, -, hm4⟩ := wantX h (fun _ => rfl) hA hH exEnv2_small (setAt_same _ 0 _) rfl none
  obtain ⟨s5, h, hA, hH, hm5⟩ := againX h (setAt_same ..) hA (by decide) hH exEnv2_small
  rw [start511 _ rfl] at hH
  have hs5 : published (s5.mem 1) = (published tgt1).set 1022 ⟨false, .live 511 9⟩ := by rw [hm5, hm4, hm3]
  obtain ⟨p, env', mem, torn', jobs, thr⟩ := s5
  obtain ⟨b1, b2, b3, b4, b5⟩ := hH
  simp only at b1 b2 b3 b4 b5 hs5
  subst b1 b5
  have h6 := h.silent ⟨.hit (t := 0) (h := ⟨1, 1⟩) (v := 7) (w := 9) (new := none) (r := ⟨none, some (1022, ⟨false, .live 511 9⟩)⟩)
    (g := (published tgt1).set 1022 ⟨false, .live 511 9⟩) (q := 1022)
    (c := ⟨false, .live 511 9⟩) hA.pc0 hA.heap1 rfl b2
    (by show step (upd (fun _ => exM) 1 exM2 1) _ _ (published (mem 1)) = _; rw [eE, hs5]; rfl) rfl rfl,
    exEnv2_small, rfl⟩
  obtain ⟨s7, its, md, h, hA', -, -, -, -, hm', -⟩ := casX (hd := ⟨1, 1⟩)
    (o := ⟨1, 1, 0, fun _ => false, none, false, false⟩) h6
    (fun t e => (setAt_other e).trans ((setAt_other e).trans ((setAt_other e).trans rfl)))
    (setAt_same ..) ⟨hA.glob, hA.epoch, hA.help, hA.pc0, hA.pc1, hA.heap0, hA.heap1⟩ hA.heap1
    ⟨rfl, rfl, b3, b4, rfl⟩ exEnv2_small rfl
    (by show published (mem 1) 1022 = _; rw [hs5]; rfl)
  have hm' : published (s7.mem 1) = (published (mem 1)).set 1022 Cell.deletedCell := hm'
  exact ⟨_, h.mono (fun _ _ _ => YStep.stepW), hA'.epoch, by rw [hm', hs5]; rfl⟩

/-- **C53, not vacuous** for the search: an execution that arrives in one. -/
theorem C53_search_not_vacuous : ∃ (l : List (Ev Nat (IOp Nat Nat) (SRes Nat))) (s : ISt Nat Nat Nat Nat),
    Exec (IStepW false (fun op => op.isSafe) (fun c => c.marked = false)) (ISt.init exM 0) l s ∧
    s.mod 0 = .look 511 7 none := by
  have eE : upd (fun _ => exM) 1 exM2 1 = exM2 := upd_same ..
  obtain ⟨s, o, h, hA, ⟨src, hH⟩, hm⟩ := replaced_start
  obtain ⟨s1, o', h1, hA, hH, hm1⟩ := enterNew (u := false) (w := true) (ok := fun op => op.isSafe) .init rfl hA hH
    (fun _ => rfl) (op := .find 511) trivial
  rw [start511' _ rfl] at hH
  obtain ⟨s2, h1, hA, hH, hm2⟩ := (opX1 h1 hA hH (T := published tgt1) (by rw [hm1, hm]) exEnv2_small
    (fun _ => rfl) (g := published tgt1) (out := .done ⟨none, some (1022, ⟨false, .live 511 7⟩)⟩)
    (by rw [eE]; rfl)).2 _ ⟨true, some 7⟩ rfl rfl
  have h := liftX h1 h ⟨fun _ _ _ => rfl, nofun⟩
  obtain ⟨s4, h, hA, hH, -, hm4⟩ := wantX h (fun _ => rfl) hA hH exEnv2_small (setAt_same _ 0 _) rfl none
  obtain ⟨s5, h, -⟩ := againX h (setAt_same ..) hA (by decide) hH exEnv2_small
  exact ⟨_, _, h.mono (fun _ _ _ => YStep.stepW), rfl⟩

/-- **C53 (violated by the code)**: the iterator shows (511, 7); the table is replaced and the element erased;
`compare_exchange` searches the key, does not find it, and goes on with a null pointer
(`migration_table_iterator.hpp:124-132`).  One thread makes all the calls. -/
theorem C53_erased_element_null_pointer : ∃ s : ISt Nat Nat Nat Nat,
    Exec (IStepW false (fun op => op.isSafe) (fun c => c.marked = false)) (ISt.init exM 0)
      [.call 0 (.op (.insert 511 7)), .ret 0 (.op (.insert 511 7)) ⟨true, none⟩,
       .call 0 (.op (.find 511)), .ret 0 (.op (.find 511)) ⟨true, some 7⟩,
       .call 0 (.op (.erase 511)), .ret 0 (.op (.erase 511)) ⟨true, none⟩,
       .call 0 (.swap 511 7 (some 9))] s ∧
    s.mod 0 = .null 511 7 (some 9) := by
  have eE : upd (fun _ => exM) 1 exM2 1 = exM2 := upd_same ..
  obtain ⟨s, o, h, hA, ⟨src, hH⟩, hm⟩ := replaced_start
  obtain ⟨s1, o', h1, hA, hH, hm1⟩ := enterNew (u := false) (w := true) (ok := fun op => op.isSafe) .init rfl hA hH
    (fun _ => rfl) (op := .erase 511) trivial
  rw [start511' _ rfl] at hH
  obtain ⟨s2, h1, hA, hH, hm2⟩ := (opX1 h1 hA hH (T := published tgt1) (by rw [hm1, hm]) exEnv2_small
    (fun _ => rfl) (g := published tgt1) (out := .cont (.act 1022 0 ⟨false, .live 511 7⟩))
    (by rw [eE]; rfl)).1 _ rfl
  obtain ⟨s3, h1, hA, hH, hm3⟩ := (opX1 h1 hA hH (T := published tgt1) hm2 exEnv2_small
    (fun _ => rfl) (g := (published tgt1).set 1022 Cell.deletedCell)
    (out := .done ⟨some .SUCCESS_DEL, none⟩)
    (by rw [eE]; rfl)).2 _ ⟨true, none⟩ rfl rfl
  have h := liftX h1 h ⟨fun _ _ _ => rfl, nofun⟩
  obtain ⟨s4, h, hA, hH, -, hm4⟩ := wantX h (fun _ => rfl) hA hH exEnv2_small (setAt_same _ 0 _) rfl (some 9)
  obtain ⟨s5, h, hA, hH, hm5⟩ := againX h (setAt_same ..) hA (by decide) hH exEnv2_small
  rw [start511 _ rfl] at hH
  have hs5 : published (s5.mem 1) = (published tgt1).set 1022 Cell.deletedCell := by rw [hm5, hm4, hm3]
  obtain ⟨p, env', mem, torn', jobs, thr⟩ := s5
  obtain ⟨b1, b2, b3, b4, b5⟩ := hH
  simp only at b1 b2 b3 b4 b5 hs5
  subst b1 b5
  have h6 := h.silent ⟨.base (e := none) (.op (t := 0) (pc' := .load 1023 0)
    (g := (published tgt1).set 1022 Cell.deletedCell) (Step.op (t := 0) (h := ⟨1, 1⟩) hA.pc0 hA.heap1) b2
    (by show step (upd (fun _ => exM) 1 exM2 1) _ _ (published (mem 1)) = _; rw [eE, hs5]; rfl)) (by simp) (by
      intro t k v new hm
      by_cases e : t = 0
      · subst e; exact ⟨.find 511, .load 1023 0, rfl⟩
      · simp only [setAt_other e] at hm; cases hm), exEnv2_small, rfl⟩
  have h7 := h6.silent ⟨.miss (t := 0) (h := ⟨1, 1⟩) (k := 511) (v := 7) (new := some 9) (pc := .load 1023 0) (r := ⟨none, none⟩)
    (g := (published tgt1).set 1022 Cell.deletedCell) hA.pc0 rfl rfl
    (by show step (upd (fun _ => exM) 1 exM2 1) _ _ (published (upd mem 1
          (Sync.store (mem 1) ((published tgt1).set 1022 Cell.deletedCell)) 1)) = _
        rw [eE, upd_same, Sync.published_store]; rfl) rfl, exEnv2_small, rfl⟩
  exact ⟨_, h7.mono (fun _ _ _ => YStep.stepW), rfl⟩

end Async
end Growt
