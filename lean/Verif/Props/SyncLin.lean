import Verif.SyncDataInv
import Verif.Props.Conc
import Verif.Props.Sync

/-!
# C30: operations on a synchronously growing table are linearizable

Any number of threads, any operations allowed to be mixed (see `Mix`), any number of growth steps,
every sequentially consistent interleaving of single accesses.
-/

set_option linter.unusedSectionVars false

namespace Growt
namespace Sync
section
variable {T A K V : Type} [DecidableEq T] [DecidableEq A] [DecidableEq K] [DecidableEq V] [Inhabited V]

/-- A step after which the limits still hold. (specification, no code) -/
def DStepW (upd : Bool) (ok : Op K V → Prop) (s : DSt T A K V) (e : Option (Ev T (Op K V) (SRes V)))
    (s' : DSt T A K V) : Prop := DStep upd ok s e s' ∧ s'.Within

/-- Phase of a call. (specification, no code) -/
def UThr.phase : UThr K V → Growt.Phase (Op K V) (SRes V)
  | .idle => .idle
  | .pend op => .called op
  | .busy op _ => .called op
  | .again op _ => .called op
  | .fin op x => .effected op x

theorem DStep.wellFormed {u : Bool} {ok : Op K V → Prop} {s s' : DSt T A K V}
    {e : Ev T (Op K V) (SRes V)} (hs : DStep u ok s (some e) s') :
    WellFormed (fun i => (s.thr i).phase) [e] (fun i => (s'.thr i).phase) := by
  cases hs with
  | call hp ht ho =>
    exact .call (by simp [ht, UThr.phase]) (by simp [UThr.phase])
      (fun j hj => by simp [setAt_other hj]) (.nil _)
  | ret hp ht =>
    exact .ret (by simp [ht, UThr.phase]) (by simp [UThr.phase])
      (fun j hj => by simp [setAt_other hj]) (.nil _)
  | opLin hs ht hst hx =>
    exact .lin (by simp [ht, UThr.phase]) (by simp [UThr.phase])
      (fun j hj => by simp [setAt_other hj]) (.nil _)

theorem DStep.silent_phase {u : Bool} {ok : Op K V → Prop} {s s' : DSt T A K V}
    (hs : DStep u ok s none s') (i : T) : (s'.thr i).phase = (s.thr i).phase := by
  have key : ∀ t x, x.phase = (s.thr t).phase → ((setAt s.thr t x) i).phase = (s.thr i).phase := by
    intro t x hx
    unfold setAt
    split
    · subst i; exact hx
    · rfl
  cases hs with
  | enter hs ht => exact key _ _ (by rw [ht]; rfl)
  | op hs ht hst => exact key _ _ (by rw [ht]; rfl)
  | opAgain hs ht hst hx => exact key _ _ (by rw [ht]; rfl)
  | exitAgain hs ht => exact key _ _ (by rw [ht]; rfl)
  | _ => rfl

/-- Every execution is well formed, and its effects are those of the ideal map that the current
table stores. -/
theorem dexec_explained {u : Bool} {ok : Op K V → Prop} {E : Env K} (hk : Kind E.m E)
    (hmix : Mix E.m ok) {a : A} {l : List (Ev T (Op K V) (SRes V))} {s : DSt T A K V}
    (h : Exec (DStepW u ok) (DSt.init E a) l s) :
    WellFormed (fun _ => .idle) l (fun i => (s.thr i).phase) ∧
    ∃ d, Legal (growObj E.m) (fun _ => none) (effects l) d ∧ DInv u E.m ok s d := by
  induction h with
  | init => exact ⟨.nil _, _, .nil _, DInv.init hk a⟩
  | @silent l s s' h hs ih =>
    obtain ⟨hw, d, hl, hd⟩ := ih
    obtain ⟨d', hI, he⟩ := hd.next hmix hs.1 hs.2
    simp only at he
    subst he
    refine ⟨?_, d', hl, hI⟩
    have : (fun i => (s'.thr i).phase) = fun i => (s.thr i).phase :=
      funext fun i => hs.1.silent_phase i
    rw [this]; exact hw
  | @vis l s s' e h hs ih =>
    obtain ⟨hw, d, hl, hd⟩ := ih
    obtain ⟨d', hI, he⟩ := hd.next hmix hs.1 hs.2
    refine ⟨hw.append hs.1.wellFormed, d', ?_, hI⟩
    rw [effects_append]
    cases e with
    | lin i op r => exact hl.append (.cons he (.nil _))
    | call i op => simp only at he; subst he; simpa [effects] using hl
    | ret i op r => simp only at he; subst he; simpa [effects] using hl

/-- **C30.**  For every number of threads and handles, every set of calls that may be mixed, every
sequentially consistent interleaving and any number of growth steps: the calls through the handles
of a synchronously growing table are linearizable with respect to an ideal map (which never refuses
an insertion).

Missing for the full claim (hence `_partial`): the destructors of moved-from handles are not part of
the executions (C28); a helper that would access a deleted table does not continue (C29); tables are
not grown beyond `2^32` slots, and with circular probing a table that is grown has a free slot
(`Within`; C23). -/
theorem C30_linearizable_partial {u : Bool} {ok : Op K V → Prop} {E : Env K} (hE : E.OK)
    (hcombo : E.M.cm = true → E.M.cp = true) (hmix : Mix E.m ok) {a : A}
    {l : List (Ev T (Op K V) (SRes V))} {s : DSt T A K V}
    (h : Exec (DStepW u ok) (DSt.init E a) l s) : Linearizable (growObj E.m) (visible l) := by
  obtain ⟨hw, d, hl, -⟩ := dexec_explained ⟨hE, hcombo, rfl⟩ hmix h
  exact ⟨l, _, d, rfl, hw, hl⟩

/-- All tables of linear probing. -/
theorem DStep.linear {u : Bool} {ok : Op K V → Prop} {s s' : DSt T A K V}
    {e : Option (Ev T (Op K V) (SRes V))} (hs : DStep u ok s e s')
    (h : ∀ a, (s.env a).M.cp = false) (a : A) : (s'.env a).M.cp = false := by
  cases hs with
  | @make p' t a' b o i d hs ho hn =>
    simp only [upd]
    split
    · exact h a'
    · exact h a
  | _ => exact h a

/-- **C30 for linear probing** (the default): the only limit is the size of the tables. -/
theorem C30_linear_probing_partial {u : Bool} {ok : Op K V → Prop} {E : Env K} (hE : E.OK)
    (hcm : E.M.cm = false) (hcp : E.M.cp = false) (hmix : Mix E.m ok) {a : A}
    {l : List (Ev T (Op K V) (SRes V))} {s : DSt T A K V}
    (h : Exec (fun s e s' => DStep u ok s e s' ∧ ∀ a, (s'.env a).M.addr < 2 ^ 32)
      (DSt.init E a : DSt T A K V) l s) : Linearizable (growObj E.m) (visible l) := by
  have key : Exec (DStepW u ok) (DSt.init E a : DSt T A K V) l s ∧ ∀ a, (s.env a).M.cp = false := by
    induction h with
    | init => exact ⟨.init, fun _ => hcp⟩
    | silent _ hs ih =>
      have hl := hs.1.linear ih.2
      refine ⟨.silent ih.1 ⟨hs.1, fun a b _ => ⟨hs.2 a, fun hc => ?_⟩⟩, hl⟩
      rw [hl a] at hc; cases hc
    | vis _ hs ih =>
      have hl := hs.1.linear ih.2
      refine ⟨.vis ih.1 ⟨hs.1, fun a b _ => ⟨hs.2 a, fun hc => ?_⟩⟩, hl⟩
      rw [hl a] at hc; cases hc
  exact C30_linearizable_partial hE (by rw [hcm]; simp) hmix key.1

/-- **C30, C11, C20.**  In the same executions no operation accesses a slot outside the allocation or
one that was never written, and no helper does so in `migrate`. -/
theorem C30_no_wild_access_partial {u : Bool} {ok : Op K V → Prop} {E : Env K} (hE : E.OK)
    (hcombo : E.M.cm = true → E.M.cp = true) (hmix : Mix E.m ok) {a : A}
    {l : List (Ev T (Op K V) (SRes V))} {s : DSt T A K V}
    (h : Exec (DStepW u ok) (DSt.init E a) l s) (t : T) :
    (∀ a' op pc, (s.p.pc t).operates = some a' → s.thr t = .busy op pc →
      (step (s.env a') op pc (published (s.mem a'))).2 ≠ .oob ∧
      ∀ q, q < (s.env a').M.total → s.mem a' q ≠ none) ∧
    (∀ h c a' v b k pc, s.p.pc t = .mg5 h c a' v b k → s.jobs (k * blockSize) = some pc →
      pc.ended = false →
      ∃ m pc', jobStep ⟨s.env a', s.env b, u⟩ (blockEnd (s.env a').M.addr (k * blockSize)) pc
        ⟨published (s.mem a'), s.mem b, s.torn⟩ = (m, .cont pc')) := by
  obtain ⟨-, d, -, hI⟩ := dexec_explained (u := u) ⟨hE, hcombo, rfl⟩ hmix h
  constructor
  · intro a' op pc ho ht
    obtain ⟨hT, -, hpc, hsafe⟩ := hI.running ht ho
    refine ⟨fun hoob => ?_, hT.full⟩
    have hg := step_good hT.kind.ok hT.inv hpc hsafe
    unfold StepGood at hg
    rw [hoob] at hg
    exact hg.2.2
  · intro h' c a' v b k pc hp hj he
    have hst := hI.stage
    rw [hI.sinv.block_stage hp] at hst
    obtain ⟨h1, h2, h3, h4, h5, t0, h6, h7, h8, h9, hq⟩ := hst
    exact (C20_no_uninitialised_read (h3.menv h1 h5 u) h6 h7 hq).1 _ pc hj he


/-! ### Executions in which threads run alone -/

/-- Linear probing and small tables. (specification, no code) -/
def DSt.small (s : DSt T A K V) : Prop := ∀ a, (s.env a).M.cp = false ∧ (s.env a).M.addr < 2 ^ 32

theorem DSt.small.within {s : DSt T A K V} (h : s.small) : s.Within :=
  fun a _ _ => ⟨(h a).2, fun hc => by rw [(h a).1] at hc; cases hc⟩

theorem answer_or_retry (op : Op K V) (r : Ret K V) :
    (∃ x, answer op r = some x) ∨ ∃ x, retryAs op r = some x := by
  unfold answer retryAs
  cases react op r
  case grow => exact .inr ⟨_, rfl⟩
  case help => exact .inr ⟨_, rfl⟩
  all_goals exact .inl ⟨_, rfl⟩

/-- A thread alone in an operation. -/
theorem solo_run {u : Bool} {ok : Op K V → Prop} {s0 : DSt T A K V} {t : T} {h : Hd} {a : A} {v : Nat}
    {o : Obj A} {op : Op K V} {g : Tbl K V} {r : Ret K V} :
    ∀ n pc l (s : DSt T A K V), Exec (DStepW u ok) s0 l s → s.small → s.p.pc t = .op h a v →
    s.p.heap a = some o → o.ver = v → s.thr t = .busy op pc →
    run (s.env a) op n pc (published (s.mem a)) = .done g r →
    ∃ mem : A → MTbl K V, (∀ x, answer op r = some x → Exec (DStepW u ok) s0 (l ++ [.lin t op x])
        { s with mem := mem, thr := setAt s.thr t (.fin op x) }) ∧
      (∀ x, retryAs op r = some x → Exec (DStepW u ok) s0 l
        { s with mem := mem, thr := setAt s.thr t (.again op x) }) := by
  intro n
  induction n with
  | zero => intro pc l s _ _ _ _ _ _ hr; cases hr
  | succ n ih =>
    intro pc l s hX hsm hp ho hv ht hr
    have hop := Step.opStep (shells := false) hp ho hv
    unfold run at hr
    rcases hst : step (s.env a) op pc (published (s.mem a)) with ⟨g1, out⟩
    rw [hst] at hr
    cases out with
    | oob => cases hr
    | done r1 =>
      cases hr
      exact ⟨Sync.upd s.mem a (store (s.mem a) g),
        fun x hx => hX.vis ⟨.opLin hop ht hst hx, DSt.small.within hsm⟩,
        fun x hx => hX.silent ⟨.opAgain hop ht hst hx, DSt.small.within hsm⟩⟩
    | cont pc1 =>
      have h1 := hX.silent ⟨.op hop ht hst, DSt.small.within hsm⟩
      obtain ⟨mem, h2, h3⟩ := ih pc1 l _ h1 hsm hp ho hv (setAt_same ..)
        (by simpa [Sync.upd, published_store] using hr)
      have e : ∀ x y : UThr K V, setAt (setAt s.thr t x) t y = setAt s.thr t y := by
        intro x y; funext z; unfold setAt; split <;> rfl
      simp only [e] at h2 h3
      exact ⟨mem, h2, h3⟩

/-- A thread alone at a block. -/
theorem solo_block {u : Bool} {ok : Op K V → Prop} {s0 : DSt T A K V} {t : T} {h : Hd} {c : Cont A}
    {a b : A} {v n k : Nat} {o o' : Obj A} {G : MEnv K} (hab : a ≠ b) (hA : G.src.M.addr = 2 ^ k)
    {l : List (Ev T (Op K V) (SRes V))} {m m' : MMem K V} {pc pc' : JobPC K V}
    (hr : Runs G k (n * blockSize) m pc m' pc') :
    ∀ s : DSt T A K V, Exec (DStepW u ok) s0 l s → s.small → s.p.pc t = .mg5 h c a v b n →
    s.p.heap a = some o → o.ver = v → s.p.heap b = some o' → o'.ver = v + 1 →
    G = ⟨s.env a, s.env b, u⟩ → s.jobs (n * blockSize) = some pc →
    m = ⟨published (s.mem a), s.mem b, s.torn⟩ →
    ∃ (mem : A → MTbl K V) (torn : Bool) (jobs : Nat → Option (JobPC K V)),
      Exec (DStepW u ok) s0 l { s with mem := mem, torn := torn, jobs := jobs } ∧
      jobs (n * blockSize) = some pc' := by
  induction hr with
  | refl m pc => intro s hX _ _ _ _ _ _ _ hj _; exact ⟨s.mem, s.torn, s.jobs, hX, hj⟩
  | @step m m1 m2 pc pc1 pc2 he hs _ ih =>
    intro s hX hsm hp ho hv ho' hv' hG hj hm
    subst hG hm
    have h1 := hX.silent ⟨.work (Step.mgWork hp ho hv ho' hv') (by rw [hp]; rfl) hj he
      (by rw [hA]; exact hs), DSt.small.within hsm⟩
    have e : published (Sync.upd (Sync.upd s.mem a (store (s.mem a) m1.src)) b m1.tgt a) = m1.src := by
      simp [Sync.upd, hab, published_store]
    have := ih _ h1 hsm hp ho hv ho' hv' rfl (upd1_self ..) (by
      show m1 = MMem.mk (published (Sync.upd (Sync.upd s.mem a (store (s.mem a) m1.src)) b m1.tgt a))
        (Sync.upd (Sync.upd s.mem a (store (s.mem a) m1.src)) b m1.tgt b) m1.torn
      rw [e]; simp [Sync.upd])
    exact this

end

/-! ### A concrete execution

Two threads with handles.  Thread 0 inserts an element; thread 1 grows the table; thread 0 finds the
element in the new table. -/

section
variable {s0 : DSt Nat Nat Nat Nat} {l : List (Ev Nat (Op Nat Nat) (SRes Nat))}

/-- Even keys may be erased, odd keys may be updated. (example, no code) -/
def exOk (op : Op Nat Nat) : Prop :=
  op.isSafe ∧ (∀ k, op.removes k → k % 2 = 0) ∧ ∀ k, op.modifies k → k % 2 = 1

theorem exOk_mix : Mix false exOk := by
  refine ⟨fun op h => ⟨fun k f e => by subst e; exact h.1, fun k d f e => by subst e; exact h.1⟩,
    fun _ k => ?_⟩
  by_cases hk : k % 2 = 0
  · right; intro op ho hm; have := ho.2.2 k hm; omega
  · left; intro op ho hm; exact hk (ho.2.1 k hm)

/-- Steps that only concern the protocol. -/
theorem quietX {s : DSt Nat Nat Nat Nat} (hX : Exec (DStepW false exOk) s0 l s) (hsm : s.small)
    {p' : St Nat Nat} (hs : Step false s.p .tau p') :
    Exec (DStepW false exOk) s0 l { s with p := p' } := hX.silent ⟨.quiet hs, DSt.small.within hsm⟩

/-- The protocol between operations: two handles, current table `a`. (example, no code) -/
def calm (a : Nat) (e : Int) (heap : Nat → Option (Obj Nat)) : St Nat Nat where
  table := .clear a
  epoch := e
  heap := heap
  used := upd (upd (fun _ => false) 0 true) 1 true
  ops := fun _ => none
  mig := fun _ => none
  last := 2
  pc := upd (upd (fun _ => .out) 0 (.idle ⟨0, false⟩)) 1 (.idle ⟨1, false⟩)
  phase := .quiet

theorem calm_eq {a : Nat} {e : Int} {heap : Nat → Option (Obj Nat)} {q : St Nat Nat}
    (q1 : q.table = .clear a) (q2 : q.epoch = e) (q3 : q.heap = heap)
    (q4 : q.used = (calm a e heap).used) (q5 : ∀ i, q.ops i = none) (q6 : ∀ i, q.mig i = none)
    (q7 : q.last = 2) (q8 : ∀ t, q.pc t = (calm a e heap).pc t) (q9 : q.phase = .quiet) :
    q = calm a e heap := by
  obtain ⟨a1, a2, a3, a4, a5, a6, a7, a8, a9⟩ := q
  simp only at q1 q2 q3 q4 q5 q6 q7 q8 q9
  subst q1 q2 q3 q4 q7 q9
  rw [funext q5, funext q6, funext q8]
  rfl

theorem normX {s : DSt Nat Nat Nat Nat} (hX : Exec (DStepW false exOk) s0 l s) {p : St Nat Nat}
    (h : s.p = p) : Exec (DStepW false exOk) s0 l { s with p := p } := by
  subst h; exact hX

theorem upd_upd {X Y : Type} [DecidableEq X] (f : X → Y) (t : X) (x y : Y) :
    upd (upd f t x) t y = upd f t y := by
  funext z; simp only [upd]; split <;> rfl

/-- Registering a handle with the first free flags. -/
theorem reg_handleX {s : DSt Nat Nat Nat Nat} (hX : Exec (DStepW false exOk) s0 l s)
    (hsm : s.small) (t i : Nat) (hp : s.p.pc t = .reg i) (hi : i < maxHandles)
    (hu : s.p.used i = false) (hl : s.p.last = i) :
    Exec (DStepW false exOk) s0 l { s with p := { s.p with
      pc := upd s.p.pc t (.idle ⟨i, false⟩), used := upd s.p.used i true, last := i + 1 } } := by
  have h1 := quietX hX hsm (Step.regFree (t := t) hp hi hu)
  have h2 := quietX h1 hsm (Step.reserve (t := t) (upd_self ..) hu)
  have h3 := quietX h2 hsm (Step.regLoad (t := t) (upd_self ..))
  have h4 := quietX h3 hsm (Step.regCas (t := t) (upd_self ..) (by show s.p.last ≤ i; omega) rfl)
  have h5 := quietX h4 hsm (Step.regCasFail (t := t) (upd_self ..) (by show s.p.last ≤ i; omega))
  have h6 := quietX h5 hsm (Step.regEnd (t := t) (upd_self ..) (by show ¬ i + 1 ≤ i; omega))
  simp only [St.at, upd_upd] at h6
  exact h6

/-- The first table is at address 0. (example, no code) -/
def start0 : DSt Nat Nat Nat Nat := DSt.init exE 0

theorem exE_small : exE.M.cp = false ∧ exE.M.addr < 2 ^ 32 := by decide

theorem two_handlesX : Exec (DStepW false exOk) start0 []
    { start0 with p := calm 0 (-1) (upd (fun _ => none) 0 (some ⟨0, none, 0, 1⟩)) } := by
  have hsm : ∀ p, DSt.small { start0 with p := p } := fun p _ => exE_small
  have h1 := quietX (Exec.init (step := DStepW false exOk) (s0 := start0)) (hsm _)
    (Step.create (t := 0) rfl)
  have h2 := reg_handleX h1 (hsm _) 0 0 rfl (by decide) rfl rfl
  have h3 := quietX h2 (hsm _) (Step.create (t := 1) rfl)
  have h4 := quietX h3 (hsm _) (Step.regUsed (t := 1) rfl (by decide) rfl)
  have h5 := reg_handleX h4 (hsm _) 1 1 rfl (by decide) rfl rfl
  simp only [St.at, upd_upd] at h5
  exact h5

/-- Thread 0 carries out an operation while nobody else does anything. -/
theorem opX {a v : Nat} {e : Int} {heap : Nat → Option (Obj Nat)} {s : DSt Nat Nat Nat Nat}
    {o : Obj Nat} {op : Op Nat Nat} {g : Tbl Nat Nat} {r : Ret Nat Nat} {x : SRes Nat} {n : Nat}
    (hX : Exec (DStepW false exOk) s0 l s) (hsm : s.small) (hp : s.p = calm a e heap)
    (ho : heap a = some o) (hv : o.ver = v) (ht : s.thr 0 = .idle) (hop : exOk op)
    (hr : run (s.env a) op n (start (s.env a) op) (published (s.mem a)) = .done g r)
    (hx : answer op r = some x) :
    ∃ mem, Exec (DStepW false exOk) s0 (l ++ [.call 0 op] ++ [.lin 0 op x] ++ [.ret 0 op x])
      { s with mem := mem } := by
  obtain ⟨p, env, mem, torn, jobs, thr⟩ := s
  simp only at hp ht hr
  subst hp
  have ee : ∀ y z : UThr Nat Nat, setAt (setAt thr 0 y) 0 z = setAt thr 0 z := by
    intro y z; funext w; unfold setAt; split <;> rfl
  have h1 := hX.vis ⟨.call (t := 0) (h := ⟨0, false⟩) (op := op) rfl ht hop, DSt.small.within hsm⟩
  have h2 := quietX h1 hsm (Step.call (t := 0) rfl)
  have h3 := quietX h2 hsm (Step.gtLoad (t := 0) rfl rfl)
  have h4 := quietX h3 hsm (Step.gtStore (t := 0) rfl)
  have h5 := h4.silent ⟨.enter (op := op) (Step.gtSame (t := 0) rfl rfl ho) (setAt_same thr 0 _),
    DSt.small.within hsm⟩
  obtain ⟨mem', h6, -⟩ := solo_run (t := 0) (a := a) (g := g) (r := r) n _ _ _ h5 hsm rfl ho rfl
    (setAt_same (setAt thr 0 (.pend op)) 0 _) hr
  have h6 := h6 x hx
  simp only [ee] at h6
  have h7 := h6.silent ⟨.exit (Step.opEnd (t := 0) rfl .plain) (.inr ⟨op, x, setAt_same thr 0 _⟩)
    (by decide), DSt.small.within hsm⟩
  have h8 := h7.vis ⟨.ret (t := 0) (h := ⟨0, false⟩) rfl (setAt_same thr 0 _), DSt.small.within hsm⟩
  simp only [ee] at h8
  refine ⟨mem', ?_⟩
  have e1 : setAt thr 0 UThr.idle = thr := by
    funext w; unfold setAt; split
    · rename_i hw; rw [hw]; exact ht.symm
    · rfl
  rw [e1] at h8
  refine normX h8 (calm_eq rfl rfl rfl rfl (fun i => ?_) (fun _ => rfl) rfl (fun t => ?_) rfl)
  · simp only [St.at, calm, upd]; split <;> rfl
  · simp only [St.at, calm, upd, Exit.next]; (repeat' split) <;> simp_all

/-- The table to which the example grows. (example, no code) -/
def exE2 : Env Nat := { exE with M := exE.M.resize 300 0 }

theorem exE2_facts : exE2.M.cp = false ∧ exE2.M.addr = 1024 ∧ blocksOf exE2.M = 1 ∧
    exE.M.addr = 2 ^ 9 := by decide

/-- The protocol while thread 1 is at the only block. (example, no code) -/
def atBlock : St Nat Nat where
  table := .mark 0
  epoch := 0
  heap := upd (upd (fun _ => none) 0 (some ⟨0, some 1, 1, 1⟩)) 1 (some ⟨1, none, 0, 1⟩)
  used := upd (upd (fun _ => false) 0 true) 1 true
  ops := fun _ => none
  mig := upd (fun _ => none) 1 (some 0)
  last := 2
  pc := upd (upd (fun _ => .out) 0 (.idle ⟨0, false⟩)) 1
    (.mg5 ⟨1, false⟩ (.grow 0 0 1) 0 0 1 0)
  phase := .migrating 0 0 1

attribute [local irreducible] blockEnd jobStart blockSize

/-- The second half of the growth. -/
theorem growX2 {s : DSt Nat Nat Nat Nat} (hX : Exec (DStepW false exOk) start0 l s)
    (hp : s.p = atBlock) (henv : s.env = Sync.upd (fun _ : Nat => exE) 1 exE2)
    (ht : s.thr = fun _ => .idle)
    (hj : s.jobs 0 = some (jobStart ⟨exE, exE2, false⟩ 0 (blockEnd (2 ^ 9) 0))) :
    ∃ (s' : DSt Nat Nat Nat Nat) (heap : Nat → Option (Obj Nat)),
      Exec (DStepW false exOk) start0 l s' ∧ s'.p = calm 1 0 heap ∧
      heap 1 = some ⟨1, none, 0, 1⟩ ∧ heap 0 = none ∧ s'.env 1 = exE2 ∧ s'.small ∧
      s'.thr = fun _ => .idle := by
  have hsm2 : ∀ p mem torn jobs, DSt.small (T := Nat) (V := Nat)
      ⟨p, Sync.upd (fun _ : Nat => exE) 1 exE2, mem, torn, jobs, fun _ => .idle⟩ := by
    intro p mem torn jobs a
    simp only [Sync.upd]
    split
    · exact ⟨exE2_facts.1, by rw [exE2_facts.2.1]; decide⟩
    · exact exE_small
  obtain ⟨-, d, -, hI⟩ := dexec_explained (E := exE) ⟨exE_ok, by decide, rfl⟩ exOk_mix hX
  have hst := hI.stage
  obtain ⟨p, env, mem, torn, jobs, thr⟩ := s
  simp only at hp henv ht hj
  subst hp henv ht
  obtain ⟨h1, h2, h3, h4, h5, t0, h6, h7, h8, h9, hq⟩ := hst
  obtain ⟨k, g, hS⟩ := (h3.menv h1 h5 false).shape
  have hk : k = 9 := by
    have := hS.addr
    have e : exE.M.addr = 2 ^ k := this
    rw [exE2_facts.2.2.2] at e
    exact (Nat.pow_right_inj (by decide : 1 < 2)).1 e.symm
  subst hk
  have hinv := MInv.reach hS h6 h7 hq.reach
  have hgood := hq.good
  have hu : upd1 jobs 0 (some (jobStart ⟨exE, exE2, false⟩ 0 (blockEnd (2 ^ 9) 0))) = jobs := by
    funext c; unfold upd1; split
    · rename_i h; subst h; exact hj.symm
    · rfl
  have hal : Alone ⟨exE, exE2, false⟩ 9 0 jobs ⟨published (mem 0), mem 1, torn⟩
      (jobStart ⟨exE, exE2, false⟩ 0 (blockEnd (2 ^ 9) 0)) :=
    ⟨by rw [hu]; exact hinv.core hgood.1, hgood.1, jobStart_fresh _ _ _ _⟩
  obtain ⟨m', pc', hr, -, hend⟩ := hal.start hS
  obtain ⟨mem, torn, jobs, g1, hj'⟩ := solo_block (k := 9) (G := ⟨exE, exE2, false⟩)
    (t := 1) (n := 0) (h := ⟨1, false⟩)
    (c := .grow 0 0 1) (a := 0) (b := 1) (v := 0) (by decide)
    exE2_facts.2.2.2 (by rw [Nat.zero_mul]; exact hr) _ hX (hsm2 _ _ _ _)
    rfl rfl rfl rfl rfl rfl (by rw [Nat.zero_mul]; exact hj) rfl
  have g2 := g1.silent ⟨.done (k := 0) (Step.mgDone (t := 1) rfl) rfl hj' hend, (hsm2 _ _ _ _).within⟩
  have g3 := g2.silent ⟨.leave (Step.mgLeave (t := 1) rfl rfl rfl (show ¬ 1 < 1 by decide)),
    (hsm2 _ _ _ _).within⟩
  have g4 := quietX g3 (hsm2 _ _ _ _) (Step.mgEnd (t := 1) rfl rfl rfl)
  have g5 := quietX g4 (hsm2 _ _ _ _) (Step.grNull (t := 1) rfl)
  have g6 := quietX g5 (hsm2 _ _ _ _) (Step.grMig (t := 1) rfl)
  have g7 := quietX g6 (hsm2 _ _ _ _) (Step.grMigNext (t := 1) rfl (show 0 < 2 by decide) rfl)
  have g8 := quietX g7 (hsm2 _ _ _ _) (Step.grMigNext (t := 1) rfl (show 1 < 2 by decide) rfl)
  have g9 := quietX g8 (hsm2 _ _ _ _) (Step.grMigEnd (t := 1) rfl (show ¬ 2 < 2 by decide))
  have g10 := g9.silent ⟨.publish (Step.grPublish (t := 1) rfl), (hsm2 _ _ _ _).within⟩
  have g11 := g10.silent ⟨.free (Step.grDelete (t := 1) rfl), (hsm2 _ _ _ _).within⟩
  refine ⟨_, _, g11, calm_eq rfl rfl rfl rfl (fun _ => rfl) (fun i => ?_) rfl (fun t => ?_) rfl, rfl,
    rfl, rfl, hsm2 _ _ _ _, rfl⟩
  · simp only [St.at, atBlock, upd]; (repeat' split) <;> rfl
  · simp only [St.at, atBlock, calm, upd]; (repeat' split) <;> rfl

/-- Thread 1 grows the table alone. -/
theorem growX {s : DSt Nat Nat Nat Nat} (hX : Exec (DStepW false exOk) start0 l s)
    (hp : s.p = calm 0 (-1) (upd (fun _ => none) 0 (some ⟨0, none, 0, 1⟩)))
    (henv : s.env = fun _ => exE) (ht : s.thr = fun _ => .idle) :
    ∃ (s' : DSt Nat Nat Nat Nat) (heap : Nat → Option (Obj Nat)),
      Exec (DStepW false exOk) start0 l s' ∧ s'.p = calm 1 0 heap ∧
      heap 1 = some ⟨1, none, 0, 1⟩ ∧ heap 0 = none ∧ s'.env 1 = exE2 ∧ s'.small ∧
      s'.thr = fun _ => .idle := by
  obtain ⟨p, env, mem, torn, jobs, thr⟩ := s
  simp only at hp henv ht
  subst hp henv ht
  have hsm : ∀ p mem torn jobs, DSt.small (T := Nat) (V := Nat)
      ⟨p, fun _ : Nat => exE, mem, torn, jobs, fun _ => .idle⟩ := fun _ _ _ _ _ => exE_small
  have hsm2 : ∀ p mem torn jobs, DSt.small (T := Nat) (V := Nat)
      ⟨p, Sync.upd (fun _ : Nat => exE) 1 exE2, mem, torn, jobs, fun _ => .idle⟩ := by
    intro p mem torn jobs a
    simp only [Sync.upd]
    split
    · exact ⟨exE2_facts.1, by rw [exE2_facts.2.1]; decide⟩
    · exact exE_small
  have h6 := quietX hX (hsm _ _ _ _) (Step.call (t := 1) rfl)
  have h7 := quietX h6 (hsm _ _ _ _) (Step.gtLoad (t := 1) rfl rfl)
  have h8 := quietX h7 (hsm _ _ _ _) (Step.gtStore (t := 1) rfl)
  have h9 := h8.silent ⟨.visit (Step.gtSame (t := 1) rfl rfl rfl) nofun, (hsm _ _ _ _).within⟩
  have h10 := h9.silent ⟨.exit (Step.opEnd (t := 1) rfl .grow) (.inl rfl) nofun,
    (hsm _ _ _ _).within⟩
  have h11 := quietX h10 (hsm _ _ _ _) (Step.grEpoch (t := 1) rfl)
  have h12 := quietX h11 (hsm _ _ _ _) (Step.grCas (t := 1) rfl (show (-1 : Int) < 0 by decide) rfl)
  have h13 := quietX h12 (hsm _ _ _ _) (Step.grLoad (t := 1) rfl rfl rfl)
  have h14 := quietX h13 (hsm _ _ _ _) (Step.grMark (t := 1) rfl rfl)
  have h18 := h14.silent ⟨.make (b := 1) 300 0 (Step.grMake (t := 1) (b := 1) 1 rfl rfl rfl) rfl
    exE2_facts.2.2.1.symm, (hsm2 _ _ _ _).within⟩
  have h19 := quietX h18 (hsm2 _ _ _ _) (Step.grOps (t := 1) rfl)
  have h20 := quietX h19 (hsm2 _ _ _ _) (Step.grOpsNext (t := 1) rfl (show 0 < 2 by decide)
    (show (none : Option Nat) ≠ some 0 by decide))
  have h21 := quietX h20 (hsm2 _ _ _ _) (Step.grOpsNext (t := 1) rfl (show 1 < 2 by decide)
    (show (none : Option Nat) ≠ some 0 by decide))
  have h22 := quietX h21 (hsm2 _ _ _ _) (Step.grOpsEnd (t := 1) rfl (show ¬ 2 < 2 by decide))
  have h23 := quietX h22 (hsm2 _ _ _ _) (Step.grNext (t := 1) rfl rfl)
  have h24 := quietX h23 (hsm2 _ _ _ _) (Step.mgLoad (t := 1) rfl rfl rfl)
  have h25 := quietX h24 (hsm2 _ _ _ _) (Step.mgStore (t := 1) rfl)
  have h26 := quietX h25 (hsm2 _ _ _ _) (Step.mgNext (t := 1) rfl rfl rfl rfl)
  have h27 := h26.silent ⟨.claim (Step.mgClaim (t := 1) rfl rfl rfl (show 0 < 1 by decide)) rfl,
    (hsm2 _ _ _ _).within⟩
  have hpe : ∀ q : St Nat Nat, q.table = .mark 0 → q.epoch = 0 → (∀ x, q.heap x = atBlock.heap x) →
      q.used = atBlock.used → (∀ i, q.ops i = none) → q.mig = atBlock.mig → q.last = 2 →
      (∀ t, q.pc t = atBlock.pc t) → q.phase = .migrating 0 0 1 → q = atBlock := by
    intro q q1 q2 q3 q4 q5 q6 q7 q8 q9
    obtain ⟨a1, a2, a3, a4, a5, a6, a7, a8, a9⟩ := q
    simp only at q1 q2 q3 q4 q5 q6 q7 q8 q9
    subst q1 q2 q4 q6 q7 q9
    rw [funext q3, funext q5, funext q8]
    rfl
  refine growX2 h27 (hpe _ rfl rfl (fun x => ?_) rfl (fun i => ?_) rfl rfl (fun t => ?_) rfl) rfl rfl ?_
  · simp only [St.at, atBlock, calm, upd]; (repeat' split) <;> first | rfl | simp_all
  · simp only [St.at, calm, upd]; (repeat' split) <;> rfl
  · simp only [St.at, atBlock, calm, upd]; (repeat' split) <;> rfl
  · show upd1 (fun _ => none) (0 * blockSize) (some (jobStart ⟨exE, exE2, false⟩ (0 * blockSize)
      (blockEnd exE.M.addr (0 * blockSize)))) 0 = _
    rw [Nat.zero_mul, upd1_self, exE2_facts.2.2.2]

end

/-- The insertion in the example. -/
theorem insert_run : ∃ g r, run exE (.insert 7 5 : Op Nat Nat) 3 (start exE (.insert 7 5 : Op Nat Nat))
    (published (start0.mem 0)) = .done g r ∧
    answer (.insert 7 5 : Op Nat Nat) r = some ⟨true, none⟩ := by
  refine ⟨_, _, rfl, ?_⟩
  rfl

/-- **C30, not vacuous**: an execution with two handles in which an element is inserted, the table is
grown (to 1024 addressable slots, at another address; the old table is deleted), and the element is
found in the new table. -/
theorem C30_not_vacuous : ∃ (l : List (Ev Nat (Op Nat Nat) (SRes Nat))) (s : DSt Nat Nat Nat Nat),
    Exec (DStepW false exOk) (DSt.init exE 0) l s ∧
    visible l = [.call 0 (.insert 7 5), .ret 0 (.insert 7 5) ⟨true, none⟩,
      .call 0 (.find 7), .ret 0 (.find 7) ⟨true, some 5⟩] ∧
    s.p.table = .clear 1 ∧ s.p.heap 0 = none ∧ (s.env 1).M.addr = 1024 ∧ s.p.stage = .solo 1 ∧
    ∀ i, s.thr i = .idle := by
  obtain ⟨g, r, hr, hx⟩ := insert_run
  obtain ⟨mem, h1⟩ := opX (v := 0) two_handlesX (fun _ => exE_small) rfl rfl rfl rfl
    (op := .insert 7 5) ⟨trivial, nofun, nofun⟩ hr hx
  obtain ⟨s, heap, h2, hp, hh1, hh0, he, hsm, ht⟩ := growX h1 rfl rfl rfl
  obtain ⟨-, d, -, hI⟩ := dexec_explained (E := exE) ⟨exE_ok, by decide, rfl⟩ exOk_mix h2
  have hst := hI.stage
  rw [hp] at hst
  obtain ⟨hT, -⟩ := hst
  obtain ⟨g', r', hr', -, -⟩ := runStart_good (op := .find 7) hT.kind.ok hT.inv
    (fun hc => by rw [(hsm 1).1] at hc; cases hc)
  obtain ⟨mem', h3⟩ := opX (v := 1) h2 hsm hp hh1 rfl (by rw [ht]) (op := .find 7)
    ⟨trivial, nofun, nofun⟩ hr' rfl
  obtain ⟨-, d', hl, -⟩ := dexec_explained (E := exE) ⟨exE_ok, by decide, rfl⟩ exOk_mix h3
  refine ⟨_, _, h3, ?_, by simp only [hp]; rfl, by simp only [hp]; exact hh0,
    by simp only [he]; exact exE2_facts.2.1, by simp only [hp]; rfl, fun i => by simp only [ht]⟩
  simp only [effects_append, effects, List.append_nil, List.nil_append, List.cons_append] at hl
  cases hl with
  | cons hl1 hl =>
    cases hl with
    | cons hl2 hl =>
      rcases hl1 with ⟨hd1, -⟩ | ⟨⟨_, _, _, _, e, -⟩, -⟩
      · rcases hl2 with ⟨-, hx1, hx2⟩ | ⟨⟨_, _, _, _, e, -⟩, -⟩
        · subst hd1
          rcases hx2 with ⟨⟨_, _, e⟩, -⟩ | hx2
          · cases e
          · simp only [visible_append, visible, List.append_nil, List.nil_append, List.cons_append]
            have : ∀ x : SRes Nat, x.ok = true → x.shown = some 5 → x = ⟨true, some 5⟩ := by
              rintro ⟨a, b⟩ h1 h2; simp only at h1 h2; rw [h1, h2]
            rw [this _ hx1 hx2]
        · cases e
      · cases e

end Sync
end Growt
