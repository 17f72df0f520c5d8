import Verif.AsyncData
import Verif.AsyncTab

/-! # Asynchronous growth: the invariant of the tables -/

set_option linter.unusedSectionVars false

namespace Growt
namespace Async

attribute [local irreducible] blockEnd jobStart blockSize

section
variable {T A K V : Type} [DecidableEq T] [DecidableEq A] [DecidableEq K] [DecidableEq V] [Inhabited V]

/-- A completely initialised table that stores `d`. (proof, no code) -/
structure Tab (E : Env K) (g : MTbl K V) (d : Dict K V) : Prop where
  inv : Growt.Inv E (published g)
  full : ∀ q, q < E.M.total → g q ≠ none
  stores : Stores E (published g) d

/-- The migration of the current table into its successor. (proof, no code) -/
structure Mig (u : Bool) (E E' : Env K) (g g' : MTbl K V) (jobs : Nat → Option (JobPC K V)) (o : Obj A) :
    Prop where
  succ : Sync.Succ E E'
  core : ∃ k n, Shape ⟨E, E', u⟩ k n ∧ Core ⟨E, E', u⟩ k ⟨published g, g', false⟩ jobs
  low : ∀ c, jobs (c * blockSize) ≠ none → c < o.claimed
  has : ∀ c, c < o.claimed → c < o.blocks → jobs (c * blockSize) ≠ none
  fin : ∀ c, o.fin c = true → ∃ pc, jobs (c * blockSize) = some pc ∧ pc.ended = true

/-- The tables.  `d` is what the table of the epoch stores, `D` what the tables before it stored when
they were replaced. (proof, no code) -/
structure Tabs (u : Bool) (p : St T A) (env : A → Env K) (mem : A → MTbl K V)
    (jobs : A → Nat → Option (JobPC K V)) (d : Dict K V) (D : A → Dict K V) : Prop where
  kind : ∀ a o, p.heap a = some o → Sync.Kind true (env a) ∧ o.blocks = Sync.blocksOf (env a).M
  calm : ∀ a o, p.heap a = some o → o.next = none → jobs a = fun _ => none
  cur : Tab (env p.cur) (mem p.cur) d
  solo : ∀ o, p.heap p.cur = some o → o.next = none → NoMarks (published (mem p.cur))
  mig : ∀ o b, p.heap p.cur = some o → o.next = some b → p.glob = p.cur →
    Mig u (env p.cur) (env b) (mem p.cur) (mem b) (jobs p.cur) o
  done : p.glob ≠ p.cur → AllMarked (env p.cur) (published (mem p.cur)) ∧
    Tab (env p.glob) (mem p.glob) d ∧ NoMarks (published (mem p.glob))
  old : ∀ a o, Pub p a o → o.ver < p.epoch → Tab (env a) (mem a) (D a) ∧
    AllMarked (env a) (published (mem a))
  new : ∀ t h b, p.pc t = .gr2 h b → Sync.Succ (env h.tab) (env b) ∧ mem b = freshTarget (env b)

/-- A call. (proof, no code) -/
def CallOK (ok : Op K V → Prop) (p : St T A) (env : A → Env K) (mem : A → MTbl K V) (q : PC A) :
    UThr K V → Prop
  | .idle | .fin _ _ => True
  | .pend op => ok op
  | .busy op pc => ok op ∧ ∃ h, q = .use h ∧ PcInv (env h.tab) (published (mem h.tab)) op pc
  | .again op x => ok op ∧ ∃ h, q = .use h ∧
      (x = .help → ∃ o, p.heap h.tab = some o ∧ o.next ≠ none)

/-- The invariant. (proof, no code) -/
structure DInv (u : Bool) (ok : Op K V → Prop) (s : DSt T A K V) (d : Dict K V) (D : A → Dict K V) :
    Prop where
  torn : s.torn = false
  prot : Inv s.p
  tabs : Tabs u s.p s.env s.mem s.jobs d D
  call : ∀ t, CallOK ok s.p s.env s.mem (s.p.pc t) (s.thr t)
  fin : ∃ L : List T, ∀ t, t ∉ L → s.thr t = .idle

/-! ## Tables -/

theorem Tabs.objs {u : Bool} {p p' : St T A} {env : A → Env K} {mem : A → MTbl K V}
    {jobs jobs' : A → Nat → Option (JobPC K V)} {d : Dict K V} {D : A → Dict K V}
    (h : Tabs u p env mem jobs d D) (hg : p'.glob = p.glob) (hc : p'.cur = p.cur)
    (he : p'.epoch = p.epoch)
    (hobj : ∀ a o', p'.heap a = some o' → ∃ o, p.heap a = some o ∧ o'.ver = o.ver ∧
      o'.blocks = o.blocks ∧ o'.next = o.next ∧ o'.priv = o.priv)
    (hnew : ∀ t h b, p'.pc t = .gr2 h b → p.pc t = .gr2 h b)
    (hjobs : ∀ a, jobs' a = jobs a ∨ a = p.cur ∧ ∀ o, p.heap p.cur = some o → o.next ≠ none)
    (hmig : ∀ o o' b, p.heap p.cur = some o → p'.heap p.cur = some o' → o.next = some b →
      p.glob = p.cur → Mig u (env p.cur) (env b) (mem p.cur) (mem b) (jobs p.cur) o →
      Mig u (env p.cur) (env b) (mem p.cur) (mem b) (jobs' p.cur) o') :
    Tabs u p' env mem jobs' d D := by
  refine ⟨?_, ?_, ?_, ?_, ?_, ?_, ?_, fun t h' b hp => h.new t h' b (hnew t h' b hp)⟩
  · intro a o' ha
    obtain ⟨o, h1, -, h3, -⟩ := hobj a o' ha
    rw [h3]
    exact h.kind a o h1
  · intro a o' ha hn
    obtain ⟨o, h1, -, -, h4, -⟩ := hobj a o' ha
    rw [h4] at hn
    rcases hjobs a with hj | ⟨rfl, hj⟩
    · rw [hj]; exact h.calm a o h1 hn
    · exact absurd hn (hj o h1)
  · rw [hc]; exact h.cur
  · intro o' ha hn
    rw [hc] at ha ⊢
    obtain ⟨o, h1, -, -, h4, -⟩ := hobj _ o' ha
    exact h.solo o h1 (h4 ▸ hn)
  · intro o' b ha hn hgc
    rw [hg, hc] at hgc
    rw [hc] at ha ⊢
    obtain ⟨o, h1, -, -, h4, -⟩ := hobj _ o' ha
    rw [h4] at hn
    exact hmig o o' b h1 ha hn hgc (h.mig o b h1 hn hgc)
  · intro hgc
    rw [hg, hc] at hgc ⊢
    exact h.done hgc
  · intro a o' ha hv
    rw [he] at hv
    obtain ⟨o, h1, h2, -, -, h5⟩ := hobj a o' ha.1
    exact h.old a o ⟨h1, h5 ▸ ha.2⟩ (h2 ▸ hv)

/-- Steps that leave the table objects alone. -/
theorem Tabs.same {u : Bool} {p p' : St T A} {env : A → Env K} {mem : A → MTbl K V}
    {jobs : A → Nat → Option (JobPC K V)} {d : Dict K V} {D : A → Dict K V}
    (h : Tabs u p env mem jobs d D) (hh : p'.heap = p.heap) (hg : p'.glob = p.glob)
    (hc : p'.cur = p.cur) (he : p'.epoch = p.epoch)
    (hnew : ∀ t h b, p'.pc t = .gr2 h b → p.pc t = .gr2 h b) : Tabs u p' env mem jobs d D := by
  refine h.objs hg hc he ?_ hnew (fun a => .inl rfl) ?_
  · intro a o' ha
    rw [hh] at ha
    exact ⟨o', ha, rfl, rfl, rfl, rfl⟩
  · intro o o' b h1 h2 _ _ hm
    rw [hh, h1] at h2
    cases h2
    exact hm

/-- The current table and its successor are changed. -/
theorem Tabs.write {u : Bool} {p : St T A} {env : A → Env K} {mem mem' : A → MTbl K V}
    {jobs jobs' : A → Nat → Option (JobPC K V)} {d d' : Dict K V} {D : A → Dict K V} (i : Inv p)
    (h : Tabs u p env mem jobs d D) (hgc : p.glob = p.cur)
    (hmem : ∀ a, a ≠ p.cur → (∀ o, p.heap p.cur = some o → o.next ≠ some a) → mem' a = mem a)
    (hjobs : ∀ a, jobs' a = jobs a ∨ a = p.cur ∧ ∀ o, p.heap p.cur = some o → o.next ≠ none)
    (hcur : Tab (env p.cur) (mem' p.cur) d')
    (hsolo : ∀ o, p.heap p.cur = some o → o.next = none → NoMarks (published (mem' p.cur)))
    (hmig : ∀ o b, p.heap p.cur = some o → o.next = some b →
      Mig u (env p.cur) (env b) (mem' p.cur) (mem' b) (jobs' p.cur) o) :
    Tabs u p env mem' jobs' d' D := by
  have g := i.g
  have hv : p.vg = p.epoch := by unfold St.vg; rw [if_pos hgc]
  refine ⟨h.kind, ?_, hcur, hsolo, fun o b h1 h2 _ => hmig o b h1 h2, fun hn => absurd hgc hn, ?_, ?_⟩
  · intro a o ha hn
    rcases hjobs a with hj | ⟨rfl, hj⟩
    · rw [hj]; exact h.calm a o ha hn
    · exact absurd hn (hj o ha)
  · intro a o ha hlt
    have e : mem' a = mem a := by
      refine hmem a ?_ ?_
      · intro e; rw [e] at ha; have := (g.curP ha.1).2; omega
      · intro oc hoc hn
        rw [← hgc] at hoc
        obtain ⟨ob, h1, h2⟩ := g.succ oc a hoc hn
        have := ha.1.symm.trans h1.1
        cases this
        omega
    rw [e]
    exact h.old a o ha hlt
  · intro t hd b hp
    obtain ⟨h1, h2⟩ := h.new t hd b hp
    refine ⟨h1, ?_⟩
    have ht := i.t t
    rw [hp] at ht
    obtain ⟨-, ob, hb, hpv, -⟩ := ht
    rw [hmem b ?_ ?_]
    · exact h2
    · intro e; rw [e] at hb; have := (g.curP hb).1.2; rw [this] at hpv; cases hpv
    · intro oc hoc hn
      rw [← hgc] at hoc
      obtain ⟨ob', h1, -⟩ := g.succ oc b hoc hn
      have := hb.symm.trans h1.1
      cases this
      rw [h1.2] at hpv; cases hpv

theorem upd_self_id {I X : Type} [DecidableEq I] (f : I → X) (i : I) : upd f i (f i) = f := by
  funext j; unfold upd; split
  · subst j; rfl
  · rfl

theorem store_published (g : MTbl K V) : Sync.store g (published g) = g := by
  funext q
  unfold Sync.store published
  cases h : g q with
  | none => simp
  | some x =>
    split
    · rfl
    · simp

/-! ## Calls -/

/-- What the table stored when it was replaced, if the operation still works on a table that has been
replaced. (proof, no code) -/
def lateOf (D : A → Dict K V) (e : Nat) : PC A → Option (Dict K V)
  | .use h => if h.ep < e then some (D h.tab) else none
  | _ => none

/-- Phase of a call.  A `find` on a table that has been replaced has taken effect when it was
replaced. (proof, no code) -/
def UThr.phase (x : UThr K V) (l : Option (Dict K V)) : Growt.Phase (Op K V) (SRes V) :=
  match x with
  | .idle => .idle
  | .pend op => .called op
  | .again op _ => .called op
  | .fin op r => .effected op r
  | .busy (.find k) _ =>
    match l with
    | some d => .effected (.find k) ⟨(d k).isSome, d k⟩
    | none => .called (.find k)
  | .busy op _ => .called op

/-- Proof, no code. -/
def DSt.phases (s : DSt T A K V) (D : A → Dict K V) (t : T) : Growt.Phase (Op K V) (SRes V) :=
  (s.thr t).phase (lateOf D s.p.epoch (s.p.pc t))

/-- What has to be shown for a step. (proof, no code) -/
def Next (u : Bool) (ok : Op K V → Prop) (s : DSt T A K V) (d : Dict K V) (D : A → Dict K V)
    (e : Option (Ev T (Op K V) (SRes V))) (s' : DSt T A K V) : Prop :=
  ∃ d' D' ev, DInv u ok s' d' D' ∧ visible ev = e.toList ∧ WellFormed (s.phases D) ev (s'.phases D') ∧
    Legal (Sync.growObj true) d (effects ev) d'

theorem Next.silent {u : Bool} {ok : Op K V → Prop} {s s' : DSt T A K V} {d : Dict K V}
    {D : A → Dict K V} (h : DInv u ok s' d D) (hp : ∀ t, s'.phases D t = s.phases D t) :
    Next u ok s d D none s' :=
  ⟨d, D, [], h, rfl, by rw [funext hp]; exact .nil _, .nil _⟩

/-- The thread does not work on a table with an operation. (proof, no code) -/
def UThr.calm : UThr K V → Bool
  | .busy _ _ | .again _ _ => false
  | _ => true

theorem CallOK.calm {ok : Op K V → Prop} {p p' : St T A} {env env' : A → Env K}
    {mem mem' : A → MTbl K V} {q q' : PC A} {x : UThr K V} (h : CallOK ok p env mem q x)
    (hx : x.calm = true) : CallOK ok p' env' mem' q' x := by
  cases x <;> simp only [UThr.calm, Bool.false_eq_true] at hx <;> exact h

theorem CallOK.use {ok : Op K V → Prop} {p : St T A} {env : A → Env K}
    {mem : A → MTbl K V} {q : PC A} {x : UThr K V} (h : CallOK ok p env mem q x)
    (hq : ∀ h, q ≠ .use h) : x.calm = true := by
  cases x with
  | busy op pc => obtain ⟨-, h, e, -⟩ := h; exact absurd e (hq h)
  | again op y => obtain ⟨-, h, e, -⟩ := h; exact absurd e (hq h)
  | _ => rfl

theorem UThr.phase_calm {x : UThr K V} (h : x.calm = true) (l l' : Option (Dict K V)) :
    x.phase l = x.phase l' := by
  cases x <;> simp only [UThr.calm, Bool.false_eq_true] at h <;> rfl

/-- A call is not disturbed by steps of the protocol. -/
theorem CallOK.step {ok : Op K V → Prop} {p p' : St T A} {l : Lab T A} (i : Inv p) (i' : Inv p')
    (hs : Step p l p') {env env' : A → Env K} {mem mem' : A → MTbl K V}
    (henv : ∀ a o, p.heap a = some o → env' a = env a)
    (hev : ∀ h, Hold p h → Evolves (published (mem h.tab)) (published (mem' h.tab)))
    {t : T} {x : UThr K V} (h : CallOK ok p env mem (p.pc t) x)
    (hpc : p'.pc t = p.pc t) : CallOK ok p' env' mem' (p'.pc t) x := by
  rw [hpc]
  cases x with
  | busy op pc =>
    obtain ⟨h1, h, h2, h3⟩ := h
    have ht := i.t t
    rw [h2] at ht
    have hh : Hold p h := ht
    obtain ⟨o, ho, -⟩ := ht
    refine ⟨h1, h, h2, ?_⟩
    rw [henv _ o ho.1]
    exact h3.evolve (hev h hh)
  | again op y =>
    obtain ⟨h1, h, h2, h3⟩ := h
    refine ⟨h1, h, h2, fun hy => ?_⟩
    obtain ⟨o, ho, hn⟩ := h3 hy
    have ht := i'.t t
    rw [hpc, h2] at ht
    obtain ⟨o', ho', -⟩ := ht
    exact ⟨o', ho'.1, (step_ole hs ho ho'.1).next_ne hn⟩
  | _ => exact h

section
variable {u : Bool} {ok : Op K V → Prop} {s s' : DSt T A K V} {d : Dict K V} {D : A → Dict K V}

/-- Steps without effect on the calls. -/
theorem DInv.move (hI : DInv u ok s d D) {l : Lab T A} (hs : Step s.p l s'.p) (hthr : s'.thr = s.thr)
    (htorn : s'.torn = false) (htabs : Tabs u s'.p s'.env s'.mem s'.jobs d D)
    (henv : ∀ a o, s.p.heap a = some o → s'.env a = s.env a)
    (hev : ∀ h, Hold s.p h → Evolves (published (s.mem h.tab)) (published (s'.mem h.tab)))
    (hmv : ∀ t, s'.p.pc t = s.p.pc t ∨ (s.thr t).calm = true) (hep : s'.p.epoch = s.p.epoch) :
    Next u ok s d D none s' := by
  have i' := hI.prot.step hs
  refine .silent ⟨htorn, i', htabs, fun t => ?_, by rw [hthr]; exact hI.fin⟩ fun t => ?_
  · rw [hthr]
    rcases hmv t with h | h
    · exact (hI.call t).step hI.prot i' hs henv hev h
    · exact (hI.call t).calm h
  · unfold DSt.phases
    rw [hthr, hep]
    rcases hmv t with h | h
    · rw [h]
    · exact UThr.phase_calm h _ _

theorem setAt_calm {f : T → UThr K V} {L : List T} (hL : ∀ t, t ∉ L → f t = .idle) (t : T) (x : UThr K V) :
    ∃ L : List T, ∀ t', t' ∉ L → setAt f t x t' = .idle := by
  refine ⟨t :: L, fun t' h => ?_⟩
  rw [setAt_other (fun e => h (by rw [e]; exact List.mem_cons_self))]
  exact hL t' fun h' => h (List.mem_cons_of_mem _ h')

/-- Steps of one call. -/
theorem DInv.thrStep (hI : DInv u ok s d D) {l : Lab T A} (hs : Step s.p l s'.p) {t : T} {x : UThr K V}
    (hthr : s'.thr = setAt s.thr t x)
    (htorn : s'.torn = false) {d' : Dict K V} (htabs : Tabs u s'.p s'.env s'.mem s'.jobs d' D)
    (henv : ∀ a o, s.p.heap a = some o → s'.env a = s.env a)
    (hev : ∀ h, Hold s.p h → Evolves (published (s.mem h.tab)) (published (s'.mem h.tab)))
    (hmv : ∀ t', t' ≠ t → s'.p.pc t' = s.p.pc t') (hep : s'.p.epoch = s.p.epoch)
    (hx : CallOK ok s'.p s'.env s'.mem (s'.p.pc t) x) :
    DInv u ok s' d' D ∧ ∀ t', t' ≠ t → s'.phases D t' = s.phases D t' := by
  have i' := hI.prot.step hs
  obtain ⟨L, hL⟩ := hI.fin
  refine ⟨⟨htorn, i', htabs, fun t' => ?_, by rw [hthr]; exact setAt_calm hL t x⟩, fun t' ht => ?_⟩
  · rw [hthr]
    by_cases h : t' = t
    · subst h; rw [setAt_same]; exact hx
    · rw [setAt_other h]
      exact (hI.call t').step hI.prot i' hs henv hev (hmv t' h)
  · unfold DSt.phases
    rw [hthr, hep, hmv t' ht, setAt_other ht]

/-- … without effect. -/
theorem Next.same {t : T} (h : DInv u ok s' d D ∧ ∀ t', t' ≠ t → s'.phases D t' = s.phases D t')
    (ht : s'.phases D t = s.phases D t) : Next u ok s d D none s' :=
  .silent h.1 fun t' => by
    by_cases e : t' = t
    · rw [e]; exact ht
    · exact h.2 t' e

/-- … with the effect of the call. -/
theorem Next.lin {d' : Dict K V} {t : T} {op : Op K V} {x : SRes V}
    (h : DInv u ok s' d' D ∧ ∀ t', t' ≠ t → s'.phases D t' = s.phases D t')
    (h1 : s.phases D t = .called op) (h2 : s'.phases D t = .effected op x)
    (hl : (Sync.growObj true).legal d op x d') : Next u ok s d D none s' :=
  ⟨d', D, [.lin t op x], h.1, rfl, .lin h1 h2 h.2 (.nil _), .cons hl (.nil _)⟩

end

/-! ## Operations -/

theorem hold_cases {p : St T A} (i : Inv p) {h : Hd A} (hh : Hold p h) :
    h.ep < p.epoch ∨ h.ep = p.epoch ∧ h.tab = p.cur := by
  obtain ⟨o, h1, h2, h3⟩ := hh
  by_cases e : h.ep < p.epoch
  · exact .inl e
  · refine .inr ⟨by omega, ?_⟩
    obtain ⟨oc, c1, c2⟩ := i.g.cur
    exact i.g.inj _ _ _ _ h1 c1 (by omega)

section
variable {u : Bool} {ok : Op K V → Prop} {s s' : DSt T A K V} {d : Dict K V} {D : A → Dict K V}

/-- The table on which an operation works: not yet marked completely, or marked completely and, if
replaced, storing what it stored then. -/
theorem DInv.usedTab (hI : DInv u ok s d D) {h : Hd A} (hh : Hold s.p h) :
    (h.ep = s.p.epoch ∧ h.tab = s.p.cur ∧ s.p.glob = s.p.cur ∧ Tab (s.env h.tab) (s.mem h.tab) d) ∨
    AllMarked (s.env h.tab) (published (s.mem h.tab)) ∧
      ((h.ep = s.p.epoch ∧ h.tab = s.p.cur ∧ Tab (s.env h.tab) (s.mem h.tab) d) ∨
        (h.ep < s.p.epoch ∧ Tab (s.env h.tab) (s.mem h.tab) (D h.tab))) := by
  rcases hold_cases hI.prot hh with e | ⟨e1, e2⟩
  · obtain ⟨o, h1, h2, h3⟩ := hh
    obtain ⟨h4, h5⟩ := hI.tabs.old _ o h1 (by omega)
    exact .inr ⟨h5, .inr ⟨e, h4⟩⟩
  · have hc := hI.tabs.cur
    rw [← e2] at hc
    by_cases hg : s.p.glob = s.p.cur
    · exact .inl ⟨e1, e2, hg, hc⟩
    · obtain ⟨h1, -⟩ := hI.tabs.done hg
      rw [← e2] at h1
      exact .inr ⟨h1, .inl ⟨e1, e2, hc⟩⟩

theorem DInv.holds (hI : DInv u ok s d D) {t : T} {h : Hd A} (hp : s.p.pc t = .use h) : Hold s.p h := by
  have := hI.prot.t t
  rw [hp] at this
  exact this

theorem DInv.kindOf (hI : DInv u ok s d D) {h : Hd A} (hh : Hold s.p h) : Sync.Kind true (s.env h.tab) := by
  obtain ⟨o, h1, -⟩ := hh
  exact (hI.tabs.kind _ o h1.1).1

/-- The contents of the table after a step of an operation. -/
theorem DInv.opTabs (hI : DInv u ok s d D) {h : Hd A} (hh : Hold s.p h) {op : Op K V} (hs : op.isSafe)
    {pc : Growt.PC K V} (hpc : PcInv (s.env h.tab) (published (s.mem h.tab)) op pc) {g : Tbl K V}
    (hg : (step (s.env h.tab) op pc (published (s.mem h.tab))).1 = g) {d' : Dict K V}
    (hd : h.ep = s.p.epoch → Stores (s.env h.tab) g d') (hd' : h.ep < s.p.epoch → d' = d) :
    Tabs u s.p s.env (upd s.mem h.tab (Sync.store (s.mem h.tab) g)) s.jobs d' D ∧
      ∀ a, Evolves (published (s.mem a)) (published (upd s.mem h.tab (Sync.store (s.mem h.tab) g) a)) := by
  have hk := hI.kindOf hh
  rcases hI.usedTab hh with ⟨e1, e2, hgc, hT⟩ | ⟨hm, hT⟩
  · have henv := op_env hk.ok hk.slots hs hT.inv hpc
    rw [hg] at henv
    have hT' : Tab (s.env h.tab) (Sync.store (s.mem h.tab) g) d' :=
      ⟨by rw [Sync.published_store]; exact henv.inv, fun q hq => Sync.store_full _ (hT.full q hq),
        by rw [Sync.published_store]; exact hd e1⟩
    refine ⟨?_, ?_⟩
    · refine hI.tabs.write hI.prot hgc ?_ (fun _ => .inl rfl) ?_ ?_ ?_
      · intro a ha _
        rw [upd_ne _ _ (by rw [e2]; exact ha)]
      · rw [← e2, upd_same]; exact hT'
      · intro o ho hn
        have := hI.tabs.solo o ho hn
        rw [← e2] at this ⊢
        rw [upd_same, Sync.published_store]
        intro p
        rw [henv.marks]; exact this p
      · intro o b ho hn
        have hm := hI.tabs.mig o b ho hn hgc
        have hne : b ≠ h.tab := by
          have ho' := ho
          rw [← hgc] at ho'
          obtain ⟨ob, hb1, hb2⟩ := hI.prot.g.succ o b ho' hn
          intro e
          rw [e, e2] at hb1
          have := (hI.prot.g.curP hb1.1).2
          have := vg_bounds s.p
          omega
        rw [← e2] at hm ⊢
        rw [upd_same, upd_ne _ _ hne]
        obtain ⟨k, n, hS, hC⟩ := hm.core
        refine ⟨hm.succ, ⟨k, n, hS, ?_⟩, hm.low, hm.has, hm.fin⟩
        rw [Sync.published_store]
        exact hC.env henv
    · intro a
      by_cases e : a = h.tab
      · subst e; rw [upd_same, Sync.published_store]; exact henv.evolves
      · rw [upd_ne _ _ e]; exact Evolves.refl _
  · have hst := (stale_step hk.slots hs hm hpc).1
    rw [hg] at hst
    have hid : upd s.mem h.tab (Sync.store (s.mem h.tab) g) = s.mem := by
      rw [hst, store_published, upd_self_id]
    rw [hid]
    refine ⟨?_, fun a => Evolves.refl _⟩
    have ht := hI.tabs
    rcases hT with ⟨e1, e2, hT⟩ | ⟨e1, -⟩
    · have hd1 := hd e1
      rw [hst] at hd1
      have : d' = d := by
        funext k
        cases h1 : d k with
        | none =>
          cases h2 : d' k with
          | none => rfl
          | some v => rw [(hT.stores k v).2 ((hd1 k v).1 h2)] at h1; cases h1
        | some v => exact (hd1 k v).2 ((hT.stores k v).1 h1)
      rw [this]; exact ht
    · rw [hd' e1]; exact ht

theorem op_step {p p' : St T A} {t : T} {a : A} (hs : Step p (.op t a) p') :
    p' = p ∧ ∃ h, p.pc t = .use h ∧ h.tab = a := by
  cases hs with
  | op hp ho => exact ⟨rfl, _, hp, rfl⟩

theorem phase_other {s : DSt T A K V} {t : T} {op : Op K V} {pc : Growt.PC K V}
    (ht : s.thr t = .busy op pc) (hf : (∀ k, op ≠ .find k) ∨ lateOf D s.p.epoch (s.p.pc t) = none) :
    s.phases D t = .called op := by
  unfold DSt.phases
  rw [ht]
  cases op with
  | find k =>
    rcases hf with h | h
    · exact absurd rfl (h k)
    · rw [h]; rfl
  | _ => rfl

end

theorem step_invalid_same {E : Env K} {op : Op K V} {pc : Growt.PC K V} {t t' : Tbl K V} {r : Ret K V}
    (h : step E op pc t = (t', .done r)) (hc : r.code = some .UNSUCCESS_INVALID) : t' = t := by
  cases pc with
  | load i att =>
    simp only [step] at h
    split at h
    · exact (congrArg Prod.fst h).symm
    · cases h
  | act i att curr =>
    exfalso
    simp only [step] at h
    split at h
    · have h2 := congrArg Prod.snd h
      simp only at h2
      cases op <;> simp only [actStep, casStep, retEnd] at h2 <;> (repeat' split at h2) <;> cases h2 <;>
        simp at hc
    · cases h

theorem retry_code {op : Op K V} {r : Ret K V} {x : Exit} (hcode : r.code ∈ codesOf op)
    (hx : retryAs op r = some x) :
    x = .grow ∧ r.code = some .UNSUCCESS_FULL ∨ x = .help ∧ r.code = some .UNSUCCESS_INVALID := by
  obtain ⟨code, it⟩ := r
  cases op <;> simp only [codesOf, List.mem_cons, List.not_mem_nil, or_false] at hcode
  all_goals
    first
      | (rcases hcode with rfl | rfl | rfl | rfl | rfl)
      | (rcases hcode with rfl | rfl | rfl | rfl)
      | (rcases hcode with rfl | rfl | rfl)
      | subst hcode
  all_goals
    simp [retryAs, react, switchInsert, switchUpdate, switchBackoff, switchInsertOrUpdate,
      switchErase] at hx ⊢
  all_goals exact hx.symm

theorem answer_invalid {op : Op K V} (hf : ∀ k, op ≠ .find k) :
    Sync.answer op (⟨some .UNSUCCESS_INVALID, none⟩ : Ret K V) = none := by
  cases op <;> first
    | exact absurd rfl (hf _)
    | simp [Sync.answer, react, switchInsert, switchUpdate, switchBackoff, switchInsertOrUpdate, switchErase]

theorem find_code {E : Env K} {k : K} {pc : Growt.PC K V} {t t' : Tbl K V} {r : Ret K V}
    (h : step E (.find k) pc t = (t', .done r)) : r.code = none := by
  have := step_code h
  simpa [codesOf] using this

section
variable {u : Bool} {ok : Op K V → Prop} {s : DSt T A K V} {d : Dict K V} {D : A → Dict K V}

theorem DInv.opAt (hI : DInv u ok s d D) {t : T} {h : Hd A} (hp : s.p.pc t = .use h) {op : Op K V}
    {pc : Growt.PC K V} (ht : s.thr t = .busy op pc) :
    ok op ∧ PcInv (s.env h.tab) (published (s.mem h.tab)) op pc := by
  have hc := hI.call t
  rw [ht] at hc
  obtain ⟨h1, h', h2, h3⟩ := hc
  rw [hp] at h2
  cases h2
  exact ⟨h1, h3⟩

theorem lateOf_use {e : Nat} {h : Hd A} (hl : h.ep < e) : lateOf D e (.use h) = some (D h.tab) := by
  simp [lateOf, hl]

theorem lateOf_not {e : Nat} {h : Hd A} (hl : ¬ h.ep < e) : lateOf D e (.use h) = none := by
  simp [lateOf, hl]

/-- A step of an operation that does not end it. -/
theorem DInv.opStep (hok : ∀ op, ok op → op.isSafe) (hI : DInv u ok s d D) {t : T} {a : A} {p' : St T A}
    {op : Op K V} {pc pc' : Growt.PC K V} {g : Tbl K V} (hs : Step s.p (.op t a) p')
    (ht : s.thr t = .busy op pc)
    (hst : step (s.env a) op pc (published (s.mem a)) = (g, .cont pc')) :
    Next u ok s d D none { s with
        p := p', mem := upd s.mem a (Sync.store (s.mem a) g), thr := setAt s.thr t (.busy op pc') } := by
  have hs0 := hs
  obtain ⟨rfl, h, hp, rfl⟩ := op_step hs
  obtain ⟨ho, hpc⟩ := hI.opAt hp ht
  have hh := hI.holds hp
  have hk := hI.kindOf hh
  have hinv : Growt.Inv (s.env h.tab) (published (s.mem h.tab)) := by
    rcases hI.usedTab hh with ⟨-, -, -, hT⟩ | ⟨-, ⟨-, -, hT⟩ | ⟨-, hT⟩⟩ <;> exact hT.inv
  have hgood := step_good hk.ok hinv hpc (safe_act hk.slots (hok op ho) _)
  rw [hst] at hgood
  obtain ⟨-, -, hg, hpc'⟩ := hgood
  simp only at hg
  obtain ⟨h1, h2⟩ := hI.opTabs hh (hok op ho) hpc (g := g) (by rw [hst]) (d' := d) (by
    intro e
    rw [hg]
    rcases hI.usedTab hh with ⟨-, -, -, hT⟩ | ⟨-, ⟨-, -, hT⟩ | ⟨e', -⟩⟩
    · exact hT.stores
    · exact hT.stores
    · omega) (fun _ => rfl)
  refine .same (t := t) (hI.thrStep
    (s' := { s with mem := upd s.mem h.tab (Sync.store (s.mem h.tab) g), thr := setAt s.thr t (.busy op pc') }) hs0 rfl hI.torn h1
    (fun _ _ _ => rfl) (fun h' _ => h2 h'.tab) (fun _ _ => rfl) rfl ?_) ?_
  · refine ⟨ho, h, hp, ?_⟩
    show PcInv (s.env h.tab) (published (upd s.mem h.tab _ h.tab)) op pc'
    rw [upd_same, Sync.published_store, hg]
    exact hpc'
  · unfold DSt.phases
    simp only [setAt_same, ht]
    cases op <;> rfl

/-- The last step of an operation, if it has to be tried again. -/
theorem DInv.againStep (hok : ∀ op, ok op → op.isSafe) (hI : DInv u ok s d D) {t : T} {a : A} {p' : St T A}
    {op : Op K V} {pc : Growt.PC K V} {g : Tbl K V} {r : Ret K V} {x : Exit} (hs : Step s.p (.op t a) p')
    (ht : s.thr t = .busy op pc)
    (hst : step (s.env a) op pc (published (s.mem a)) = (g, .done r)) (hx : retryAs op r = some x) :
    Next u ok s d D none { s with
        p := p', mem := upd s.mem a (Sync.store (s.mem a) g), thr := setAt s.thr t (.again op x) } := by
  have hs0 := hs
  obtain ⟨rfl, h, hp, rfl⟩ := op_step hs
  obtain ⟨ho, hpc⟩ := hI.opAt hp ht
  have hh := hI.holds hp
  have hk := hI.kindOf hh
  have hinv : Growt.Inv (s.env h.tab) (published (s.mem h.tab)) := by
    rcases hI.usedTab hh with ⟨-, -, -, hT⟩ | ⟨-, ⟨-, -, hT⟩ | ⟨-, hT⟩⟩ <;> exact hT.inv
  have hc := retry_code (step_code hst) hx
  have hg : g = published (s.mem h.tab) := by
    rcases hc with ⟨-, hc⟩ | ⟨-, hc⟩
    · exact (step_full hk.ok hinv hpc hst hc).1
    · exact step_invalid_same hst hc
  have hnf : ∀ k, op ≠ .find k := by
    rintro k rfl
    have := find_code hst
    rcases hc with ⟨-, hc⟩ | ⟨-, hc⟩ <;> rw [this] at hc <;> cases hc
  obtain ⟨h1, h2⟩ := hI.opTabs hh (hok op ho) hpc (g := g) (by rw [hst]) (d' := d) (by
    intro e
    rw [hg]
    rcases hI.usedTab hh with ⟨-, -, -, hT⟩ | ⟨-, ⟨-, -, hT⟩ | ⟨e', -⟩⟩
    · exact hT.stores
    · exact hT.stores
    · omega) (fun _ => rfl)
  refine .same (t := t) (hI.thrStep
    (s' := { s with mem := upd s.mem h.tab (Sync.store (s.mem h.tab) g), thr := setAt s.thr t (.again op x) }) hs0 rfl hI.torn h1
    (fun _ _ _ => rfl) (fun h' _ => h2 h'.tab) (fun _ _ => rfl) rfl ?_) ?_
  · refine ⟨ho, h, hp, fun e => ?_⟩
    have hinvd : r.code = some .UNSUCCESS_INVALID := by
      rcases hc with ⟨hc, -⟩ | ⟨-, hc⟩
      · rw [hc] at e; cases e
      · exact hc
    obtain ⟨q, -, hq⟩ := step_invalid hst hinvd
    obtain ⟨o, o1, o2, o3⟩ := hh
    refine ⟨o, o1.1, fun hn => ?_⟩
    rcases hold_cases hI.prot ⟨o, o1, o2, o3⟩ with e | ⟨-, e⟩
    · have := vg_bounds s.p
      exact (hI.prot.g.old _ o o1 (by omega)).1 hn
    · have hs := hI.tabs.solo o (e ▸ o1.1) hn q
      rw [← e, hq] at hs
      cases hs
  · rw [phase_other ht (.inl hnf)]
    unfold DSt.phases
    simp only [setAt_same]
    rfl

/-- The last step of an operation, if it gives an answer. -/
theorem DInv.doneStep (hok : ∀ op, ok op → op.isSafe) (hI : DInv u ok s d D) {t : T} {a : A} {p' : St T A}
    {op : Op K V} {pc : Growt.PC K V} {g : Tbl K V} {r : Ret K V} {x : SRes V} (hs : Step s.p (.op t a) p')
    (ht : s.thr t = .busy op pc)
    (hst : step (s.env a) op pc (published (s.mem a)) = (g, .done r)) (hx : Sync.answer op r = some x) :
    Next u ok s d D none { s with
        p := p', mem := upd s.mem a (Sync.store (s.mem a) g), thr := setAt s.thr t (.fin op x) } := by
  have hs0 := hs
  obtain ⟨rfl, h, hp, rfl⟩ := op_step hs
  obtain ⟨ho, hpc⟩ := hI.opAt hp ht
  have hh := hI.holds hp
  have hk := hI.kindOf hh
  have hcode := step_code hst
  have hnext : ∀ d', (h.ep = s.p.epoch → Stores (s.env h.tab) g d') → (h.ep < s.p.epoch → d' = d) →
      DInv u ok { s with mem := upd s.mem h.tab (Sync.store (s.mem h.tab) g), thr := setAt s.thr t (.fin op x) } d' D ∧
      ∀ t', t' ≠ t → DSt.phases { s with mem := upd s.mem h.tab (Sync.store (s.mem h.tab) g), thr := setAt s.thr t (.fin op x) } D t' =
        s.phases D t' := by
    intro d' h1 h2
    obtain ⟨h1, h2⟩ := hI.opTabs hh (hok op ho) hpc (g := g) (by rw [hst]) h1 h2
    exact hI.thrStep
      (s' := { s with mem := upd s.mem h.tab (Sync.store (s.mem h.tab) g), thr := setAt s.thr t (.fin op x) }) hs0 rfl hI.torn h1
      (fun _ _ _ => rfl) (fun h' _ => h2 h'.tab) (fun _ _ => rfl) rfl trivial
  have hfin : DSt.phases { s with mem := upd s.mem h.tab (Sync.store (s.mem h.tab) g), thr := setAt s.thr t (.fin op x) } D t =
      .effected op x := by
    unfold DSt.phases
    simp only [setAt_same]
    rfl
  have hback : ∀ (k : K) (f : UpdFn V) (b : Nat → Bool) (n : Nat), op = .updateBackoff k f b → b n = false →
      r = ⟨some .UNSUCCESS_BACKOFF, none⟩ → (Sync.growObj true).legal d op x d := by
    intro k f b n e1 e2 e3
    subst e3
    subst e1
    refine .inr ⟨⟨_, _, _, n, rfl, e2⟩, ?_, rfl⟩
    simp [Sync.answer, react, switchBackoff, ReturnCode.successful, ReturnCode.toNat, Ret.shown] at hx
    exact hx.symm
  by_cases hl : h.ep < s.p.epoch
  · -- the table has been replaced
    rcases hI.usedTab hh with ⟨e, -⟩ | ⟨hm, ⟨e, -⟩ | ⟨-, hT⟩⟩
    · omega
    · omega
    obtain ⟨e1, e2⟩ := stale_step hk.slots (hok op ho) hm hpc
    rcases e2 r (by rw [hst]) with ⟨k, rfl⟩ | er | ⟨k, f, b, n, e3, e4, e5⟩
    · refine .same (t := t) (hnext d (fun e => by omega) (fun _ => rfl)) ?_
      rw [hfin]
      unfold DSt.phases
      rw [ht, hp, lateOf_use hl]
      simp only [UThr.phase]
      have hgood := step_good hk.ok hT.inv hpc (safe_act hk.slots (hok _ ho) _)
      rw [hst] at hgood
      have hc := find_code hst
      cases hgood.2.2 with
      | invalid hr' => rw [hr'] at hc; cases hc
      | refused c hc' => exact absurd hc' (by simp [Op.mayRefuse])
      | effect hef =>
        have ha := Sync.answer_good hcode hx (hef (D h.tab) hT.stores).2
        obtain ⟨a1, a2⟩ := ha
        rcases a2 with ⟨⟨_, _, a2⟩, -⟩ | a2
        · cases a2
        · simp only [Op.toSpec, SOp.sem] at a1 a2
          obtain ⟨x1, x2⟩ := x
          simp only at a1 a2
          rw [a1, a2]
    · by_cases hf : ∃ k, op = .find k
      · obtain ⟨k, rfl⟩ := hf
        have := find_code hst
        rw [er] at this; cases this
      · rw [er, answer_invalid (fun k e => hf ⟨k, e⟩)] at hx
        cases hx
    · refine .lin (t := t) (hnext d (fun e => by omega) (fun _ => rfl)) (phase_other ht (.inl ?_)) hfin
        (hback k f b n e3 e4 e5)
      rintro k rfl; cases e3
  · have hT : Tab (s.env h.tab) (s.mem h.tab) d := by
      rcases hI.usedTab hh with ⟨-, -, -, hT⟩ | ⟨-, ⟨-, -, hT⟩ | ⟨e, -⟩⟩
      · exact hT
      · exact hT
      · exact absurd e hl
    have hph : s.phases D t = .called op := phase_other ht (.inr (by rw [hp]; exact lateOf_not hl))
    have hgood := step_good hk.ok hT.inv hpc (safe_act hk.slots (hok op ho) _)
    rw [hst] at hgood
    cases hgood.2.2 with
    | invalid hr' =>
      by_cases hf : ∃ k, op = .find k
      · obtain ⟨k, rfl⟩ := hf
        have := find_code hst
        rw [hr'] at this; cases this
      · rw [hr', answer_invalid (fun k e => hf ⟨k, e⟩)] at hx
        cases hx
    | refused c hc hr' ht' habs =>
      simp only at ht'
      refine .lin (t := t) (hnext d (fun _ => by rw [ht']; exact hT.stores) (fun _ => rfl)) hph hfin ?_
      subst hr'
      cases op <;> simp [Op.mayRefuse] at hc
      all_goals first
        | (subst hc; simp [Sync.answer, react, switchInsert, switchInsertOrUpdate] at hx; done)
        | skip
      obtain ⟨rfl, n, hn⟩ := hc
      exact hback _ _ _ n rfl hn rfl
    | effect hef =>
      obtain ⟨h1, h2⟩ := hef d hT.stores
      rw [hk.slots] at h1 h2
      exact .lin (t := t) (hnext _ (fun _ => h1) (fun e => absurd e hl)) hph hfin
        (.inl ⟨rfl, Sync.answer_good hcode hx h2⟩)

end

/-! ## Steps of the protocol -/

theorem pc_moves {p p' : St T A} {l : Lab T A} (hs : Step p l p') (t : T) :
    p'.pc t = p.pc t ∨ (∀ h, p.pc t ≠ .use h) ∨ ∃ a x, l = .exit t a x := by
  have key : ∀ (t' : T) (q : PC A), (∀ h, p.pc t' ≠ .use h) →
      (upd p.pc t' q t = p.pc t ∨ (∀ h, p.pc t ≠ .use h) ∨ ∃ a x, l = .exit t a x) := by
    intro t' q h
    by_cases e : t = t'
    · subst e; exact .inr (.inl h)
    · exact .inl (upd_ne _ _ e)
  have key2 : ∀ (t' : T) (q : PC A), (∃ a x, l = .exit t' a x) →
      (upd p.pc t' q t = p.pc t ∨ (∀ h, p.pc t ≠ .use h) ∨ ∃ a x, l = .exit t a x) := by
    intro t' q h
    by_cases e : t = t'
    · subst e; exact .inr (.inr h)
    · exact .inl (upd_ne _ _ e)
  cases hs <;> first
    | exact .inl rfl
    | exact key2 _ _ ⟨_, _, rfl⟩
    | (rename_i hp _ _; exact key _ _ (fun h e => by rw [hp] at e; cases e))
    | (rename_i hp _ _ _; exact key _ _ (fun h e => by rw [hp] at e; cases e))
    | (rename_i hp _; exact key _ _ (fun h e => by rw [hp] at e; cases e))
    | (rename_i hp; exact key _ _ (fun h e => by rw [hp] at e; cases e))

theorem pc_gr2 {p p' : St T A} {l : Lab T A} (hs : Step p l p') (hl : ∀ t a b, l ≠ .make t a b)
    (t : T) (h : Hd A) (b : A) (hp' : p'.pc t = .gr2 h b) : p.pc t = .gr2 h b := by
  have key : ∀ (t' : T) (q : PC A), (∀ h b, q ≠ .gr2 h b) → upd p.pc t' q t = .gr2 h b →
      p.pc t = .gr2 h b := by
    intro t' q hq he
    by_cases e : t = t'
    · subst e; rw [upd_same] at he; exact absurd he (hq h b)
    · rw [upd_ne _ _ e] at he; exact he
  have ha : ∀ (u : Option (Hd A)) h b, PC.after u ≠ .gr2 h b := by
    intro u h b; cases u <;> intro e <;> cases e
  cases hs <;> first
    | exact hp'
    | exact absurd rfl (hl _ _ _)
    | exact key _ _ (fun _ _ e => by cases e) hp'
    | exact key _ _ (ha _) hp'

theorem tau_same {p p' : St T A} (hs : Step p .tau p') :
    p'.heap = p.heap ∧ p'.glob = p.glob ∧ p'.cur = p.cur ∧ p'.epoch = p.epoch := by
  cases hs <;> exact ⟨rfl, rfl, rfl, rfl⟩

theorem enter_step {p p' : St T A} {t : T} {a : A} (hs : Step p (.enter t a) p') :
    ∃ h : Hd A, h.tab = a ∧ p' = p.at t (.use h) ∧ p.epoch ≤ h.ep ∧ ∀ h', p.pc t ≠ .use h' := by
  cases hs with
  | ldUse hp ho hv => exact ⟨⟨_, _⟩, rfl, rfl, Nat.le_of_eq hv.symm, fun h' e => by rw [hp] at e; cases e⟩
  | gtOk hp he => exact ⟨_, rfl, rfl, he, fun h' e => by rw [hp] at e; cases e⟩

theorem exit_same {p p' : St T A} {t : T} {a : A} {x : Exit} (hs : Step p (.exit t a x) p') :
    p'.heap = p.heap ∧ p'.glob = p.glob ∧ p'.cur = p.cur ∧ p'.epoch = p.epoch ∧
      ∀ t', t' ≠ t → p'.pc t' = p.pc t' := by
  cases hs <;> exact ⟨rfl, rfl, rfl, rfl, fun t' h => upd_ne _ _ h⟩

/-- A table that is still being migrated. -/
theorem mig_at {p : St T A} (i : Inv p) {c : A} {o : Obj A} (hc : Pub p c o) (hn : o.next ≠ none)
    (hw : ¬ (o.blocks ≤ o.claimed ∧ ∀ k, k < o.blocks → o.fin k = true)) :
    c = p.cur ∧ p.glob = p.cur := by
  have h1 := i.g.next c o hc hn
  have h2 := vg_bounds p
  have h3 : ¬ o.ver < p.vg := fun h => hw (i.g.old c o hc h).2
  have hv : p.vg ≤ p.epoch := by omega
  obtain ⟨oc, c1, c2⟩ := i.g.cur
  exact ⟨i.g.inj _ _ _ _ hc c1 (by omega), vg_eq hv⟩

section
variable {u : Bool} {ok : Op K V → Prop} {s s' : DSt T A K V} {d : Dict K V} {D : A → Dict K V}

theorem DInv.calmMv (hI : DInv u ok s d D) {l : Lab T A} {p' : St T A} (hs : Step s.p l p')
    (hl : ∀ t a x, l = .exit t a x → (s.thr t).calm = true) (t : T) :
    p'.pc t = s.p.pc t ∨ (s.thr t).calm = true := by
  rcases pc_moves hs t with h | h | ⟨a, x, h⟩
  · exact .inl h
  · exact .inr ((hI.call t).use h)
  · exact .inr (hl t a x h)

/-- Steps that leave the contents of the tables alone. -/
theorem DInv.protStep (hI : DInv u ok s d D) {l : Lab T A} {p' : St T A} (hs : Step s.p l p')
    (hl : ∀ t a x, l = .exit t a x → (s.thr t).calm = true) {jobs' : A → Nat → Option (JobPC K V)}
    (htabs : Tabs u p' s.env s.mem jobs' d D) (hep : p'.epoch = s.p.epoch) :
    Next u ok s d D none { s with p := p', jobs := jobs' } :=
  hI.move (s' := { s with p := p', jobs := jobs' }) hs rfl hI.torn htabs (fun _ _ _ => rfl)
    (fun _ _ => Evolves.refl _) (hI.calmMv hs hl) hep

theorem Tabs.setObj {p p' : St T A} {env : A → Env K} {mem : A → MTbl K V}
    {jobs jobs' : A → Nat → Option (JobPC K V)} (h : Tabs u p env mem jobs d D) {l : Lab T A}
    (hs : Step p l p') (hl : ∀ t a b, l ≠ .make t a b) {c : A} {o o' : Obj A} (ho : p.heap c = some o)
    (hh : p'.heap = upd p.heap c (some o')) (hg : p'.glob = p.glob) (hc : p'.cur = p.cur)
    (he : p'.epoch = p.epoch)
    (hobj : o'.ver = o.ver ∧ o'.blocks = o.blocks ∧ o'.next = o.next ∧ o'.priv = o.priv)
    (hjobs : ∀ a, jobs' a = jobs a ∨ a = p.cur ∧ ∀ o, p.heap p.cur = some o → o.next ≠ none)
    (hjc : c ≠ p.cur → jobs' p.cur = jobs p.cur)
    (hmig : c = p.cur → ∀ b, o.next = some b → p.glob = p.cur →
      Mig u (env p.cur) (env b) (mem p.cur) (mem b) (jobs p.cur) o →
      Mig u (env p.cur) (env b) (mem p.cur) (mem b) (jobs' p.cur) o') :
    Tabs u p' env mem jobs' d D := by
  refine h.objs hg hc he ?_ (pc_gr2 hs hl) hjobs ?_
  · intro a x hx
    rw [hh] at hx
    by_cases e : a = c
    · subst e; rw [upd_same] at hx; cases hx; exact ⟨o, ho, hobj⟩
    · rw [upd_ne _ _ e] at hx; exact ⟨x, hx, rfl, rfl, rfl, rfl⟩
  · intro x x' b h1 h2 h3 h4 h5
    rw [hh] at h2
    by_cases e : c = p.cur
    · subst e
      rw [upd_same] at h2; cases h2
      rw [ho] at h1; cases h1
      exact hmig rfl b h3 h4 h5
    · rw [upd_ne _ _ (Ne.symm e), h1] at h2
      cases h2
      rw [hjc e]
      exact h5

theorem DInv.quietStep (hI : DInv u ok s d D) {p' : St T A} (hs : Step s.p .tau p') :
    Next u ok s d D none { s with p := p' } := by
  obtain ⟨h1, h2, h3, h4⟩ := tau_same hs
  exact hI.protStep (jobs' := s.jobs) hs (fun _ _ _ h => by cases h)
    (hI.tabs.same h1 h2 h3 h4 (pc_gr2 hs (fun _ _ _ h => by cases h))) h4

theorem DInv.visitStep (hI : DInv u ok s d D) {p' : St T A} {t : T} {a : A}
    (hs : Step s.p (.enter t a) p') : Next u ok s d D none { s with p := p' } := by
  obtain ⟨h, -, rfl, -⟩ := enter_step hs
  exact hI.protStep (jobs' := s.jobs) hs (fun _ _ _ h => by cases h)
    (hI.tabs.same rfl rfl rfl rfl (pc_gr2 hs (fun _ _ _ h => by cases h))) rfl

theorem DInv.enterStep (hI : DInv u ok s d D) {p' : St T A} {t : T} {a : A} {op : Op K V}
    (hs : Step s.p (.enter t a) p') (ht : s.thr t = .pend op) :
    Next u ok s d D none { s with p := p', thr := setAt s.thr t (.busy op (start (s.env a) op)) } := by
  have hs0 := hs
  obtain ⟨h, rfl, rfl, he, -⟩ := enter_step hs
  have hc := hI.call t
  rw [ht] at hc
  refine .same (t := t) (hI.thrStep
    (s' := { s with p := _, thr := setAt s.thr t (.busy op (start (s.env h.tab) op)) }) hs0 rfl hI.torn
    (hI.tabs.same rfl rfl rfl rfl (pc_gr2 hs0 (fun _ _ _ h => by cases h))) (fun _ _ _ => rfl)
    (fun _ _ => Evolves.refl _) (fun t' h' => upd_ne _ _ h') rfl
    ⟨hc, h, upd_same .., PcInv.start _ _ _⟩) ?_
  have e1 : DSt.phases { s with p := s.p.at t (.use h), thr := setAt s.thr t (.busy op (start (s.env h.tab) op)) } D t =
      .called op := by
    refine phase_other (pc := start (s.env h.tab) op) (setAt_same ..) (.inr ?_)
    show lateOf D s.p.epoch (upd s.p.pc t (.use h) t) = none
    rw [upd_same, lateOf_not (by omega)]
  rw [e1]
  unfold DSt.phases
  rw [ht]
  rfl

theorem DInv.exitStep (hI : DInv u ok s d D) {p' : St T A} {t : T} {a : A} {x : Exit}
    (hs : Step s.p (.exit t a x) p') (ht : (s.thr t).calm = true) :
    Next u ok s d D none { s with p := p' } := by
  obtain ⟨h1, h2, h3, h4, -⟩ := exit_same hs
  exact hI.protStep (jobs' := s.jobs) hs (fun t' _ _ h => by cases h; exact ht)
    (hI.tabs.same h1 h2 h3 h4 (pc_gr2 hs (fun _ _ _ h => by cases h))) h4

theorem DInv.exitAgainStep (hI : DInv u ok s d D) {p' : St T A} {t : T} {a : A} {op : Op K V} {x : Exit}
    (hs : Step s.p (.exit t a x) p') (ht : s.thr t = .again op x) :
    Next u ok s d D none { s with p := p', thr := setAt s.thr t (.pend op) } := by
  obtain ⟨h1, h2, h3, h4, h5⟩ := exit_same hs
  have hc := hI.call t
  rw [ht] at hc
  refine .same (t := t) (hI.thrStep (s' := { s with p := p', thr := setAt s.thr t (.pend op) }) hs rfl hI.torn
    (hI.tabs.same h1 h2 h3 h4 (pc_gr2 hs (fun _ _ _ h => by cases h))) (fun _ _ _ => rfl)
    (fun _ _ => Evolves.refl _) h5 h4 hc.1) ?_
  unfold DSt.phases
  rw [ht]
  simp only [setAt_same]
  rfl

theorem DInv.freeStep (hI : DInv u ok s d D) {p' : St T A} {a : A} (hs : Step s.p (.free a) p') :
    Next u ok s d D none { s with p := p' } := by
  have hsame : p'.heap = upd s.p.heap a none ∧ p'.glob = s.p.glob ∧ p'.cur = s.p.cur ∧
      p'.epoch = s.p.epoch := by
    cases hs <;> exact ⟨rfl, rfl, rfl, rfl⟩
  obtain ⟨h1, h2, h3, h4⟩ := hsame
  have hx : ∀ b o, p'.heap b = some o → s.p.heap b = some o := by
    intro b o h
    rw [h1] at h
    by_cases e : b = a
    · subst e; rw [upd_same] at h; cases h
    · rw [upd_ne _ _ e] at h; exact h
  refine hI.protStep (jobs' := s.jobs) hs (fun _ _ _ h => by cases h)
    (hI.tabs.objs h2 h3 h4 (fun b o h => ⟨o, hx b o h, rfl, rfl, rfl, rfl⟩)
      (pc_gr2 hs (fun _ _ _ h => by cases h)) (fun _ => .inl rfl) ?_) h4
  intro o o' b e1 e2 _ _ hm
  rw [hx _ _ e2] at e1
  cases e1
  exact hm

theorem DInv.retireStep (hI : DInv u ok s d D) {p' : St T A} {t : T} {a : A}
    (hs : Step s.p (.retire t a) p') : Next u ok s d D none { s with p := p' } := by
  have hs0 := hs
  cases hs with
  | @egRetire _ h o hp ho =>
    exact hI.protStep (jobs' := s.jobs) hs0 (fun _ _ _ h => by cases h)
      (hI.tabs.setObj hs0 (fun _ _ _ h => by cases h) ho rfl rfl rfl rfl ⟨rfl, rfl, rfl, rfl⟩
        (fun _ => .inl rfl) (fun _ => rfl)
        (fun _ b _ _ hm => ⟨hm.succ, hm.core, hm.low, hm.has, hm.fin⟩)) rfl

theorem DInv.leaveStep (hI : DInv u ok s d D) {p' : St T A} {t : T} {a b : A}
    (hs : Step s.p (.leave t a b) p') : Next u ok s d D none { s with p := p' } := by
  have hs0 := hs
  cases hs with
  | @leave _ w _ _ o hp ho hk =>
    exact hI.protStep (jobs' := s.jobs) hs0 (fun _ _ _ h => by cases h)
      (hI.tabs.setObj hs0 (fun _ _ _ h => by cases h) ho rfl rfl rfl rfl ⟨rfl, rfl, rfl, rfl⟩
        (fun _ => .inl rfl) (fun _ => rfl)
        (fun _ b _ _ hm => ⟨hm.succ, hm.core, fun c h => Nat.lt_succ_of_lt (hm.low c h),
          fun c _ h2 => hm.has c (Nat.lt_of_lt_of_le h2 hk) h2, hm.fin⟩)) rfl

theorem block_inj {a b : Nat} (h : a * blockSize = b * blockSize) : a = b :=
  Nat.eq_of_mul_eq_mul_right (by unfold blockSize; omega) h

theorem DInv.claimStep (hI : DInv u ok s d D) {p' : St T A} {t : T} {a b : A} {o : Obj A}
    (hs : Step s.p (.claim t a b) p') (ho : s.p.heap a = some o) :
    Next u ok s d D none { s with
        p := p'
        jobs := upd s.jobs a (upd1 (s.jobs a) (o.claimed * blockSize)
          (some (jobStart ⟨s.env a, s.env b, u⟩ (o.claimed * blockSize)
            (blockEnd (s.env a).M.addr (o.claimed * blockSize))))) } := by
  have hs0 := hs
  cases hs with
  | @claim _ w _ _ o' hp ho' hk =>
    rw [ho] at ho'
    cases ho'
    have ht := hI.prot.t t
    rw [hp] at ht
    obtain ⟨-, ⟨o1, h1, -, -, h2⟩, -⟩ := ht
    have := h1.1.symm.trans ho
    cases this
    obtain ⟨hcur, hglob⟩ := mig_at hI.prot h1 (by rw [h2]; simp) (fun h => by omega)
    have hbl := (hI.tabs.kind a o ho).2
    have hlt : o.claimed * blockSize < (s.env a).M.addr := (Sync.blocks_iff _ _).1 (hbl ▸ hk)
    refine hI.protStep hs0 (fun _ _ _ h => by cases h)
      (hI.tabs.setObj hs0 (fun _ _ _ h => by cases h) ho rfl rfl rfl rfl ⟨rfl, rfl, rfl, rfl⟩
        ?_ ?_ ?_) rfl
    · intro x
      by_cases e : x = a
      · refine .inr ⟨e.trans hcur, fun oc hoc => ?_⟩
        rw [← hcur, ho] at hoc
        cases hoc
        rw [h2]; simp
      · exact .inl (upd_ne _ _ e)
    · intro e; exact absurd hcur e
    · intro _ b' hb' _ hm
      rw [h2] at hb'
      cases hb'
      rw [← hcur] at hm ⊢
      rw [upd_same]
      obtain ⟨k, n, hS, hC⟩ := hm.core
      have hnone : s.jobs a (o.claimed * blockSize) = none := by
        cases hj : s.jobs a (o.claimed * blockSize) with
        | none => rfl
        | some pc =>
          have := hm.low o.claimed (by rw [hj]; simp)
          omega
      refine ⟨hm.succ, ⟨k, n, hS, ?_⟩, ?_, ?_, ?_⟩
      · have hA := hS.addr
        simp only at hA
        rw [hA] at hlt ⊢
        exact start_ok hS hC ⟨o.claimed, Nat.mul_comm _ _⟩ hlt hnone
      · intro c hc
        show c < o.claimed + 1
        by_cases e : c = o.claimed
        · omega
        · rw [upd1_ne (fun h => e (block_inj h))] at hc
          exact Nat.lt_succ_of_lt (hm.low c hc)
      · intro c hc1 hc2
        by_cases e : c = o.claimed
        · subst e; rw [upd1_self]; simp
        · rw [upd1_ne (fun h => e (block_inj h))]
          have : c < o.claimed + 1 := hc1
          exact hm.has c (by omega) hc2
      · intro c hc
        have hlt := hI.prot.g.finc a o c ho hc
        rw [upd1_ne (fun h => by have := block_inj h; omega)]
        exact hm.fin c hc

/-- A thread that migrates a block. -/
theorem DInv.blockAt (hI : DInv u ok s d D) {t : T} {w : Option (Hd A)} {c n : A} {k : Nat}
    (hp : s.p.pc t = .mg5 w c n k) : ∃ o, Pub s.p c o ∧ o.next = some n ∧ k < o.blocks ∧
      c = s.p.cur ∧ s.p.glob = s.p.cur ∧ n ≠ c ∧ Mig u (s.env c) (s.env n) (s.mem c) (s.mem n) (s.jobs c) o := by
  have ht := hI.prot.t t
  rw [hp] at ht
  obtain ⟨-, ⟨o, h1, -, -, h2, h3, h4, h5⟩, -⟩ := ht
  obtain ⟨e1, e2⟩ := mig_at hI.prot h1 (by rw [h2]; simp) (fun h => by
    have := h.2 k h4
    rw [h5] at this; cases this)
  have hm := hI.tabs.mig o n (e1 ▸ h1.1) h2 e2
  rw [← e1] at hm
  refine ⟨o, h1, h2, h4, e1, e2, ?_, hm⟩
  have ho' := h1.1
  rw [e1, ← e2] at ho'
  obtain ⟨ob, hb1, hb2⟩ := hI.prot.g.succ o n ho' h2
  intro e
  rw [e, e1] at hb1
  have := (hI.prot.g.curP hb1.1).2
  have := vg_bounds s.p
  omega

theorem DInv.doneBlock (hI : DInv u ok s d D) {p' : St T A} {t : T} {a b : A} {k : Nat} {pc : JobPC K V}
    (hs : Step s.p (.done t a b) p') (hk : (s.p.pc t).block = some k)
    (hj : s.jobs a (k * blockSize) = some pc) (he : pc.ended = true) :
    Next u ok s d D none { s with p := p' } := by
  have hs0 := hs
  cases hs with
  | @done _ w _ _ k' o hp ho =>
    rw [hp] at hk
    cases hk
    obtain ⟨o1, h1, h2, h3, hcur, hglob, hne, hm⟩ := hI.blockAt hp
    have := h1.1.symm.trans ho
    cases this
    refine hI.protStep (jobs' := s.jobs) hs0 (fun _ _ _ h => by cases h)
      (hI.tabs.setObj hs0 (fun _ _ _ h => by cases h) ho rfl rfl rfl rfl ⟨rfl, rfl, rfl, rfl⟩
        (fun _ => .inl rfl) (fun _ => rfl) ?_) rfl
    intro _ b' _ _ hm
    refine ⟨hm.succ, hm.core, hm.low, hm.has, fun c hc => ?_⟩
    by_cases e : c = k
    · subst e; rw [← hcur]; exact ⟨pc, hj, he⟩
    · simp only [upd_ne _ _ e] at hc
      exact hm.fin c hc

theorem DInv.workStep (hI : DInv u ok s d D) {p' : St T A} {t : T} {a b : A} {k : Nat} {pc pc' : JobPC K V}
    {m : MMem K V} (hs : Step s.p (.work t a b) p') (hk : (s.p.pc t).block = some k)
    (hj : s.jobs a (k * blockSize) = some pc) (he : pc.ended = false)
    (hst : jobStep ⟨s.env a, s.env b, u⟩ (blockEnd (s.env a).M.addr (k * blockSize)) pc
        ⟨published (s.mem a), s.mem b, s.torn⟩ = (m, .cont pc')) (htorn : m.torn = false) :
    Next u ok s d D none { s with
        p := p'
        mem := upd (upd s.mem a (Sync.store (s.mem a) m.src)) b m.tgt
        torn := m.torn
        jobs := upd s.jobs a (upd1 (s.jobs a) (k * blockSize) (some pc')) } := by
  have hs0 := hs
  cases hs with
  | @work _ w _ _ k' o on hp ho hon =>
    rw [hp] at hk
    cases hk
    obtain ⟨o1, h1, h2, h3, hcur, hglob, hne, hm⟩ := hI.blockAt hp
    have := h1.1.symm.trans ho
    cases this
    obtain ⟨kk, n, hS, hC⟩ := hm.core
    have hA := hS.addr
    simp only at hA
    have hC' : Core ⟨s.env a, s.env b, u⟩ kk m (upd1 (s.jobs a) (k * blockSize) (some pc')) := by
      rw [hI.torn] at hst
      rw [hA] at hst
      obtain ⟨pc2, e1, e2⟩ := step_ok hS hC hj he (by rw [hst]; exact htorn)
      rw [hst] at e1 e2
      cases e1
      exact e2
    have hcont : ∀ q, (m.src q).c = (published (s.mem a) q).c := by
      intro q
      have := jobStep_content ⟨s.env a, s.env b, u⟩ (blockEnd (s.env a).M.addr (k * blockSize)) pc
        ⟨published (s.mem a), s.mem b, s.torn⟩ q
      rw [hst] at this
      exact this
    have hma : upd (upd s.mem a (Sync.store (s.mem a) m.src)) b m.tgt a = Sync.store (s.mem a) m.src := by
      rw [upd_ne _ _ (Ne.symm hne), upd_same]
    have hT := hI.tabs.cur
    rw [← hcur] at hT
    have htabs : Tabs u s.p s.env (upd (upd s.mem a (Sync.store (s.mem a) m.src)) b m.tgt)
        (upd s.jobs a (upd1 (s.jobs a) (k * blockSize) (some pc'))) d D := by
      refine hI.tabs.write hI.prot hglob ?_ ?_ ?_ ?_ ?_
      · intro x hx hnx
        rw [← hcur] at hx hnx
        have : x ≠ b := fun e => hnx o ho (by rw [e]; exact h2)
        rw [upd_ne _ _ this, upd_ne _ _ hx]
      · intro x
        by_cases e : x = a
        · refine .inr ⟨e.trans hcur, fun oc hoc => ?_⟩
          rw [← hcur, ho] at hoc
          cases hoc
          rw [h2]; simp
        · exact .inl (upd_ne _ _ e)
      · rw [← hcur, hma]
        refine ⟨by rw [Sync.published_store]; exact hC'.inv, fun q hq => Sync.store_full _ (hT.full q hq), ?_⟩
        rw [Sync.published_store]
        intro key v
        rw [hT.stores key v]
        constructor <;> rintro ⟨i, hi, h⟩ <;> exact ⟨i, hi, by rw [← h, hcont i]⟩
      · intro oc hoc hn
        rw [← hcur, ho] at hoc
        cases hoc
        rw [h2] at hn; cases hn
      · intro oc b' hoc hn
        rw [← hcur, ho] at hoc
        cases hoc
        rw [h2] at hn
        cases hn
        rw [← hcur, hma, upd_same, upd_same]
        refine ⟨hm.succ, ⟨kk, n, hS, ?_⟩, ?_, ?_, ?_⟩
        · rw [Sync.published_store]
          obtain ⟨ms, mt, mtn⟩ := m
          simp only at htorn
          subst htorn
          exact hC'
        · intro c hc
          by_cases e : c = k
          · subst e; exact hm.low c (by rw [hj]; simp)
          · rw [upd1_ne (fun h => e (block_inj h))] at hc
            exact hm.low c hc
        · intro c hc1 hc2
          by_cases e : c = k
          · subst e; rw [upd1_self]; simp
          · rw [upd1_ne (fun h => e (block_inj h))]
            exact hm.has c hc1 hc2
        · intro c hc
          obtain ⟨pc2, e1, e2⟩ := hm.fin c hc
          by_cases e : c = k
          · subst e
            rw [hj] at e1
            cases e1
            rw [he] at e2; cases e2
          · rw [upd1_ne (fun h => e (block_inj h))]
            exact ⟨pc2, e1, e2⟩
    refine hI.move (s' := { s with
        p := s.p
        mem := upd (upd s.mem a (Sync.store (s.mem a) m.src)) b m.tgt
        torn := m.torn
        jobs := upd s.jobs a (upd1 (s.jobs a) (k * blockSize) (some pc')) }) hs0 rfl htorn htabs
      (fun _ _ _ => rfl) ?_ (fun _ => .inl rfl) rfl
    intro h hh
    have hb : h.tab ≠ b := by
      obtain ⟨oh, o1, o2, o3⟩ := hh
      have ho' := ho
      rw [hcur, ← hglob] at ho'
      obtain ⟨ob, hb1, hb2⟩ := hI.prot.g.succ o b ho' h2
      intro e
      rw [e] at o1
      have := o1.1.symm.trans hb1.1
      cases this
      have := vg_bounds s.p
      omega
    simp only [upd_ne _ _ hb]
    by_cases e : h.tab = a
    · rw [e, upd_same, Sync.published_store]
      intro q
      rw [hcont q]
      exact CellLe.refl _
    · rw [upd_ne _ _ e]; exact Evolves.refl _

theorem DInv.makeStep (hI : DInv u ok s d D) {p' : St T A} {t : T} {a b : A} {o : Obj A} {i n : Nat}
    (hs : Step s.p (.make t a b) p') (ho : p'.heap b = some o)
    (hn : o.blocks = Sync.blocksOf ((s.env a).M.resize i n))
    (hw : DSt.Within { s with
        p := p'
        env := upd s.env b { s.env a with M := (s.env a).M.resize i n }
        mem := upd s.mem b (freshTarget { s.env a with M := (s.env a).M.resize i n })
        jobs := upd s.jobs b (fun _ => none) }) :
    Next u ok s d D none { s with
        p := p'
        env := upd s.env b { s.env a with M := (s.env a).M.resize i n }
        mem := upd s.mem b (freshTarget { s.env a with M := (s.env a).M.resize i n })
        jobs := upd s.jobs b (fun _ => none) } := by
  have hs0 := hs
  cases hs with
  | @grMake _ h _ oh nb hp hoh hb =>
    have hne : ∀ x ox, s.p.heap x = some ox → x ≠ b := by
      intro x ox hx e; rw [e, hb] at hx; cases hx
    have hk := hI.tabs.kind h.tab oh hoh
    have hx : ∀ x ox, upd s.p.heap b (some (⟨oh.ver + 1, nb, 0, fun _ => false, none, false, true⟩ : Obj A)) x = some ox →
        x ≠ b → s.p.heap x = some ox := by
      intro x ox h e; rw [upd_ne _ _ e] at h; exact h
    have hcb : s.p.cur ≠ b := by
      obtain ⟨oc, hc, -⟩ := hI.prot.g.cur
      exact hne _ _ hc.1
    have hgb : s.p.glob ≠ b := by
      obtain ⟨oc, hc, -⟩ := hI.prot.g.glob
      exact hne _ _ hc.1
    have hab : h.tab ≠ b := hne _ _ hoh
    have hsm : (s.env h.tab).M.addr < 2 ^ 32 := by
      have := hw.1 h.tab oh (by simp only [upd_ne _ _ hab]; exact hoh)
      simp only [upd_ne _ _ hab] at this
      exact this
    have hsucc : Sync.Succ (s.env h.tab) { s.env h.tab with M := (s.env h.tab).M.resize i n } :=
      ⟨rfl, rfl, i, n, rfl⟩
    refine hI.move (s' := { s with
        p := _
        env := upd s.env b { s.env h.tab with M := (s.env h.tab).M.resize i n }
        mem := upd s.mem b (freshTarget { s.env h.tab with M := (s.env h.tab).M.resize i n })
        jobs := upd s.jobs b (fun _ => none) }) hs0 rfl hI.torn ?_
      (fun x ox hx => upd_ne _ _ (hne x ox hx)) ?_ (hI.calmMv hs0 (fun _ _ _ h => by cases h)) rfl
    · have ht := hI.tabs
      refine ⟨?_, ?_, ?_, ?_, ?_, ?_, ?_, ?_⟩
      · intro x ox hox
        by_cases e : x = b
        · subst e
          simp only at ho hox
          rw [ho] at hox
          cases hox
          simp only [upd_same]
          exact ⟨hsucc.kind hk.1 hsm, hn⟩
        · simp only [upd_ne _ _ e]
          exact ht.kind x ox (hx x ox hox e)
      · intro x ox hox hnx
        by_cases e : x = b
        · subst e; simp only [upd_same]
        · simp only [upd_ne _ _ e]
          exact ht.calm x ox (hx x ox hox e) hnx
      · simp only [upd_ne _ _ hcb]; exact ht.cur
      · intro ox hox hnx
        simp only [upd_ne _ _ hcb]
        exact ht.solo ox (hx _ ox hox hcb) hnx
      · intro ox b' hox hnx hg
        have hox' := hx _ ox hox hcb
        have hb' : b' ≠ b := by
          have := hox'
          simp only at hg
          rw [← hg] at this
          obtain ⟨ob, h1, -⟩ := hI.prot.g.succ ox b' this hnx
          exact hne _ _ h1.1
        simp only [upd_ne _ _ hcb, upd_ne _ _ hb']
        exact ht.mig ox b' hox' hnx hg
      · intro hg
        simp only [upd_ne _ _ hcb, upd_ne _ _ hgb]
        exact ht.done hg
      · intro x ox hox hv
        have e : x ≠ b := by
          intro e
          rw [e] at hox
          have h1 := hox.1
          simp only [upd_same] at h1
          cases h1
          exact absurd hox.2 (by simp)
        simp only [upd_ne _ _ e]
        exact ht.old x ox ⟨hx x ox hox.1 e, hox.2⟩ hv
      · intro t' h' b' hp'
        by_cases e : t' = t
        · subst e
          simp only [upd_same] at hp'
          cases hp'
          simp only [upd_same, upd_ne _ _ hab]
          exact ⟨hsucc, trivial⟩
        · simp only [upd_ne _ _ e] at hp'
          have hti := hI.prot.t t'
          rw [hp'] at hti
          obtain ⟨⟨o1, h1, -⟩, ob, h2, -⟩ := hti
          simp only [upd_ne _ _ (hne _ _ h1.1), upd_ne _ _ (hne _ _ h2)]
          exact ht.new t' h' b' hp'
    · rintro h' ⟨oh', h1, -⟩
      simp only [upd_ne _ _ (hne _ _ h1.1)]
      exact Evolves.refl _

theorem DInv.attachStep (hI : DInv u ok s d D) {p' : St T A} {t : T} {a b : A}
    (hs : Step s.p (.attach t a b) p') (hw : DSt.Within { s with p := p' }) :
    Next u ok s d D none { s with p := p' } := by
  have hs0 := hs
  cases hs with
  | @grCas _ h _ o ob hp ho hn hb =>
    have ht := hI.prot.t t
    rw [hp] at ht
    obtain ⟨hh, ob', hb', hpv, hver, hnb, -⟩ := ht
    rw [hb] at hb'
    cases hb'
    obtain ⟨e1, e2, e3, e4, e5⟩ := attach_at hI.prot.g hh ho hn
    have hne : b ≠ h.tab := by
      intro e; rw [e, ho] at hb; cases hb; rw [e5] at hpv; cases hpv
    have ec : h.tab = s.p.cur := e1.trans e2
    obtain ⟨hsucc, hfresh⟩ := hI.tabs.new t h b hp
    have hx : ∀ x ox, upd (upd s.p.heap b (some { ob with priv := false })) h.tab (some { o with next := some b }) x = some ox →
        x = h.tab ∧ ox = { o with next := some b } ∨ x = b ∧ ox = { ob with priv := false } ∨
        x ≠ h.tab ∧ x ≠ b ∧ s.p.heap x = some ox := by
      intro x ox hox
      by_cases h1 : x = h.tab
      · subst h1; rw [upd_same] at hox; cases hox; exact .inl ⟨rfl, rfl⟩
      · rw [upd_ne _ _ h1] at hox
        by_cases h2 : x = b
        · subst h2; rw [upd_same] at hox; cases hox; exact .inr (.inl ⟨rfl, rfl⟩)
        · rw [upd_ne _ _ h2] at hox; exact .inr (.inr ⟨h1, h2, hox⟩)
    refine hI.protStep (jobs' := s.jobs) hs0 (fun _ _ _ h => by cases h) ?_ rfl
    have hT := hI.tabs
    refine ⟨?_, ?_, hT.cur, ?_, ?_, hT.done, ?_, ?_⟩
    · intro x ox hox
      rcases hx x ox hox with ⟨rfl, rfl⟩ | ⟨rfl, rfl⟩ | ⟨-, -, h3⟩
      · exact hT.kind _ o ho
      · exact hT.kind _ ob hb
      · exact hT.kind _ ox h3
    · intro x ox hox hnx
      rcases hx x ox hox with ⟨rfl, rfl⟩ | ⟨rfl, rfl⟩ | ⟨-, -, h3⟩
      · cases hnx
      · exact hT.calm _ ob hb hnb
      · exact hT.calm _ ox h3 hnx
    · intro ox hox hnx
      rcases hx _ ox hox with ⟨-, rfl⟩ | ⟨e, -⟩ | ⟨e, -⟩
      · cases hnx
      · exact absurd (e.symm.trans ec.symm) hne
      · exact absurd ec.symm e
    · intro ox b' hox hnx hg
      rcases hx _ ox hox with ⟨-, rfl⟩ | ⟨e, -⟩ | ⟨e, -⟩
      · cases hnx
        show Mig u (s.env s.p.cur) (s.env b) (s.mem s.p.cur) (s.mem b) (s.jobs s.p.cur) { o with next := some b }
        have hcl := hI.prot.g.calm _ o ho hn
        have hjn := hT.calm _ o ho hn
        rw [ec] at hjn
        have hsm : (s.env h.tab).M.addr < 2 ^ 32 := hw.1 h.tab { o with next := some b } (by simp only [upd_same])
        have hkd := (hT.kind _ o ho).1
        rw [ec] at hsm hkd hsucc ho
        obtain ⟨k, n, hS⟩ := (hsucc.menv hkd hsm u).shape
        refine ⟨hsucc, ⟨k, n, hS, ?_⟩, ?_, ?_, ?_⟩
        · rw [hjn, hfresh]
          exact Core.init hS hT.cur.inv (hT.solo o ho hn)
        · intro c hc
          rw [hjn] at hc
          exact absurd rfl hc
        · intro c hc
          have hc' : c < o.claimed := hc
          omega
        · intro c hc
          have := hI.prot.g.finc _ o c ho hc
          omega
      · exact absurd (e.symm.trans ec.symm) hne
      · exact absurd ec.symm e
    · intro x ox hox hv
      rcases hx x ox hox.1 with ⟨rfl, rfl⟩ | ⟨rfl, rfl⟩ | ⟨-, -, h3⟩
      · have h1 : o.ver < s.p.epoch := hv
        omega
      · have h1 : ob.ver < s.p.epoch := hv
        obtain ⟨oh, h2, h3, h4⟩ := hh
        have := h2.1.symm.trans ho
        cases this
        omega
      · exact hT.old x ox ⟨h3, hox.2⟩ hv
    · intro t' h' b' hp'
      exact hT.new t' h' b' (pc_gr2 hs0 (fun _ _ _ h => by cases h) t' h' b' hp')

theorem DInv.publishStep (hI : DInv u ok s d D) {p' : St T A} {t : T} {a b : A}
    (hs : Step s.p (.publish t a b) p') (hw : DSt.Within { s with p := p' }) :
    Next u ok s d D none { s with p := p' } := by
  have hs0 := hs
  cases hs with
  | @egCas _ h _ hp hg =>
    have ht := hI.prot.t t
    rw [hp] at ht
    obtain ⟨o, on, h1, h2, h3, h4, h5, h6, h7, h8, h9, h10, h11⟩ := publish_at hI.prot.g ht hg
    have ec : h.tab = s.p.cur := hg.symm.trans h5
    have hT := hI.tabs
    refine hI.protStep (jobs' := s.jobs) hs0 (fun _ _ _ h => by cases h) ?_ rfl
    have ho : s.p.heap s.p.cur = some o := ec ▸ h1.1
    have hroom := hw.2 o ho (by rw [h6]; simp)
    have hm := hT.mig o b ho h6 h5
    have hkd := hT.kind _ o ho
    obtain ⟨k, n, hS, hC⟩ := hm.core
    have hA := hS.addr
    simp only at hA
    have hall : ∀ x, blockSize ∣ x → x < 2 ^ k → ∃ pc, s.jobs s.p.cur x = some pc ∧ pc.ended = true := by
      rintro x ⟨c, rfl⟩ hx
      rw [Nat.mul_comm] at hx ⊢
      rw [← hA] at hx
      exact hm.fin c (h8 c (by rw [hkd.2]; exact (Sync.blocks_iff _ _).2 hx))
    obtain ⟨g1, g2, g3, -, g5⟩ := end_ok hS hC hall hroom
    have hmk := all_marked hS hkd.1.slots hC hall hroom
    refine ⟨hT.kind, hT.calm, hT.cur, hT.solo, ?_, ?_, hT.old, ?_⟩
    · intro ox b' _ _ hgc
      exact absurd hgc h11
    · intro _
      refine ⟨hmk, ⟨g2, g1, ?_⟩, g3⟩
      intro key v
      rw [hT.cur.stores key v]
      exact (g5 key v).symm
    · intro t' h' b' hp'
      exact hT.new t' h' b' (pc_gr2 hs0 (fun _ _ _ h => by cases h) t' h' b' hp')

end

theorem lin_many {X Y Z : Type} {S : Growt.Obj X Y Z} {z : Z} {ph' : T → Growt.Phase X Y} (L : List T) :
    ∀ ph : T → Growt.Phase X Y, (∀ t, t ∉ L → ph' t = ph t) →
    (∀ t, ph' t = ph t ∨ ∃ op x, ph t = .called op ∧ ph' t = .effected op x ∧ S.legal z op x z) →
    ∃ ev, visible ev = [] ∧ WellFormed ph ev ph' ∧ Legal S z (effects ev) z := by
  induction L with
  | nil =>
    intro ph h _
    have : ph' = ph := funext fun t => h t (by simp)
    rw [this]
    exact ⟨[], rfl, .nil _, .nil _⟩
  | cons t L ih =>
    intro ph h h'
    rcases h' t with e | ⟨op, x, e1, e2, e3⟩
    · refine ih ph (fun t' ht' => ?_) h'
      by_cases e' : t' = t
      · rw [e']; exact e
      · exact h t' (by simp [e', ht'])
    · obtain ⟨ev, v1, v2, v3⟩ := ih (setAt ph t (.effected op x)) (fun t' ht' => by
        by_cases e' : t' = t
        · subst e'; rw [setAt_same]; exact e2
        · rw [setAt_other e']; exact h t' (by simp [e', ht'])) (fun t' => by
        by_cases e' : t' = t
        · subst e'; rw [setAt_same]; exact .inl e2
        · rw [setAt_other e']; exact h' t')
      exact ⟨.lin t op x :: ev, v1, .lin e1 (setAt_same ..) (fun t' ht' => setAt_other ht') v2, .cons e3 v3⟩

section
variable {u : Bool} {ok : Op K V → Prop} {s s' : DSt T A K V} {d : Dict K V} {D : A → Dict K V}

theorem DInv.switchStep (hI : DInv u ok s d D) {p' : St T A} {t : T} {a b : A}
    (hs : Step s.p (.switch t a b) p') : Next u ok s d D none { s with p := p' } := by
  have hs0 := hs
  have i' := hI.prot.step hs
  cases hs with
  | @egEpoch _ h _ o hp ho =>
    have ht := hI.prot.t t
    rw [hp] at ht
    obtain ⟨hh, e1, e2, e3⟩ := ht
    have hT := hI.tabs
    obtain ⟨d1, d2, d3⟩ := hT.done e3
    have hP := hI.prot.g.globP (o := o) (by rw [e1]; exact ho)
    have hvg : s.p.vg = s.p.epoch + 1 := by unfold St.vg; rw [if_neg e3]
    have hov : o.ver = s.p.epoch + 1 := by rw [← hvg]; exact hP.2
    have hpub : Pub s.p b o := e1 ▸ hP.1
    have hnone : o.next = none := by
      cases e : o.next with
      | none => rfl
      | some x =>
        have := hI.prot.g.next _ o hpub (by rw [e]; simp)
        omega
    rw [e1] at d2 d3
    have htabs : Tabs u { s.p with epoch := o.ver, cur := b, pc := upd s.p.pc t (.eg5 h) } s.env s.mem s.jobs d
        (upd D s.p.cur d) := by
      refine ⟨hT.kind, hT.calm, d2, fun _ _ _ => d3, ?_, fun h => absurd e1 h, ?_, ?_⟩
      · intro ox b' hox hnx _
        have := ho.symm.trans hox
        cases this
        rw [hnone] at hnx; cases hnx
      · intro x ox hox hv
        have hv' : ox.ver < o.ver := hv
        by_cases e : ox.ver < s.p.epoch
        · have : x ≠ s.p.cur := by
            intro e'
            have := (hI.prot.g.curP (o := ox) (by rw [← e']; exact hox.1)).2
            omega
          rw [upd_ne _ _ this]
          exact hT.old x ox hox e
        · obtain ⟨oc, c1, c2⟩ := hI.prot.g.cur
          have : x = s.p.cur := hI.prot.g.inj _ _ _ _ hox c1 (by omega)
          subst this
          rw [upd_same]
          exact ⟨hT.cur, d1⟩
      · intro t' h' b' hp'
        exact hT.new t' h' b' (pc_gr2 hs0 (fun _ _ _ h => by cases h) t' h' b' hp')
    have hD : DInv u ok { s with p := { s.p with epoch := o.ver, cur := b, pc := upd s.p.pc t (.eg5 h) } } d
        (upd D s.p.cur d) := by
      refine ⟨hI.torn, i', htabs, fun t' => ?_, hI.fin⟩
      rcases hI.calmMv hs0 (fun _ _ _ h => by cases h) t' with h1 | h1
      · exact (hI.call t').step hI.prot i' hs0 (fun _ _ _ => rfl) (fun _ _ => Evolves.refl _) h1
      · exact (hI.call t').calm h1
    obtain ⟨L, hL⟩ := hI.fin
    have hphase : ∀ t', DSt.phases { s with p := { s.p with epoch := o.ver, cur := b, pc := upd s.p.pc t (.eg5 h) } }
          (upd D s.p.cur d) t' = s.phases D t' ∨
        ∃ op x, s.phases D t' = .called op ∧
          DSt.phases { s with p := { s.p with epoch := o.ver, cur := b, pc := upd s.p.pc t (.eg5 h) } }
            (upd D s.p.cur d) t' = .effected op x ∧ (Sync.growObj true).legal d op x d := by
      intro t'
      rcases hI.calmMv hs0 (fun _ _ _ h => by cases h) t' with h1 | h1
      · simp only at h1
        unfold DSt.phases
        simp only [h1]
        cases hq : s.thr t' with
        | busy op pc =>
          have hc := hI.call t'
          rw [hq] at hc
          obtain ⟨-, h', hu, -⟩ := hc
          rw [hu]
          have hh' := hI.holds hu
          rcases hold_cases hI.prot hh' with e | ⟨ee, ec⟩
          · left
            have : h'.tab ≠ s.p.cur := by
              obtain ⟨oh, h2, h3, h4⟩ := hh'
              intro e'
              have := (hI.prot.g.curP (o := oh) (by rw [← e']; exact h2.1)).2
              omega
            rw [lateOf_use e, lateOf_use (e := o.ver) (by omega), upd_ne _ _ this]
          · rw [lateOf_not (e := s.p.epoch) (by omega), lateOf_use (e := o.ver) (by omega), ec, upd_same]
            cases op with
            | find k =>
              right
              exact ⟨.find k, _, rfl, rfl, .inl ⟨rfl, rfl, .inr rfl⟩⟩
            | _ => exact .inl rfl
        | _ => exact .inl rfl
      · left
        exact UThr.phase_calm h1 _ _
    obtain ⟨ev, v1, v2, v3⟩ := lin_many (S := Sync.growObj true) (z := d) L (s.phases D) (fun t' ht' => by
      unfold DSt.phases
      simp only [hL t' ht']
      rfl) hphase
    exact ⟨d, _, ev, hD, v1, v2, v3⟩

/-- Every step keeps the invariant and has the effects of the calls that take effect. -/
theorem DInv.next (hok : ∀ op, ok op → op.isSafe) (hI : DInv u ok s d D) {s' : DSt T A K V}
    {e : Option (Ev T (Op K V) (SRes V))} (hs : DStep u ok s e s') (hw : s'.Within)
    (htorn : s'.torn = false) : Next u ok s d D e s' := by
  cases hs with
  | @call t h op hp ht ho =>
    obtain ⟨L, hL⟩ := hI.fin
    refine ⟨d, D, [.call t op], ⟨hI.torn, hI.prot, hI.tabs, fun t' => ?_, setAt_calm hL t _⟩, rfl,
      .call ?_ ?_ ?_ (.nil _), .nil _⟩
    · by_cases htt : t' = t
      · subst htt; simp only [setAt_same]; exact ho
      · simp only [setAt_other htt]; exact hI.call t'
    · unfold DSt.phases; rw [ht]; rfl
    · unfold DSt.phases; simp only [setAt_same]; rfl
    · intro t' h'; unfold DSt.phases; simp only [setAt_other h']
  | @ret t h op x hp ht =>
    obtain ⟨L, hL⟩ := hI.fin
    refine ⟨d, D, [.ret t op x], ⟨hI.torn, hI.prot, hI.tabs, fun t' => ?_, setAt_calm hL t _⟩, rfl,
      .ret ?_ ?_ ?_ (.nil _), .nil _⟩
    · by_cases htt : t' = t
      · subst htt; simp only [setAt_same]; trivial
      · simp only [setAt_other htt]; exact hI.call t'
    · unfold DSt.phases; rw [ht]; rfl
    · unfold DSt.phases; simp only [setAt_same]; rfl
    · intro t' h'; unfold DSt.phases; simp only [setAt_other h']
  | quiet hs => exact hI.quietStep hs
  | enter hs ht => exact hI.enterStep hs ht
  | visit hs ht => exact hI.visitStep hs
  | op hs ht hst => exact hI.opStep hok hs ht hst
  | opDone hs ht hst hx => exact hI.doneStep hok hs ht hst hx
  | opAgain hs ht hst hx => exact hI.againStep hok hs ht hst hx
  | exitAgain hs ht => exact hI.exitAgainStep hs ht
  | exit hs ht hx =>
    refine hI.exitStep hs ?_
    rcases ht with h | ⟨_, _, h⟩ <;> rw [h] <;> rfl
  | make i n hs ho hn => exact hI.makeStep hs ho hn hw
  | attach hs => exact hI.attachStep hs hw
  | claim hs ho => exact hI.claimStep hs ho
  | leave hs => exact hI.leaveStep hs
  | work hs hk hj he hst => exact hI.workStep hs hk hj he hst htorn
  | done hs hk hj he => exact hI.doneBlock hs hk hj he
  | publish hs => exact hI.publishStep hs hw
  | switch hs => exact hI.switchStep hs
  | retire hs => exact hI.retireStep hs
  | free hs => exact hI.freeStep hs

end

theorem DInv.init {u : Bool} {ok : Op K V → Prop} {E : Env K} (hk : Sync.Kind true E) (a : A)
    (D : A → Dict K V) : DInv u ok (DSt.init E a : DSt T A K V) (fun _ => none) D := by
  have hp : published ((DSt.init E a : DSt T A K V).mem a) = emptyTbl := by
    funext q
    simp only [published, DSt.init]
    split <;> rfl
  have hob : ∀ b o, (DSt.init E a : DSt T A K V).p.heap b = some o →
      o = ⟨0, Sync.blocksOf E.M, 0, fun _ => false, none, false, false⟩ := by
    intro b o h
    simp only [DSt.init, St.init] at h
    split at h
    · exact (Option.some.inj h).symm
    · cases h
  refine ⟨rfl, Inv.init a _, ⟨?_, fun _ _ _ _ => rfl, ⟨?_, ?_, ?_⟩, ?_, ?_, fun h => absurd rfl h, ?_, ?_⟩,
    fun t => trivial, ⟨[], fun _ _ => rfl⟩⟩
  · intro b o h
    rw [hob b o h]
    exact ⟨hk, rfl⟩
  · show Growt.Inv E (published _)
    rw [show (DSt.init E a : DSt T A K V).p.cur = a from rfl, hp]
    exact Growt.Inv.emptyTbl E
  · intro q hq
    show (if q < E.M.total then some Cell.emptyCell else none) ≠ none
    have hq' : q < E.M.total := hq
    rw [if_pos hq']; simp
  · show Stores E (published _) _
    rw [show (DSt.init E a : DSt T A K V).p.cur = a from rfl, hp]
    exact Stores.emptyTbl E
  · intro o _ _
    rw [show (DSt.init E a : DSt T A K V).p.cur = a from rfl, hp]
    exact fun _ => rfl
  · intro o b h hn
    rw [hob _ o h] at hn; cases hn
  · intro b o _ hv
    exact absurd hv (Nat.not_lt_zero _)
  · intro t h b hp; cases hp

end
end Async
end Growt
