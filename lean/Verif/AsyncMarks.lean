import Verif.AsyncDataInv
import Verif.MigWeak

/-!
# Asynchronous growth: marked slots and successors

In every execution - also if marks are torn (see `MMem`) - a table with a marked slot has a successor.
So an operation that is refused because of a mark can call `help_grow` (`estrat_async.hpp:240-245`).
-/

set_option linter.unusedSectionVars false

namespace Growt
namespace Async

attribute [local irreducible] blockEnd jobStart blockSize freshTarget Mapper.resize

section
variable {T A K V : Type} [DecidableEq T] [DecidableEq A] [DecidableEq K] [DecidableEq V] [Inhabited V]

theorem JCells.retarget {E F F' : Env K} {u u' : Bool} {t : Tbl K V} {b e st cur : Nat}
    (h : JCells ⟨E, F, u⟩ t b e st cur) : JCells ⟨E, F', u'⟩ t b e st cur :=
  ⟨h.lo, h.hi, h.pre, h.head, h.le, h.froz, h.tailne, h.zero⟩

theorem WJob.retarget {E F F' : Env K} {u u' : Bool} {t : Tbl K V} {b e : Nat} {pc : JobPC K V}
    (h : WJob ⟨E, F, u⟩ t b e pc) : WJob ⟨E, F', u'⟩ t b e pc := by
  cases pc with
  | scan i => exact h
  | scanMark i curr => exact h
  | fill st qs tail i => exact ⟨JCells.retarget h.1, h.2⟩
  | load st tail i => exact ⟨JCells.retarget h.1, h.2⟩
  | mark st tail i curr => exact ⟨JCells.retarget h.1, h.2⟩
  | probe st tail nxt u x => exact ⟨JCells.retarget h.1, h.2⟩
  | put st tail nxt u x => exact ⟨JCells.retarget h.1, h.2⟩
  | fin st i => exact JCells.retarget h
  | nothing => trivial

theorem WCore.retarget {E F F' : Env K} {u u' : Bool} {k : Nat} {t : Tbl K V}
    {jobs : Nat → Option (JobPC K V)} (h : WCore ⟨E, F, u⟩ k t jobs) : WCore ⟨E, F', u'⟩ k t jobs :=
  ⟨fun b pc hj => ⟨(h.job b pc hj).1, (h.job b pc hj).2.1, WJob.retarget (h.job b pc hj).2.2⟩, h.marks⟩

/-- What is known about the table at one address. (proof, no code) -/
structure WTab (u : Bool) (E : Env K) (g : MTbl K V) (jobs : Nat → Option (JobPC K V)) (o : Obj A) :
    Prop where
  slots : E.m = true
  blocks : o.blocks = Sync.blocksOf E.M
  core : ∃ k, E.M.WF k ∧ WCore ⟨E, E, u⟩ k (published g) jobs
  calm : o.next = none → (∀ b, jobs b = none) ∧ NoMarks (published g)
  low : ∀ c, jobs (c * blockSize) ≠ none → c < o.claimed

/-- What is known about a call. (proof, no code) -/
def WCall (p : St T A) (q : PC A) : UThr K V → Prop
  | .idle | .fin _ _ | .pend _ => True
  | .busy _ pc => (∃ h, q = .use h) ∧ PcM pc
  | .again _ x => ∃ h, q = .use h ∧ (x = .help → ∃ o, p.heap h.tab = some o ∧ o.next ≠ none)

/-- The invariant. (proof, no code) -/
structure WInv (u : Bool) (s : DSt T A K V) : Prop where
  prot : Inv s.p
  tabs : ∀ a o, s.p.heap a = some o → WTab u (s.env a) (s.mem a) (s.jobs a) o
  call : ∀ t, WCall s.p (s.p.pc t) (s.thr t)

theorem WTab.ole {u : Bool} {E : Env K} {g : MTbl K V} {jobs : Nat → Option (JobPC K V)} {o o' : Obj A}
    (h : WTab u E g jobs o) (ho : OLe o o') : WTab u E g jobs o' := by
  refine ⟨h.slots, ho.blocks.trans h.blocks, h.core, fun hn => h.calm ?_,
    fun c hc => Nat.lt_of_lt_of_le (h.low c hc) ho.claimed⟩
  cases e : o.next with
  | none => rfl
  | some b => rw [ho.next b e] at hn; cases hn

theorem WCall.calm {p p' : St T A} {q q' : PC A} {x : UThr K V} (h : WCall p q x) (hx : x.calm = true) :
    WCall p' q' x := by
  cases x <;> simp only [UThr.calm, Bool.false_eq_true] at hx <;> exact h

theorem WCall.use {p : St T A} {q : PC A} {x : UThr K V} (h : WCall p q x) (hq : ∀ h, q ≠ .use h) :
    x.calm = true := by
  cases x with
  | busy op pc => obtain ⟨⟨h, e⟩, -⟩ := h; exact absurd e (hq h)
  | again op y => obtain ⟨h, e, -⟩ := h; exact absurd e (hq h)
  | _ => rfl

theorem WCall.step {p p' : St T A} {l : Lab T A} (i' : Inv p') (hs : Step p l p') {t : T} {x : UThr K V}
    (h : WCall p (p.pc t) x) (hpc : p'.pc t = p.pc t) : WCall p' (p'.pc t) x := by
  rw [hpc]
  cases x with
  | again op y =>
    obtain ⟨h, h2, h3⟩ := h
    refine ⟨h, h2, fun hy => ?_⟩
    obtain ⟨o, ho, hn⟩ := h3 hy
    have ht := i'.t t
    rw [hpc, h2] at ht
    obtain ⟨o', ho', -⟩ := ht
    exact ⟨o', ho'.1, (step_ole hs ho ho'.1).next_ne hn⟩
  | _ => exact h

/-- Table objects come into being only by `make`. -/
theorem heap_back {p p' : St T A} {l : Lab T A} (hs : Step p l p') (hl : ∀ t a b, l ≠ .make t a b) {x : A}
    {o' : Obj A} (h : p'.heap x = some o') : ∃ o, p.heap x = some o := by
  have set : ∀ {c : A} {oc oc' : Obj A}, p.heap c = some oc → upd p.heap c (some oc') x = some o' →
      ∃ o, p.heap x = some o := by
    intro c oc oc' hc h
    by_cases e : x = c
    · subst e; exact ⟨oc, hc⟩
    · rw [upd_ne _ _ e] at h; exact ⟨_, h⟩
  have del : ∀ {c : A}, upd p.heap c none x = some o' → ∃ o, p.heap x = some o := by
    intro c h
    by_cases e : x = c
    · subst e; rw [upd_same] at h; cases h
    · rw [upd_ne _ _ e] at h; exact ⟨_, h⟩
  cases hs
  case grMake => exact absurd rfl (hl _ _ _)
  case grCas t hd b o ob hp ho hn hb =>
    simp only at h
    by_cases e : x = hd.tab
    · subst e; exact ⟨o, ho⟩
    · rw [upd_ne _ _ e] at h; exact set hb h
  all_goals first
    | exact ⟨_, h⟩
    | exact del h
    | exact set (by assumption) h

section
variable {u : Bool} {ok : Op K V → Prop} {s s' : DSt T A K V}

theorem WInv.calmMv (hI : WInv u s) {l : Lab T A} {p' : St T A} (hs : Step s.p l p')
    (hl : ∀ t a x, l = .exit t a x → (s.thr t).calm = true) (t : T) :
    p'.pc t = s.p.pc t ∨ (s.thr t).calm = true := by
  rcases pc_moves hs t with h | h | ⟨a, x, h⟩
  · exact .inl h
  · exact .inr ((hI.call t).use h)
  · exact .inr (hl t a x h)

/-- Steps that leave the contents alone. -/
theorem WInv.protStep (hI : WInv u s) {l : Lab T A} {p' : St T A} (hs : Step s.p l p')
    (hl : ∀ t a b, l ≠ .make t a b) (hx : ∀ t a x, l = .exit t a x → (s.thr t).calm = true) :
    WInv u { s with p := p' } := by
  have i' := hI.prot.step hs
  refine ⟨i', fun a o' ho' => ?_, fun t => ?_⟩
  · obtain ⟨o, ho⟩ := heap_back hs hl ho'
    exact (hI.tabs a o ho).ole (step_ole hs ho ho')
  · rcases hI.calmMv hs hx t with h | h
    · exact (hI.call t).step i' hs h
    · exact (hI.call t).calm h

/-- Steps of one call that leave the contents alone. -/
theorem WInv.thrStep (hI : WInv u s) {l : Lab T A} {p' : St T A} (hs : Step s.p l p')
    (hl : ∀ t a b, l ≠ .make t a b) {t : T} {x : UThr K V} (hmv : ∀ t', t' ≠ t → p'.pc t' = s.p.pc t')
    (hx : WCall p' (p'.pc t) x) : WInv u { s with p := p', thr := setAt s.thr t x } := by
  have i' := hI.prot.step hs
  refine ⟨i', fun a o' ho' => ?_, fun t' => ?_⟩
  · obtain ⟨o, ho⟩ := heap_back hs hl ho'
    exact (hI.tabs a o ho).ole (step_ole hs ho ho')
  · by_cases e : t' = t
    · subst e; simp only [setAt_same]; exact hx
    · simp only [setAt_other e]; exact (hI.call t').step i' hs (hmv t' e)

/-- The last access of an operation, or one in between. -/
theorem WInv.opStep (hI : WInv u s) {t : T} {a : A} {p' : St T A} {op : Op K V} {pc : Growt.PC K V}
    {g : Tbl K V} {out : Out K V} (hs : Step s.p (.op t a) p') (ht : s.thr t = .busy op pc)
    (hst : step (s.env a) op pc (published (s.mem a)) = (g, out)) {x : UThr K V}
    (hx : ∀ h, s.p.pc t = .use h → h.tab = a → (∀ pc', out = .cont pc' → PcM pc') → WCall s.p (s.p.pc t) x) :
    WInv u { s with p := p', mem := upd s.mem a (Sync.store (s.mem a) g), thr := setAt s.thr t x } := by
  obtain ⟨rfl, h, hp, rfl⟩ := op_step hs
  have hc := hI.call t
  rw [ht] at hc
  have ht' := hI.prot.t t
  rw [hp] at ht'
  obtain ⟨o, ho, -⟩ := ht'
  have hT := hI.tabs _ o ho.1
  obtain ⟨w1, w2, w3⟩ := step_weak hT.slots hc.2 hst
  refine ⟨hI.prot, fun b ob hb => ?_, fun t' => ?_⟩
  · by_cases e : b = h.tab
    · subst e
      rw [ho.1] at hb
      cases hb
      simp only [upd_same]
      obtain ⟨k, hk, hC⟩ := hT.core
      refine ⟨hT.slots, hT.blocks, ⟨k, hk, ?_⟩, fun hn => ⟨(hT.calm hn).1, ?_⟩, hT.low⟩
      · rw [Sync.published_store]
        exact hC.env hT.slots w1 w2
      · rw [Sync.published_store]
        intro q
        rw [w2]
        exact (hT.calm hn).2 q
    · simp only [upd_ne _ _ e]
      exact hI.tabs b ob hb
  · by_cases e : t' = t
    · subst e; simp only [setAt_same]; exact hx h hp rfl w3
    · simp only [setAt_other e]; exact hI.call t'

theorem WInv.claimStep (hI : WInv u s) {p' : St T A} {t : T} {a b : A} {o : Obj A}
    (hs : Step s.p (.claim t a b) p') (ho : s.p.heap a = some o) :
    WInv u { s with
        p := p'
        jobs := upd s.jobs a (upd1 (s.jobs a) (o.claimed * blockSize)
          (some (jobStart ⟨s.env a, s.env b, u⟩ (o.claimed * blockSize)
            (blockEnd (s.env a).M.addr (o.claimed * blockSize))))) } := by
  have hs0 := hs
  have i' := hI.prot.step hs
  cases hs with
  | @claim _ w _ _ o' hp ho' hk =>
    rw [ho] at ho'
    cases ho'
    have ht := hI.prot.t t
    rw [hp] at ht
    obtain ⟨-, ⟨o1, h1, -, -, h2⟩, -⟩ := ht
    have := h1.1.symm.trans ho
    cases this
    refine ⟨i', fun x ox hox => ?_, fun t' => ?_⟩
    · by_cases e : x = a
      · subst e
        simp only [upd_same] at hox
        cases hox
        simp only [upd_same]
        have hT := hI.tabs x o ho
        obtain ⟨k, hw, hC⟩ := hT.core
        have hlt : o.claimed * blockSize < (s.env x).M.addr := (Sync.blocks_iff _ _).1 (hT.blocks ▸ hk)
        have hnone : s.jobs x (o.claimed * blockSize) = none := by
          cases hj : s.jobs x (o.claimed * blockSize) with
          | none => rfl
          | some pc =>
            have := hT.low o.claimed (by rw [hj]; simp)
            omega
        refine ⟨hT.slots, hT.blocks, ⟨k, hw, ?_⟩, ?_, ?_⟩
        · rw [hw.addr_eq] at hlt ⊢
          exact WCore.retarget (WCore.start (G := ⟨s.env x, s.env b, u⟩) hw hT.slots (WCore.retarget hC)
            ⟨o.claimed, Nat.mul_comm _ _⟩ hlt hnone)
        · intro hn
          rw [h2] at hn; cases hn
        · intro c hc
          show c < o.claimed + 1
          by_cases e : c = o.claimed
          · omega
          · rw [upd1_ne (fun h => e (block_inj h))] at hc
            exact Nat.lt_succ_of_lt (hT.low c hc)
      · simp only [upd_ne _ _ e] at hox ⊢
        exact hI.tabs x ox hox
    · rcases hI.calmMv hs0 (fun _ _ _ h => by cases h) t' with h | h
      · exact (hI.call t').step i' hs0 h
      · exact (hI.call t').calm h

theorem WInv.workStep (hI : WInv u s) {p' : St T A} {t : T} {a b : A} {k : Nat} {pc pc' : JobPC K V}
    {m : MMem K V} (hs : Step s.p (.work t a b) p') (hk : (s.p.pc t).block = some k)
    (hj : s.jobs a (k * blockSize) = some pc)
    (hst : jobStep ⟨s.env a, s.env b, u⟩ (blockEnd (s.env a).M.addr (k * blockSize)) pc
        ⟨published (s.mem a), s.mem b, s.torn⟩ = (m, .cont pc')) :
    WInv u { s with
        p := p'
        mem := upd (upd s.mem a (Sync.store (s.mem a) m.src)) b m.tgt
        torn := m.torn
        jobs := upd s.jobs a (upd1 (s.jobs a) (k * blockSize) (some pc')) } := by
  cases hs with
  | @work _ w _ _ k' o on hp ho hon =>
    rw [hp] at hk
    cases hk
    have ht := hI.prot.t t
    rw [hp] at ht
    obtain ⟨-, ⟨o1, h1, -, -, h2, h3, h4, h5⟩, -⟩ := ht
    have := h1.1.symm.trans ho
    cases this
    -- the successor has no successor
    obtain ⟨e1, e2⟩ := mig_at hI.prot h1 (by rw [h2]; simp) (fun h => by
      have := h.2 k h4
      rw [h5] at this; cases this)
    obtain ⟨ob, hb1, hb2⟩ := hI.prot.g.succ o b (by rw [e2, ← e1]; exact ho) h2
    have := hb1.1.symm.trans hon
    cases this
    have hbn : on.next = none := by
      cases e : on.next with
      | none => rfl
      | some c =>
        have := hI.prot.g.next b on hb1 (by rw [e]; simp)
        have := vg_bounds s.p
        omega
    have hne : b ≠ a := by
      rintro rfl
      rw [ho] at hon; cases hon
      rw [h2] at hbn; cases hbn
    have hT := hI.tabs a o ho
    obtain ⟨kk, hw, hC⟩ := hT.core
    rw [hw.addr_eq] at hst
    obtain ⟨w1, w2, w3⟩ := WCore.step (G := ⟨s.env a, s.env b, u⟩) (m := ⟨published (s.mem a), s.mem b, s.torn⟩)
      hw hT.slots (WCore.retarget hC) hj hst
    refine ⟨hI.prot, fun x ox hox => ?_, hI.call⟩
    by_cases exb : x = b
    · subst exb
      rw [hon] at hox
      cases hox
      simp only [upd_same, upd_ne _ _ hne]
      have hB := hI.tabs x on hon
      obtain ⟨hjn, hmk⟩ := hB.calm hbn
      have hmk' : NoMarks (published m.tgt) := by
        intro q
        unfold published
        cases e : m.tgt q with
        | none => rfl
        | some y =>
          rcases w2 q y e with e' | e'
          · have := hmk q
            unfold published at this
            simp only at e'
            rw [e'] at this
            exact this
          · exact e'
      obtain ⟨kb, hwb, -⟩ := hB.core
      refine ⟨hB.slots, hB.blocks, ⟨kb, hwb, ⟨fun b' pc hb' => ?_, fun q h1 => ?_⟩⟩, fun _ => ⟨hjn, hmk'⟩, hB.low⟩
      · rw [hjn b'] at hb'; cases hb'
      · rw [hmk' q] at h1; cases h1
    · by_cases exa : x = a
      · subst exa
        rw [ho] at hox
        cases hox
        simp only [upd_ne _ _ exb, upd_same]
        refine ⟨hT.slots, hT.blocks, ⟨kk, hw, ?_⟩, ?_, ?_⟩
        · rw [Sync.published_store]
          exact WCore.retarget w1
        · intro hn
          rw [h2] at hn; cases hn
        · intro c hc
          by_cases e : c = k
          · subst e; exact hT.low c (by rw [hj]; simp)
          · rw [upd1_ne (fun h => e (block_inj h))] at hc
            exact hT.low c hc
      · simp only [upd_ne _ _ exb, upd_ne _ _ exa]
        exact hI.tabs x ox hox

theorem WInv.makeStep (hI : WInv u s) {p' : St T A} {t : T} {a b : A} {o : Obj A} {i d : Nat}
    (hs : Step s.p (.make t a b) p') (ho : p'.heap b = some o)
    (hn : o.blocks = Sync.blocksOf ((s.env a).M.resize i d)) (hlim : (s.env a).M.addr < 2 ^ 63) :
    WInv u { s with
        p := p'
        env := upd s.env b { s.env a with M := (s.env a).M.resize i d }
        mem := upd s.mem b (freshTarget { s.env a with M := (s.env a).M.resize i d })
        jobs := upd s.jobs b (fun _ => none) } := by
  have hs0 := hs
  have i' := hI.prot.step hs
  cases hs with
  | @grMake _ h _ oh nb hp hoh hb =>
    refine ⟨i', fun x ox hox => ?_, fun t' => ?_⟩
    · by_cases e : x = b
      · subst e
        simp only at ho hox
        rw [ho] at hox
        cases hox
        simp only [upd_same]
        have hT := hI.tabs _ oh hoh
        obtain ⟨k, hw, -⟩ := hT.core
        have hk : k < 63 := by
          rw [hw.addr_eq] at hlim
          exact (Nat.pow_lt_pow_iff_right (by omega : 1 < 2)).1 hlim
        obtain ⟨n, hwn⟩ := Sync.resize_wf hw hk i d
        have hmk : NoMarks (published (freshTarget (V := V) { s.env h.tab with M := (s.env h.tab).M.resize i d })) := by
          intro q
          unfold published freshTarget
          split <;> rfl
        exact ⟨hT.slots, hn, ⟨n, hwn, ⟨fun b' pc hb' => (by cases hb'), fun q h1 => (by rw [hmk q] at h1; cases h1)⟩⟩,
          fun _ => ⟨fun _ => rfl, hmk⟩, fun c hc => absurd rfl hc⟩
      · simp only [upd_ne _ _ e] at hox ⊢
        exact hI.tabs x ox hox
    · rcases hI.calmMv hs0 (fun _ _ _ h => by cases h) t' with h | h
      · exact (hI.call t').step i' hs0 h
      · exact (hI.call t').calm h

/-- Tables have fewer than `2^63` slots (`base_linear.hpp:405-409`: each slot takes at least one byte of
memory, addresses have 64 bits). -/
def DSt.Fits (s : DSt T A K V) : Prop := ∀ a o, s.p.heap a = some o → (s.env a).M.addr < 2 ^ 63

theorem WInv.next (hI : WInv u s) {e : Option (Ev T (Op K V) (SRes V))} (hs : DStep u ok s e s')
    (hlim : s.Fits) : WInv u s' := by
  cases hs with
  | @call t h op hp ht ho =>
    refine ⟨hI.prot, hI.tabs, fun t' => ?_⟩
    by_cases e : t' = t
    · subst e; simp only [setAt_same]; trivial
    · simp only [setAt_other e]; exact hI.call t'
  | @ret t h op x hp ht =>
    refine ⟨hI.prot, hI.tabs, fun t' => ?_⟩
    by_cases e : t' = t
    · subst e; simp only [setAt_same]; trivial
    · simp only [setAt_other e]; exact hI.call t'
  | quiet hs => exact hI.protStep hs (fun _ _ _ h => by cases h) (fun _ _ _ h => by cases h)
  | @enter p' t a op hs ht =>
    have hs0 := hs
    obtain ⟨h, rfl, rfl, he, -⟩ := enter_step hs
    refine hI.thrStep hs0 (fun _ _ _ h => by cases h) (fun t' h' => upd_ne _ _ h') ⟨⟨h, upd_same ..⟩, trivial⟩
  | visit hs ht => exact hI.protStep hs (fun _ _ _ h => by cases h) (fun _ _ _ h => by cases h)
  | op hs ht hst => exact hI.opStep hs ht hst (fun h hp _ hpc => ⟨⟨h, hp⟩, hpc _ rfl⟩)
  | opDone hs ht hst hx => exact hI.opStep hs ht hst (fun _ _ _ _ => trivial)
  | @opAgain p' t a op pc g r x hs ht hst hx =>
    refine hI.opStep hs ht hst (fun h hp ha _ => ⟨h, hp, fun e => ?_⟩)
    subst ha
    subst e
    have hinvd : r.code = some .UNSUCCESS_INVALID := by
      rcases retry_code (step_code hst) hx with ⟨hc, -⟩ | ⟨-, hc⟩
      · cases hc
      · exact hc
    obtain ⟨q, -, hq⟩ := step_invalid hst hinvd
    have ht' := hI.prot.t t
    rw [hp] at ht'
    obtain ⟨o, ho, -⟩ := ht'
    refine ⟨o, ho.1, fun hn => ?_⟩
    have := ((hI.tabs _ o ho.1).calm hn).2 q
    rw [hq] at this
    cases this
  | @exitAgain p' t a op x hs ht =>
    obtain ⟨-, -, -, -, h5⟩ := exit_same hs
    exact hI.thrStep hs (fun _ _ _ h => by cases h) h5 trivial
  | @exit p' t a x hs ht hx =>
    refine hI.protStep hs (fun _ _ _ h => by cases h) (fun t' _ _ h => ?_)
    cases h
    rcases ht with ht | ⟨op, y, ht⟩ <;> rw [ht] <;> rfl
  | make i d hs ho hn =>
    have hs0 := hs
    cases hs with
    | @grMake _ h _ oh nb hp hoh hb => exact hI.makeStep hs0 ho hn (hlim _ _ hoh)
  | attach hs => exact hI.protStep hs (fun _ _ _ h => by cases h) (fun _ _ _ h => by cases h)
  | claim hs ho => exact hI.claimStep hs ho
  | leave hs => exact hI.protStep hs (fun _ _ _ h => by cases h) (fun _ _ _ h => by cases h)
  | work hs hk hj he hst => exact hI.workStep hs hk hj hst
  | done hs hk hj he => exact hI.protStep hs (fun _ _ _ h => by cases h) (fun _ _ _ h => by cases h)
  | publish hs => exact hI.protStep hs (fun _ _ _ h => by cases h) (fun _ _ _ h => by cases h)
  | switch hs => exact hI.protStep hs (fun _ _ _ h => by cases h) (fun _ _ _ h => by cases h)
  | retire hs => exact hI.protStep hs (fun _ _ _ h => by cases h) (fun _ _ _ h => by cases h)
  | free hs => exact hI.protStep hs (fun _ _ _ h => by cases h) (fun _ _ _ h => by cases h)

theorem WInv.init {E : Env K} (hE : E.OK) (hm : E.m = true) (a : A) :
    WInv u (DSt.init E a : DSt T A K V) := by
  have hmk : NoMarks (published (fun q => if q < E.M.total then some (Cell.emptyCell : Cell K V) else none)) := by
    intro q
    unfold published
    dsimp only
    split <;> rfl
  refine ⟨Inv.init a _, fun x o ho => ?_, fun t => trivial⟩
  obtain ⟨k, hw⟩ := hE.wf
  have ho' : (if x = a then some (⟨0, Sync.blocksOf E.M, 0, fun _ => false, none, false, false⟩ : Obj A) else none) = some o := ho
  split at ho'
  · cases ho'
    exact ⟨hm, rfl, ⟨k, hw, ⟨fun b' pc hb' => (by cases hb'), fun q h1 => absurd ((hmk q).symm.trans h1) (by simp)⟩⟩, fun _ => ⟨fun _ => rfl, hmk⟩, fun c hc => absurd rfl hc⟩
  · cases ho'

end
end
end Async
end Growt
