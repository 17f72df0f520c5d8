import Verif.Tsx

/-!
# Invariants of the table with transactions, by comparison with `base_linear`
-/

set_option linter.unusedSectionVars false

namespace Growt.Tsx

variable {T K V : Type} [DecidableEq T] [DecidableEq K] [DecidableEq V] [Inhabited V]

/-- The same geometry as a table of `base_linear` with linear mapping and circular probing. (proof, no code) -/
def Tab.env (Q : Tab K) : Env K := ⟨Mapper.mk' false true (2 ^ Q.k) 0, Q.h, true⟩

/-- Power of two capacity, 64 bit hash values (`tsx_circular.hpp:238-243`: at least 4096). -/
structure Tab.OK (Q : Tab K) : Prop where
  lo : 12 ≤ Q.k
  hi : Q.k ≤ 63
  hash : ∀ x, Q.h x < 2 ^ 64

theorem Tab.OK.env {Q : Tab K} (h : Q.OK) : Q.env.OK :=
  ⟨⟨Q.k, by have := h.lo; omega, h.hi, rfl⟩, h.hash⟩

theorem Tab.home_eq (Q : Tab K) (x : K) : Q.home x = Q.env.M.map (Q.env.h x) := by
  simp [Tab.home, Tab.env, Mapper.map, Mapper.mk']

theorem Tab.pos_eq (Q : Tab K) (i : Nat) : Q.pos i = Q.env.M.remap i := by
  simp [Tab.pos, Tab.env, Mapper.remap, Mapper.mk']

theorem Tab.total_eq (Q : Tab K) : Q.env.M.total = 2 ^ Q.k := by
  have : 0 < 2 ^ Q.k := Nat.two_pow_pos _
  simp [Tab.env, Mapper.total, Mapper.mk']; omega

theorem Tab.pos_lt (Q : Tab K) (i : Nat) : Q.pos i < 2 ^ Q.k := by
  have : 0 < 2 ^ Q.k := Nat.two_pow_pos _
  exact Nat.lt_of_le_of_lt Nat.and_le_right (by omega)

theorem Tab.tooFar (Q : Tab K) (p : Nat) : tooFar Q.env p = false := by
  simp [Growt.tooFar, Tab.env, Mapper.mk']

/-- The call of `base_linear` with the same steps as the version without transaction. (proof, no code) -/
def Call.toOp : Call K V → Op K V
  | .find k => .find k
  | .insert k d => .insert k d
  | .update k f => .update k f
  | .insertOrUpdate k d f => .insertOrUpdate k d f
  | .erase k => .erase k

/-- ... as the version inside the transaction. (proof, no code) -/
def Call.toTx : Call K V → Op K V
  | .find k => .find k
  | .insert k d => .insert k d
  | .update k f => .updateUnsafe k f
  | .insertOrUpdate k d f => .insertOrUpdateUnsafe k d f
  | .erase k => .erase k

theorem Call.toOp_key (op : Call K V) : op.toOp.key = op.key := by cases op <;> rfl
theorem Call.toTx_key (op : Call K V) : op.toTx.key = op.key := by cases op <;> rfl

/-- The result matches a result of `base_linear`: same boolean, same value shown; for a successful plain insertion
the value that was inserted. (proof, no code) -/
def Matches (op : Call K V) (o : Op K V) (r : Ret K V) (r' : Growt.Ret K V) : Prop :=
  r.ok op = r'.ok o ∧ (∀ k d, op = .insert k d → r.ok op = true → r.shown = some d) ∧
    ((∀ k d, op = .insert k d → r.ok op = false) → r.shown = r'.shown)

/-- What a finished call guarantees, for one of its two versions. (proof, no code) -/
def Effect (Q : Tab K) (op : Call K V) (o : Op K V) (t t' : Tbl K V) (r : Ret K V) : Prop :=
  ∀ d : Dict K V, Stores Q.env t d → Stores Q.env t' ((o.toSpec true).sem d).1 ∧
    r.ok op = ((o.toSpec true).sem d).2.ok ∧ r.shown = ((o.toSpec true).sem d).2.shown

theorem Cell.mapped_of {x : Cell K V} {k : K} (h : x.hasKey k = true) :
    x.val? = some x.mapped ∧ x.isEmpty = false := by
  obtain ⟨v, hv⟩ := Cell.hasKey_iff.1 h
  simp [Cell.val?, Cell.mapped, Cell.isEmpty, hv]

theorem refuse_no {op : Call K V} {o : Op K V} (ho : o = op.toOp ∨ o = op.toTx) {c : ReturnCode}
    (hc : o.mayRefuse c) : c = .UNSUCCESS_FULL := by
  rcases ho with rfl | rfl <;> cases op <;> simp_all [Op.mayRefuse, Call.toOp, Call.toTx]

/-- From the step lemma of `base_linear` to the effect of a call here. -/
theorem effect_of {Q : Tab K} {op : Call K V} {o : Op K V} {t t' : Tbl K V}
    {r : Ret K V} {r' : Growt.Ret K V} (hn : NoMarks t) (hd : DoneGood Q.env o t t' r')
    (hf : r'.code ≠ some .UNSUCCESS_FULL) (ho : o = op.toOp ∨ o = op.toTx)
    (hm : Matches op o r r') : Effect Q op o t t' r := by
  cases hd with
  | invalid hr ht hm => obtain ⟨p, _, hp⟩ := hm; rw [hn p] at hp; cases hp
  | refused c hc hr ht habs =>
    have := refuse_no ho hc
    subst this; rw [hr] at hf; exact absurd rfl hf
  | effect h =>
    intro d hs
    obtain ⟨h1, h2, h3⟩ := h d hs
    have e : Q.env.m = true := rfl
    rw [e] at h1 h2 h3
    obtain ⟨m1, m2, m3⟩ := hm
    refine ⟨h1, m1.trans h2, ?_⟩
    have hins : ∀ k v, op = .insert k v → o = .insert k v := by
      rintro k v rfl; rcases ho with rfl | rfl <;> rfl
    have hok : r.ok op = ((o.toSpec true).sem d).2.ok := m1.trans h2
    rcases h3 with ⟨⟨k, v, rfl⟩, hk⟩ | h3
    · have hop : op = .insert k v := by
        rcases ho with h | h <;> cases op <;> simp_all [Call.toOp, Call.toTx]
      have hr := m1.trans hk
      rw [m2 k v hop hr]
      rw [hok] at hr
      simp only [Op.toSpec, SOp.sem] at hr ⊢
      cases hdk : d k with
      | none => rfl
      | some w => rw [hdk] at hr; cases hr
    · by_cases hi : ∀ k v, op = .insert k v → r.ok op = false
      · exact (m3 hi).trans h3
      · have : ∃ k v, op = .insert k v ∧ r.ok op = true := by
          refine Classical.byContradiction fun hc => hi fun k v he => ?_
          cases hb : r.ok op with
          | false => rfl
          | true => exact absurd ⟨k, v, he, hb⟩ hc
        obtain ⟨k, v, he, hr⟩ := this
        have ho' := hins k v he
        subst ho'
        rw [m2 k v he hr]
        rw [hok] at hr
        simp only [Op.toSpec, SOp.sem] at hr ⊢
        cases hdk : d k with
        | none => rfl
        | some w => rw [hdk] at hr; cases hr

/-! ### The version without transaction -/

/-- Where `base_linear` is. (proof, no code) -/
def PC.toBase (Q : Tab K) (op : Call K V) : PC K V → Growt.PC K V
  | .begin => .load (Q.home op.key) 0
  | .load i => .load i 0
  | .act i curr => .act i 0 curr

/-- The same outcome. (proof, no code) -/
def OutMatches (Q : Tab K) (op : Call K V) (o : Op K V) : Out K V → Growt.Out K V → Prop
  | .cont pc, .cont pc' => pc' = pc.toBase Q op
  | .done r, .done r' => Matches op o r r' ∧ r'.code ≠ some .UNSUCCESS_FULL
  | _, _ => False

theorem step_match {Q : Tab K} {op : Call K V} {t : Tbl K V} {pc : PC K V} (hpc : pc ≠ .begin)
    (hi : PcInv Q.env t op.toOp (pc.toBase Q op)) :
    (step Q op pc t).1 = (Growt.step Q.env op.toOp (pc.toBase Q op) t).1 ∧
    OutMatches Q op op.toOp (step Q op pc t).2 (Growt.step Q.env op.toOp (pc.toBase Q op) t).2 := by
  cases pc with
  | begin => exact absurd rfl hpc
  | load i =>
    have hlt : Q.env.M.remap i < Q.env.M.total := by rw [Q.total_eq, ← Q.pos_eq]; exact Q.pos_lt i
    simp only [step, Growt.step, PC.toBase, hlt, if_true, Q.pos_eq]
    refine ⟨trivial, ?_⟩
    have e : (t (Q.env.M.remap i)).hasKey op.key = true ∨ (t (Q.env.M.remap i)).hasKey op.key = false := by
      cases (t (Q.env.M.remap i)).hasKey op.key <;> simp
    rcases e with hk | hk
    · obtain ⟨v, hv⟩ := Cell.hasKey_iff.1 hk
      have hem : (t (Q.env.M.remap i)).isEmpty = false := by simp [Cell.isEmpty, hv]
      have hma : (t (Q.env.M.remap i)).mapped = v := by simp [Cell.mapped, hv]
      have hva : (t (Q.env.M.remap i)).val? = some v := by simp [Cell.val?, hv]
      cases hm : (t (Q.env.M.remap i)).marked <;> cases op <;> simp only [Call.key] at hk <;>
      simp [afterLoad, Growt.afterLoad, Call.toOp, hm, hk, hem, hma, hva, retEnd, OutMatches,
        PC.toBase, Matches, Ret.ok, Growt.Ret.ok, ReturnCode.successful, ReturnCode.toNat,
        Ret.shown, Growt.Ret.shown]
    · cases hm : (t (Q.env.M.remap i)).marked <;> cases hem : (t (Q.env.M.remap i)).isEmpty <;> cases op <;>
      simp only [Call.key] at hk <;>
      simp [afterLoad, Growt.afterLoad, Call.toOp, hm, hk, hem, retEnd, OutMatches,
        PC.toBase, Matches, Ret.ok, Growt.Ret.ok, ReturnCode.successful, ReturnCode.toNat, Tab.tooFar,
        Ret.shown, Growt.Ret.shown]
  | act i curr =>
    have hlt : Q.env.M.remap i < Q.env.M.total := by rw [Q.total_eq, ← Q.pos_eq]; exact Q.pos_lt i
    obtain ⟨-, ⟨hm, hact⟩, -⟩ := hi
    simp only [step, Growt.step, PC.toBase, hlt, if_true, Q.pos_eq]
    have hcas : ∀ (new : Cell K V) (r : Ret K V) (r' : Growt.Ret K V), Matches op op.toOp r r' →
        r'.code ≠ some .UNSUCCESS_FULL →
        (cas t i (Q.env.M.remap i) curr new r).1 = (casStep t i 0 (Q.env.M.remap i) curr new r').1 ∧
        OutMatches Q op op.toOp (cas t i (Q.env.M.remap i) curr new r).2
          (casStep t i 0 (Q.env.M.remap i) curr new r').2 := by
      intro new r r' h1 h2
      by_cases hc : t (Q.env.M.remap i) = curr
      · simp only [cas, casStep, hc, if_true]; exact ⟨trivial, h1, h2⟩
      · simp only [cas, casStep, hc, if_false]; exact ⟨trivial, rfl⟩
    have hupd : ∀ k f w, curr.c = .live k w →
        (∀ r : Ret K V, r.ok op = (⟨r.code, none⟩ : Ret K V).ok op) →
        (∀ x, (⟨some .SUCCESS_UP, none⟩ : Ret K V).ok op = (⟨some .SUCCESS_UP, x⟩ : Growt.Ret K V).ok op.toOp) →
        (∀ k d, op ≠ .insert k d) →
        OutMatches Q op op.toOp
          (if (atomicUpdate true k (t (Q.env.M.remap i)) curr f).2.2 then
            .done ⟨some .SUCCESS_UP, some (Q.env.M.remap i, k, (atomicUpdate true k (t (Q.env.M.remap i)) curr f).2.1.mapped)⟩
           else .cont (.load i))
          (if (atomicUpdate true k (t (Q.env.M.remap i)) curr f).2.2 then
            .done ⟨some .SUCCESS_UP, some (Q.env.M.remap i, (atomicUpdate true k (t (Q.env.M.remap i)) curr f).2.1)⟩
           else .cont (.load i 0)) := by
      intro k f w hcur h0 h1 h2
      cases hs : (atomicUpdate true k (t (Q.env.M.remap i)) curr f).2.2 with
      | false => simp [OutMatches, PC.toBase]
      | true =>
        simp only [if_true]
        refine ⟨⟨?_, fun k d he => absurd he (h2 k d), fun _ => ?_⟩, by simp⟩
        · rw [h0]; exact h1 _
        · have hl : (atomicUpdate true k (t (Q.env.M.remap i)) curr f).2.1.c = .live k (f.upd w) := by
            unfold atomicUpdate
            simp only [if_true]
            split <;> simp [Cell.setMapped, Cell.mapped, hcur]
          simp [Ret.shown, Growt.Ret.shown, Cell.mapped, Cell.val?, hl]
    cases op with
    | find k => exact hact.elim
    | insert k d =>
      refine hcas _ _ _ ⟨rfl, fun k' d' he _ => ?_, fun h => ?_⟩ (by simp)
      · cases he; rfl
      · have := h k d rfl; simp [Ret.ok, ReturnCode.successful, ReturnCode.toNat] at this
    | update k f =>
      obtain ⟨w, hw⟩ := hact
      exact ⟨rfl, hupd k f w hw (fun _ => rfl) (fun _ => rfl) (by simp)⟩
    | erase k =>
      exact hcas _ _ _ ⟨rfl, by simp, fun _ => rfl⟩ (by simp)
    | insertOrUpdate k d f =>
      rcases hact with ⟨he, -⟩ | ⟨w, hw⟩
      · have h1 : curr.isEmpty = true := Cell.isEmpty_iff.2 he
        have h2 : curr.hasKey k = false := by simp [Cell.hasKey, he]
        simp only [change, Call.toOp, actStep, h1, h2, if_true, Bool.false_eq_true, if_false]
        exact hcas _ _ _ ⟨by simp [Ret.ok, Growt.Ret.ok, Call.toOp], by simp, fun _ => rfl⟩ (by simp)
      · have h1 : curr.isEmpty = false := by simp [Cell.isEmpty, hw]
        have h2 : curr.hasKey k = true := Cell.hasKey_iff.2 ⟨w, hw⟩
        simp only [change, Call.toOp, actStep, h1, h2, if_true, Bool.false_eq_true, if_false]
        exact ⟨rfl, hupd k f w hw (fun _ => rfl) (fun _ => by simp [Ret.ok, Growt.Ret.ok, Call.toOp]) (by simp)⟩

/-! ### The version inside the transaction -/

/-- The transaction does what `base_linear` does when it runs alone. -/
theorem body_good {Q : Tab K} (hQ : Q.OK) {op : Call K V} {t t' : Tbl K V} {r : Ret K V} (hI : Inv Q.env t)
    (hn : NoMarks t) : ∀ n i, Passed Q.env t op.key i → body Q op n i t = some (t', r) →
    Inv Q.env t' ∧ Evolves t t' ∧ NoMarks t' ∧ Effect Q op op.toTx t t' r := by
  intro n
  induction n with
  | zero => intro i _ h; cases h
  | succ n ih =>
    intro i hp h
    have hlt : Q.env.M.remap i < Q.env.M.total := by rw [Q.total_eq, ← Q.pos_eq]; exact Q.pos_lt i
    have hE := hQ.env
    -- the load
    have hl : StepGood Q.env op.toTx t (Growt.step Q.env op.toTx (.load i 0) t) :=
      step_good hE hI (by simpa [PcInv, Call.toTx_key] using hp) (by intro a b c h; cases h)
    simp only [Growt.step, hlt, if_true] at hl
    -- a change of slot `i`
    have hact : ∀ {t2 : Tbl K V} {r' : Growt.Ret K V},
        Growt.step Q.env op.toTx (.act i 0 (t (Q.env.M.remap i))) t = (t2, .done r') →
        ActOK Q.env op.toTx (Q.env.M.remap i) (t (Q.env.M.remap i)) →
        (op.toTx.usesCas true = true ∨ (t (Q.env.M.remap i)).c = .empty ∨
          ∃ w, (t (Q.env.M.remap i)).c = .live op.toTx.key w) →
        Matches op op.toTx r r' → r'.code ≠ some .UNSUCCESS_FULL → t' = t2 →
        Inv Q.env t' ∧ Evolves t t' ∧ NoMarks t' ∧ Effect Q op op.toTx t t' r := by
      intro t2 r' hs hok hsafe hm hf ht
      have hpc : PcInv Q.env t op.toTx (.act i 0 (t (Q.env.M.remap i))) :=
        ⟨by rw [Call.toTx_key]; exact hp, hok, CellLe.refl _⟩
      have hg := step_good hE hI hpc (by rintro a b c ⟨⟩; exact hsafe)
      have hnm := hn.step hpc
      rw [hs] at hg hnm
      obtain ⟨g1, g2, g3⟩ := hg
      subst ht
      exact ⟨g1, g2, hnm, effect_of hn g3 hf (.inr rfl) hm⟩
    -- no change
    have hstay : ∀ {r' : Growt.Ret K V},
        Growt.afterLoad Q.env op.toTx i 0 (Q.env.M.remap i) (t (Q.env.M.remap i)) = .done r' →
        Matches op op.toTx r r' → r'.code ≠ some .UNSUCCESS_FULL → t' = t →
        Inv Q.env t' ∧ Evolves t t' ∧ NoMarks t' ∧ Effect Q op op.toTx t t' r := by
      intro r' hs hm hf ht
      rw [hs] at hl
      obtain ⟨g1, g2, g3⟩ := hl
      subst ht
      exact ⟨g1, g2, hn, effect_of hn g3 hf (.inr rfl) hm⟩
    have hmk := hn (Q.env.M.remap i)
    have e : (t (Q.env.M.remap i)).hasKey op.key = true ∨ (t (Q.env.M.remap i)).hasKey op.key = false := by
      cases (t (Q.env.M.remap i)).hasKey op.key <;> simp
    rcases e with hk | hk
    · obtain ⟨v, hv⟩ := Cell.hasKey_iff.1 hk
      have hem : (t (Q.env.M.remap i)).isEmpty = false := by simp [Cell.isEmpty, hv]
      have hma : (t (Q.env.M.remap i)).mapped = v := by simp [Cell.mapped, hv]
      have hva : (t (Q.env.M.remap i)).val? = some v := by simp [Cell.val?, hv]
      cases op with
      | find k => cases h
      | erase k => cases h
      | insert k d =>
        simp only [Call.key] at hk
        simp only [body, Q.pos_eq, hmk, hk, hma, Bool.false_eq_true, if_false, if_true, Option.some.injEq,
          Prod.mk.injEq] at h
        obtain ⟨h1, h2⟩ := h
        refine hstay (r' := ⟨some .UNSUCCESS_ALREADY_USED, some (Q.env.M.remap i, t (Q.env.M.remap i))⟩) ?_ ?_
          (by simp) h1.symm
        · simp [Growt.afterLoad, Call.toTx, hmk, hem, hk]
        · subst h2; simp [Matches, Call.toTx, Ret.ok, Growt.Ret.ok, ReturnCode.successful, ReturnCode.toNat,
            Ret.shown, Growt.Ret.shown, hva]
      | update k f =>
        simp only [Call.key] at hk
        simp only [body, Q.pos_eq, hmk, hk, Bool.false_eq_true, if_false, if_true, Option.some.injEq,
          Prod.mk.injEq] at h
        obtain ⟨h1, h2⟩ := h
        refine hact (by simp only [Growt.step, hlt, if_true, Call.toTx, actStep]; rfl) ⟨hmk, v, hv⟩
          (.inr (.inr ⟨v, hv⟩)) ?_ (by simp) h1.symm
        subst h2; simp [Matches, Call.toTx, Ret.ok, Growt.Ret.ok, ReturnCode.successful, ReturnCode.toNat,
            Ret.shown, Growt.Ret.shown, nonAtomicUpdate, Cell.liveCell, Cell.mapped, Cell.val?]
      | insertOrUpdate k d f =>
        simp only [Call.key] at hk
        simp only [body, Q.pos_eq, hmk, hk, Bool.false_eq_true, if_false, if_true, Option.some.injEq,
          Prod.mk.injEq] at h
        obtain ⟨h1, h2⟩ := h
        refine hact (by simp only [Growt.step, hlt, if_true, Call.toTx, actStep, hem, Bool.false_eq_true, if_false]; rfl)
          ⟨hmk, .inr ⟨v, hv⟩⟩ (.inr (.inr ⟨v, hv⟩)) ?_ (by simp) h1.symm
        subst h2; simp [Matches, Call.toTx, Ret.ok, Growt.Ret.ok,
            Ret.shown, Growt.Ret.shown, nonAtomicUpdate, Cell.liveCell, Cell.mapped, Cell.val?]
    · cases hem : (t (Q.env.M.remap i)).isEmpty with
      | false =>
        have hnext : Passed Q.env t op.key (i + 1) := by
          refine hp.succ (fun hc => ?_) fun v hv => ?_
          · rw [Cell.isEmpty_iff.2 hc] at hem; cases hem
          · rw [Cell.hasKey_iff.2 ⟨v, hv⟩] at hk; cases hk
        refine ih (i + 1) hnext ?_
        cases op with
        | find k => cases h
        | erase k => cases h
        | insert k d => simpa [body, Q.pos_eq, hmk, show (t (Q.env.M.remap i)).hasKey k = false from hk, hem] using h
        | update k f => simpa [body, Q.pos_eq, hmk, show (t (Q.env.M.remap i)).hasKey k = false from hk, hem] using h
        | insertOrUpdate k d f =>
          simpa [body, Q.pos_eq, hmk, show (t (Q.env.M.remap i)).hasKey k = false from hk, hem] using h
      | true =>
        have hc := Cell.isEmpty_iff.1 hem
        cases op with
        | find k => cases h
        | erase k => cases h
        | insert k d =>
          simp only [Call.key] at hk
          simp only [body, Q.pos_eq, hmk, hk, hem, Bool.false_eq_true, if_false, if_true, Option.some.injEq,
            Prod.mk.injEq] at h
          obtain ⟨h1, h2⟩ := h
          refine hact (by simp only [Growt.step, hlt, if_true, Call.toTx, actStep, casStep]; rfl)
            ⟨hmk, hc, Q.tooFar _⟩ (.inr (.inl hc)) ?_ (by simp) h1.symm
          subst h2
          refine ⟨rfl, fun k' d' he _ => by cases he; rfl, fun hh => ?_⟩
          have := hh k d rfl; simp [Ret.ok, ReturnCode.successful, ReturnCode.toNat] at this
        | update k f =>
          simp only [Call.key] at hk
          simp only [body, Q.pos_eq, hmk, hk, hem, Bool.false_eq_true, if_false, if_true, Option.some.injEq,
            Prod.mk.injEq] at h
          obtain ⟨h1, h2⟩ := h
          refine hstay (r' := ⟨some .UNSUCCESS_NOT_FOUND, none⟩) ?_ ?_ (by simp) h1.symm
          · simp [Growt.afterLoad, Call.toTx, hmk, hem, retEnd]
          · subst h2; simp [Matches, Call.toTx, Ret.ok, Growt.Ret.ok, ReturnCode.successful, ReturnCode.toNat,
              Ret.shown, Growt.Ret.shown]
        | insertOrUpdate k d f =>
          simp only [Call.key] at hk
          simp only [body, Q.pos_eq, hmk, hk, hem, Bool.false_eq_true, if_false, if_true, Option.some.injEq,
            Prod.mk.injEq] at h
          obtain ⟨h1, h2⟩ := h
          refine hact (by simp only [Growt.step, hlt, if_true, Call.toTx, actStep, casStep, hem]; rfl)
            ⟨hmk, .inl ⟨hc, Q.tooFar _⟩⟩ (.inr (.inl hc)) ?_ (by simp) h1.symm
          subst h2
          exact ⟨by simp [Ret.ok, Growt.Ret.ok, Call.toTx], by simp, fun _ => rfl⟩

/-! ### All threads -/

/-- Invariant of one thread. (proof, no code) -/
def ThrInv (Q : Tab K) (t : Tbl K V) : Thr K V → Prop
  | .busy op pc => PcInv Q.env t op.toOp (pc.toBase Q op)
  | _ => True

/-- Global invariant. (proof, no code) -/
structure SInv (Q : Tab K) (s : St T K V) : Prop where
  inv : Inv Q.env s.tbl
  nomarks : NoMarks s.tbl
  thr : ∀ i, ThrInv Q s.tbl (s.thr i)

theorem safe_of (Q : Tab K) (op : Call K V) (pc : Growt.PC K V) (t : Tbl K V) : SafeAct Q.env t op.toOp pc := by
  intro i att curr _
  left
  cases op <;> rfl

/-- One access outside of transactions. -/
theorem step_good' {Q : Tab K} (hQ : Q.OK) {op : Call K V} {pc : PC K V} {t : Tbl K V} (hI : Inv Q.env t)
    (hn : NoMarks t) (hpc : PcInv Q.env t op.toOp (pc.toBase Q op)) :
    Inv Q.env (step Q op pc t).1 ∧ Evolves t (step Q op pc t).1 ∧ NoMarks (step Q op pc t).1 ∧
    match (step Q op pc t).2 with
    | .cont pc' => (step Q op pc t).1 = t ∧ PcInv Q.env t op.toOp (pc'.toBase Q op)
    | .done r => Effect Q op op.toOp t (step Q op pc t).1 r := by
  by_cases hb : pc = .begin
  · subst hb
    exact ⟨hI, Evolves.refl _, hn, rfl, hpc⟩
  · obtain ⟨m1, m2⟩ := step_match hb hpc
    obtain ⟨g1, g2, g3⟩ := step_good hQ.env hI hpc (safe_of Q op _ t)
    have hnm := hn.step hpc
    rw [m1]
    refine ⟨g1, g2, hnm, ?_⟩
    generalize (step Q op pc t).2 = o at m2 ⊢
    generalize (Growt.step Q.env op.toOp (pc.toBase Q op) t).2 = o' at m2 g3
    cases o with
    | cont pc' =>
      cases o' with
      | cont pc2 =>
        simp only [OutMatches] at m2
        subst m2
        exact ⟨g3.1, g3.2⟩
      | done _ => exact m2.elim
      | oob => exact m2.elim
    | done r =>
      cases o' with
      | cont pc2 => exact m2.elim
      | done r' => exact effect_of hn g3 m2.2 (.inl rfl) m2.1
      | oob => exact m2.elim

theorem SInv.set {Q : Tab K} {s : St T K V} (I : SInv Q s) {t' : Tbl K V} {i : T} {x : Thr K V}
    (h1 : Inv Q.env t') (h2 : Evolves s.tbl t') (h3 : NoMarks t') (hx : ThrInv Q t' x) :
    SInv Q ⟨t', setAt s.thr i x⟩ := by
  refine ⟨h1, h3, fun j => ?_⟩
  by_cases hj : j = i
  · subst hj; simpa [setAt] using hx
  · simp only [setAt_other hj]
    have := I.thr j
    cases hj' : s.thr j with
    | idle => trivial
    | fin => trivial
    | busy op pc => rw [hj'] at this; exact PcInv.evolve this h2

theorem SInv.next {Q : Tab K} (hQ : Q.OK) {s s' : St T K V} {e : Option (TEv T K V)} (I : SInv Q s)
    (hs : Step Q s e s') : SInv Q s' := by
  cases hs with
  | @call i op h =>
    refine I.set I.inv (Evolves.refl _) I.nomarks ?_
    have := PcInv.start Q.env s.tbl op.toOp
    simp only [Growt.start, Call.toOp_key] at this
    unfold start
    split <;> simpa [ThrInv, PC.toBase, Tab.home_eq, Tab.env] using this
  | @commit i op n t' r h hb =>
    have hp : Passed Q.env s.tbl op.key (Q.home op.key) := by rw [Q.home_eq]; exact Passed.start _ _ _
    obtain ⟨b1, b2, b3, -⟩ := body_good hQ I.inv I.nomarks n _ hp hb
    exact I.set b1 b2 b3 trivial
  | @cont i op pc pc' t' h hs =>
    have hi := I.thr i
    rw [h] at hi
    obtain ⟨g1, g2, g3, g4⟩ := step_good' hQ I.inv I.nomarks hi
    rw [hs] at g1 g2 g3 g4
    simp only at g4
    exact I.set g1 g2 g3 (by rw [g4.1]; exact g4.2)
  | @done i op pc t' r h hs =>
    have hi := I.thr i
    rw [h] at hi
    obtain ⟨g1, g2, g3, g4⟩ := step_good' hQ I.inv I.nomarks hi
    rw [hs] at g1 g2 g3
    exact I.set g1 g2 g3 trivial
  | @ret i op r h => exact I.set I.inv (Evolves.refl _) I.nomarks trivial

theorem SInv.init (Q : Tab K) : SInv Q (St.init : St T K V) :=
  ⟨Inv.emptyTbl _, fun _ => rfl, fun _ => trivial⟩

theorem SInv.reach {Q : Tab K} (hQ : Q.OK) {l : List (TEv T K V)} {s : St T K V}
    (h : Exec (Step Q) St.init l s) : SInv Q s :=
  h.invariant (SInv.init Q) fun _ _ _ I hs => I.next hQ hs

end Growt.Tsx
