import Verif.BaseInv

/-! # The central step lemma: one step of one operation on a table in a good state -/

set_option linter.unusedSectionVars false

namespace Growt
section
variable {K V : Type} [DecidableEq K] [DecidableEq V] [Inhabited V]

/-- Does the modifying access compare the whole slot?  (Otherwise it works on the mapped half.)
(proof, no code) -/
def Op.usesCas (m : Bool) : Op K V → Bool
  | .update _ _ | .updateBackoff _ _ _ | .insertOrUpdate _ _ _ => m
  | .updateUnsafe _ _ | .insertOrUpdateUnsafe _ _ _ => false
  | _ => true

/-- Copies with which an operation can be at its modifying access. (proof, no code) -/
def ActOK (E : Env K) (op : Op K V) (pos : Nat) (curr : Cell K V) : Prop :=
  curr.marked = false ∧
  match op with
  | .find _ | .locate _ => False
  | .insert _ _ => curr.c = .empty ∧ tooFar E pos = false
  | .insertOrUpdate k _ _ | .insertOrUpdateUnsafe k _ _ =>
    (curr.c = .empty ∧ tooFar E pos = false) ∨ ∃ w, curr.c = .live k w
  | .update k _ | .updateBackoff k _ _ | .updateUnsafe k _ | .erase k => ∃ w, curr.c = .live k w
  | .eraseIf k d => curr.c = .live k d

/-- Invariant of a running operation. (proof, no code) -/
def PcInv (E : Env K) (t : Tbl K V) (op : Op K V) : PC K V → Prop
  | .load i _ => Passed E t op.key i
  | .act i _ curr => Passed E t op.key i ∧ ActOK E op (E.M.remap i) curr ∧
      CellLe curr.c (t (E.M.remap i)).c

/-- The modifying access is protected: it compares the whole slot, or it is an insertion, or the
slot still holds the key. (proof, no code) -/
def SafeAct (E : Env K) (t : Tbl K V) (op : Op K V) (pc : PC K V) : Prop :=
  ∀ i att curr, pc = .act i att curr →
    op.usesCas E.m = true ∨ curr.c = .empty ∨ ∃ w, (t (E.M.remap i)).c = .live op.key w

/-- What a finished operation guarantees. (proof, no code) -/
inductive DoneGood (E : Env K) (op : Op K V) (t t' : Tbl K V) (r : Ret K V) : Prop where
  /-- gave up because of a mark: no effect -/
  | invalid (hr : r = ⟨some .UNSUCCESS_INVALID, none⟩) (ht : t' = t)
      (hm : ∃ p, p < E.M.total ∧ (t p).marked = true)
  /-- refused: no effect; if refused as full the key is absent -/
  | refused (c : ReturnCode) (hc : op.mayRefuse c) (hr : r = ⟨some c, none⟩) (ht : t' = t)
      (habs : c = .UNSUCCESS_FULL → ∀ d : Dict K V, Stores E t d → d op.key = none)
  /-- took effect exactly as specified -/
  | effect (h : ∀ d : Dict K V, Stores E t d →
      Stores E t' ((op.toSpec E.m).sem d).1 ∧ Agrees op r ((op.toSpec E.m).sem d).2)

/-- Proof, no code. -/
def StepGood (E : Env K) (op : Op K V) (t : Tbl K V) (s : Tbl K V × Out K V) : Prop :=
  Inv E s.1 ∧ Evolves t s.1 ∧
  match s.2 with
  | .oob => False
  | .cont pc' => s.1 = t ∧ PcInv E t op pc'
  | .done r => DoneGood E op t s.1 r

theorem Cell.isEmpty_iff {x : Cell K V} : x.isEmpty = true ↔ x.c = .empty := by
  cases x with | mk m c => cases c <;> simp [Cell.isEmpty]

theorem Cell.hasKey_iff {x : Cell K V} {k : K} : x.hasKey k = true ↔ ∃ v, x.c = .live k v := by
  cases x with | mk m c => cases c <;> simp [Cell.hasKey]

theorem Cell.eta (x : Cell K V) : x = ⟨x.marked, x.c⟩ := rfl

theorem PcInv.evolve {E : Env K} {t t' : Tbl K V} {op : Op K V} {pc : PC K V}
    (h : PcInv E t op pc) (he : Evolves t t') : PcInv E t' op pc := by
  cases pc with
  | load i att => exact Passed.evolve h he
  | act i att curr => exact ⟨h.1.evolve he, h.2.1, h.2.2.trans (he _)⟩

theorem PcInv.start (E : Env K) (t : Tbl K V) (op : Op K V) : PcInv E t op (start E op) :=
  Passed.start E t op.key

theorem PcInv.inBounds {E : Env K} {t : Tbl K V} {op : Op K V} (hE : E.OK)
    (hI : Inv E t) {i att : Nat} (h : PcInv E t op (.load i att)) :
    E.M.remap i < E.M.total := Passed.inBounds hE hI h

/-- Load step. -/
theorem load_good {E : Env K} {t : Tbl K V} {op : Op K V} {i att : Nat} (hI : Inv E t)
    (hp : Passed E t op.key i) (hlt : E.M.remap i < E.M.total) :
    StepGood E op t (t, afterLoad E op i att (E.M.remap i) (t (E.M.remap i))) := by
  refine ⟨hI, Evolves.refl t, ?_⟩
  generalize hcur : t (E.M.remap i) = curr
  have hcle : CellLe curr.c (t (E.M.remap i)).c := by rw [hcur]; exact CellLe.refl _
  have habs : curr.c = .empty → ∀ d : Dict K V, Stores E t d → d op.key = none := by
    intro he d hs
    refine hs.of_absent (fun p v hlt => hI.absent hp (by rw [hcur]; exact he) hlt)
  have hpres : ∀ v, curr.c = .live op.key v → ∀ d : Dict K V, Stores E t d → d op.key = some v := by
    intro v hv d hs
    exact hs.of_live hlt (by rw [hcur]; exact hv)
  have hnext : curr.isEmpty = false → curr.hasKey op.key = false → Passed E t op.key (i + 1) := by
    intro h1 h2
    refine hp.succ ?_ ?_
    · rw [hcur]; intro h
      rw [Cell.isEmpty_iff.2 h] at h1; cases h1
    · intro v hv; rw [hcur] at hv
      rw [Cell.hasKey_iff.2 ⟨v, hv⟩] at h2; cases h2
  have hinv : curr.marked = true → DoneGood E op t t ⟨some .UNSUCCESS_INVALID, none⟩ := by
    intro h
    exact .invalid rfl rfl ⟨_, hlt, by rw [hcur]; exact h⟩
  have hact : ∀ a, ActOK E op (E.M.remap i) curr → PcInv E t op (.act i a curr) :=
    fun a h => ⟨hp, h, hcle⟩
  cases htf : tooFar E (E.M.remap i) <;>
  cases hm : curr.marked <;> cases he : curr.isEmpty <;> cases hk : curr.hasKey op.key <;>
    cases op <;> simp only [Op.key] at * <;>
    simp only [afterLoad, hm, he, hk, htf, retEnd, if_true, if_false, Bool.false_eq_true] <;>
    first
    | exact hinv hm
    | exact ⟨trivial, hnext he hk⟩
    | (have hce := Cell.isEmpty_iff.1 he
       have hd := habs hce
       first
       | (refine .effect fun d hs => ?_
          have hdk := hd d hs
          simp [Op.toSpec, SOp.sem, Agrees, Ret.ok, Ret.shown, hdk, hs, ReturnCode.successful,
            ReturnCode.toNat]
          done)
       | (refine .refused _ ?_ rfl rfl (fun _ => hd)
          simp [Op.mayRefuse])
       | (refine ⟨trivial, hact _ ⟨hm, ?_⟩⟩
          simp [hce, htf]))
    | (obtain ⟨v, hv⟩ := Cell.hasKey_iff.1 hk
       have hd := hpres v hv
       first
       | (refine ⟨trivial, hact _ ⟨hm, ?_⟩⟩
          first
          | exact ⟨v, hv⟩
          | exact .inr ⟨v, hv⟩)
       | (refine .effect fun d hs => ?_
          have hdk := hd d hs
          simp [Op.toSpec, SOp.sem, Agrees, Ret.ok, Ret.shown, hdk, hs, ReturnCode.successful,
            ReturnCode.toNat, Cell.val?, hv]
          done)
       | (rename_i k0 d0
          have hmv : curr.mapped = v := by simp [Cell.mapped, hv]
          by_cases hne : curr.mapped = d0
          · simp only [hne, ne_eq, not_true_eq_false, if_false]
            refine ⟨trivial, hact _ ⟨hm, ?_⟩⟩
            rw [← hne, hmv]; exact hv
          · simp only [hne, ne_eq, not_false_eq_true, if_true]
            refine .effect fun d hs => ?_
            have hdk := hd d hs
            have : v ≠ d0 := hmv ▸ hne
            simp [Op.toSpec, SOp.sem, Agrees, Ret.ok, Ret.shown, hdk, hs, ReturnCode.successful,
              ReturnCode.toNat, this]))

theorem atomicUpdate_spec {m : Bool} {k : K} {cell expected : Cell K V} {f : UpdFn V} {w : V}
    (he : expected.c = .live k w) (hsafe : m = true ∨ ∃ u, cell.c = .live k u) :
    ((atomicUpdate m k cell expected f).2.2 = true ∧
      ∃ u, cell.c = .live k u ∧
        (atomicUpdate m k cell expected f).1 = ⟨cell.marked, .live k (f.eff m u).1⟩ ∧
        (atomicUpdate m k cell expected f).2.1.val? = some (f.eff m u).2) ∨
    ((atomicUpdate m k cell expected f).2.2 = false ∧
      (atomicUpdate m k cell expected f).1 = cell) := by
  unfold atomicUpdate UpdFn.eff
  cases m with
  | true =>
    by_cases hc : cell = expected
    · subst hc
      left
      simp [he, Cell.setMapped, Cell.mapped, Cell.val?]
    · right; simp [hc]
  | false =>
    obtain ⟨u, hu⟩ : ∃ u, cell.c = .live k u := by simpa using hsafe
    cases hf : f.atomic with
    | some g =>
      left
      simp [hu, Cell.setMapped, Cell.mapped, Cell.val?, Cell.liveCell]
    | none =>
      by_cases hc : cell.mapped = expected.mapped
      · left
        have : u = w := by simpa [Cell.mapped, hu, he] using hc
        subst this
        simp [he, hu, Cell.setMapped, Cell.mapped, Cell.val?, Cell.liveCell]
      · right; simp [hc]

theorem Tbl.set_self (t : Tbl K V) (p : Nat) : t.set p (t p) = t := by
  funext q; unfold Tbl.set; split <;> simp_all

/-- Writing `live k w'` over `live k u` in place. -/
theorem updInPlace {E : Env K} {t : Tbl K V} {i : Nat} {k : K} {u w' : V}
    {mk : Bool} (hI : Inv E t) (hlt : E.M.remap i < E.M.total)
    (hu : (t (E.M.remap i)).c = .live k u) :
    Inv E (t.set (E.M.remap i) ⟨mk, .live k w'⟩) ∧
    Evolves t (t.set (E.M.remap i) ⟨mk, .live k w'⟩) ∧
    ∀ d : Dict K V, Stores E t d → d k = some u ∧
      Stores E (t.set (E.M.remap i) ⟨mk, .live k w'⟩) (d.put k w') := by
  have hle : CellLe (t (E.M.remap i)).c (Content.live k w') :=
    ⟨fun _ => by simp, fun k' v' h => .inr ⟨u, by cases h; exact hu⟩⟩
  refine ⟨hI.setEvolve (by simp [hu]) hle, Evolves.set hle, fun d hs => ⟨hs.of_live hlt hu, ?_⟩⟩
  exact hs.put hlt rfl (.inr ⟨u, hu⟩) (fun q v hq hv => hI.unique hq hlt hv hu)

theorem upd_good {E : Env K} {t : Tbl K V} {op : Op K V} {i : Nat} {curr : Cell K V}
    {k : K} {f : UpdFn V} {w : V} {fail : Out K V}
    (hI : Inv E t) (hlt : E.M.remap i < E.M.total)
    (hcur : curr.c = .live k w)
    (hsafe : E.m = true ∨ ∃ u, (t (E.M.remap i)).c = .live k u)
    (hop : ∀ (d : Dict K V) (u : V), d k = some u →
      ((op.toSpec E.m).sem d).1 = d.put k (f.eff E.m u).1 ∧
      ((op.toSpec E.m).sem d).2.shown = some (f.eff E.m u).2 ∧
      ((⟨some .SUCCESS_UP, none⟩ : Ret K V).ok op = ((op.toSpec E.m).sem d).2.ok))
    (hok : ∀ x, (⟨some .SUCCESS_UP, x⟩ : Ret K V).ok op =
      (⟨some .SUCCESS_UP, none⟩ : Ret K V).ok op)
    (hfail : StepGood E op t (t, fail)) :
    StepGood E op t
      (t.set (E.M.remap i) (atomicUpdate E.m k (t (E.M.remap i)) curr f).1,
        if (atomicUpdate E.m k (t (E.M.remap i)) curr f).2.2 = true then
          .done ⟨some .SUCCESS_UP,
            some (E.M.remap i, (atomicUpdate E.m k (t (E.M.remap i)) curr f).2.1)⟩
        else fail) := by
  rcases atomicUpdate_spec (f := f) hcur hsafe with ⟨h1, u, hu, h2, h3⟩ | ⟨h1, h2⟩
  · simp only [h1, if_true, h2]
    obtain ⟨g1, g2, g3⟩ := updInPlace (w' := (f.eff E.m u).1)
      (mk := (t (E.M.remap i)).marked) hI hlt hu
    refine ⟨g1, g2, .effect fun d hs => ?_⟩
    obtain ⟨e1, e2⟩ := g3 d hs
    obtain ⟨o1, o2, o3⟩ := hop d u e1
    refine ⟨by rw [o1]; exact e2, by rw [hok]; exact o3, .inr ?_⟩
    rw [o2]; simp [Ret.shown, h3]
  · simp only [h1, h2, Bool.false_eq_true, if_false, Tbl.set_self]
    exact hfail

theorem updUnsafe_good {E : Env K} {t : Tbl K V} {op : Op K V} {i : Nat}
    {k : K} {f : UpdFn V}
    (hI : Inv E t) (hlt : E.M.remap i < E.M.total)
    (hsafe : ∃ u, (t (E.M.remap i)).c = .live k u)
    (hop : ∀ (d : Dict K V) (u : V), d k = some u →
      ((op.toSpec E.m).sem d).1 = d.put k (f.upd u) ∧
      ((op.toSpec E.m).sem d).2.shown = some (f.ret u) ∧
      ((⟨some .SUCCESS_UP, none⟩ : Ret K V).ok op = ((op.toSpec E.m).sem d).2.ok))
    (hok : ∀ x, (⟨some .SUCCESS_UP, x⟩ : Ret K V).ok op =
      (⟨some .SUCCESS_UP, none⟩ : Ret K V).ok op) :
    StepGood E op t
      (t.set (E.M.remap i) (nonAtomicUpdate k (t (E.M.remap i)) f).1,
          .done ⟨some .SUCCESS_UP,
            some (E.M.remap i, (nonAtomicUpdate k (t (E.M.remap i)) f).2)⟩) := by
  obtain ⟨u, hu⟩ := hsafe
  have h2 : (nonAtomicUpdate k (t (E.M.remap i)) f).1 =
      ⟨(t (E.M.remap i)).marked, .live k (f.upd u)⟩ := by
    simp [nonAtomicUpdate, Cell.setMapped, Cell.mapped, hu]
  have h3 : (nonAtomicUpdate k (t (E.M.remap i)) f).2.val? = some (f.ret u) := by
    simp [nonAtomicUpdate, Cell.liveCell, Cell.mapped, hu, Cell.val?]
  obtain ⟨g1, g2, g3⟩ := updInPlace (w' := f.upd u)
    (mk := (t (E.M.remap i)).marked) hI hlt hu
  rw [h2]
  refine ⟨g1, g2, .effect fun d hs => ?_⟩
  obtain ⟨e1, e2⟩ := g3 d hs
  obtain ⟨o1, o2, o3⟩ := hop d u e1
  refine ⟨by rw [o1]; exact e2, by rw [hok]; exact o3, .inr ?_⟩
  rw [o2]; simp [Ret.shown, h3]

theorem casInsert_good {E : Env K} {t : Tbl K V} {op : Op K V} {i att : Nat} {curr : Cell K V}
    {k : K} {d0 : V} {r : Ret K V} (hk : op.key = k)
    (hI : Inv E t) (hp : Passed E t k i) (hlt : E.M.remap i < E.M.total)
    (hcur : curr.c = .empty) (htf : tooFar E (E.M.remap i) = false)
    (hop : ∀ d : Dict K V, d k = none →
      ((op.toSpec E.m).sem d).1 = d.put k d0 ∧ Agrees op r ((op.toSpec E.m).sem d).2) :
    StepGood E op t (casStep t i att (E.M.remap i) curr (Cell.liveCell k d0) r) := by
  unfold casStep
  split
  · rename_i hc
    have he : (t (E.M.remap i)).c = .empty := by rw [hc]; exact hcur
    have hb : E.M.cp = false → E.M.remap i ≤ E.M.addr + 300 := by
      intro hcp; simpa [tooFar, hcp] using htf
    refine ⟨hI.insert hp he hb, Evolves.set ⟨fun h => absurd he h, fun _ _ _ => .inl he⟩,
      .effect fun d hs => ?_⟩
    have hdk := hs.of_absent (fun p v hlt => hI.absent hp he hlt)
    obtain ⟨o1, o2⟩ := hop d hdk
    refine ⟨?_, o2⟩
    rw [o1]
    exact hs.put hlt rfl (.inl he) (fun q v hq hv => absurd hv (hI.absent hp he hq))
  · exact ⟨hI, Evolves.refl t, rfl, by rw [← hk] at hp; exact hp⟩

theorem casDelete_good {E : Env K} {t : Tbl K V} {op : Op K V} {i att : Nat} {curr : Cell K V}
    {k : K} {w : V} {r : Ret K V} (hk : op.key = k)
    (hI : Inv E t) (hp : Passed E t k i) (hlt : E.M.remap i < E.M.total)
    (hcur : curr.c = .live k w)
    (hop : ∀ d : Dict K V, d k = some w →
      ((op.toSpec E.m).sem d).1 = d.del k ∧ Agrees op r ((op.toSpec E.m).sem d).2) :
    StepGood E op t (casStep t i att (E.M.remap i) curr Cell.deletedCell r) := by
  unfold casStep
  split
  · rename_i hc
    have he : (t (E.M.remap i)).c = .live k w := by rw [hc]; exact hcur
    have hle : CellLe (t (E.M.remap i)).c (Cell.deletedCell : Cell K V).c :=
      ⟨fun _ => by simp [Cell.deletedCell], fun k' v' h => by simp [Cell.deletedCell] at h⟩
    refine ⟨hI.setEvolve (by simp [he]) hle, Evolves.set hle, .effect fun d hs => ?_⟩
    obtain ⟨o1, o2⟩ := hop d (hs.of_live hlt he)
    refine ⟨?_, o2⟩
    rw [o1]
    exact hs.del (by simp [Cell.deletedCell]) ⟨w, he⟩ (fun q v hq hv => hI.unique hq hlt hv he)
  · exact ⟨hI, Evolves.refl t, rfl, by rw [← hk] at hp; exact hp⟩

/-- **Central step lemma.** -/
theorem step_good {E : Env K} {t : Tbl K V} {op : Op K V} {pc : PC K V} (hE : E.OK)
    (hI : Inv E t) (hpc : PcInv E t op pc) (hsafe : SafeAct E t op pc) :
    StepGood E op t (step E op pc t) := by
  cases pc with
  | load i att =>
    have hlt := Passed.inBounds hE hI hpc
    simp only [step, hlt, if_true]
    exact load_good hI hpc hlt
  | act i att curr =>
    obtain ⟨hp, hact, _⟩ := hpc
    have hlt := hp.inBounds hE hI
    have hs := hsafe i att curr rfl
    obtain ⟨hm, hact⟩ := hact
    simp only [step, hlt, if_true]
    have hretry : ∀ a, StepGood E op t (t, .cont (.load i a)) :=
      fun a => ⟨hI, Evolves.refl t, rfl, hp⟩
    cases op with
    | find k | locate k => exact hact.elim
    | insert k d =>
      simp only [actStep]
      refine casInsert_good rfl hI hp hlt hact.1 hact.2 fun d' hd => ?_
      simp [Op.toSpec, SOp.sem, hd, Agrees, Ret.ok, ReturnCode.successful, ReturnCode.toNat]
    | update k f =>
      obtain ⟨w, hw⟩ := hact
      simp only [actStep]
      refine upd_good hI hlt hw ?_ ?_ (fun x => rfl) (hretry _)
      · simpa [Op.usesCas, Op.key, hw] using hs
      · intro d' u hd
        simp [Op.toSpec, SOp.sem, hd, Ret.ok, ReturnCode.successful, ReturnCode.toNat]
    | updateBackoff k f b =>
      obtain ⟨w, hw⟩ := hact
      simp only [actStep]
      refine upd_good hI hlt hw ?_ ?_ (fun x => rfl) ?_
      · simpa [Op.usesCas, Op.key, hw] using hs
      · intro d' u hd
        simp [Op.toSpec, SOp.sem, hd, Ret.ok, ReturnCode.successful, ReturnCode.toNat]
      · cases hb : b att
        · refine ⟨hI, Evolves.refl t, .refused .UNSUCCESS_BACKOFF ⟨rfl, att, hb⟩ rfl rfl ?_⟩
          intro h; cases h
        · exact hretry _
    | updateUnsafe k f =>
      obtain ⟨w, hw⟩ := hact
      simp only [actStep]
      refine updUnsafe_good hI hlt ?_ ?_ (fun x => rfl)
      · simpa [Op.usesCas, Op.key, hw] using hs
      · intro d' u hd
        simp [Op.toSpec, SOp.sem, hd, Ret.ok, ReturnCode.successful, ReturnCode.toNat,
          UpdFn.effUnsafe]
    | insertOrUpdate k d f =>
      simp only [actStep]
      rcases hact with ⟨he, htf⟩ | ⟨w, hw⟩
      · simp only [Cell.isEmpty_iff.2 he, if_true]
        refine casInsert_good rfl hI hp hlt he htf fun d' hd => ?_
        simp [Op.toSpec, SOp.sem, hd, Agrees, Ret.ok, Ret.shown, Cell.liveCell, Cell.val?]
      · have hne : curr.isEmpty = false := by simp [Cell.isEmpty, hw]
        simp only [hne, Bool.false_eq_true, if_false]
        refine upd_good hI hlt hw ?_ ?_ (fun x => rfl) (hretry _)
        · simpa [Op.usesCas, Op.key, hw] using hs
        · intro d' u hd
          simp [Op.toSpec, SOp.sem, hd, Ret.ok]
    | insertOrUpdateUnsafe k d f =>
      simp only [actStep]
      rcases hact with ⟨he, htf⟩ | ⟨w, hw⟩
      · simp only [Cell.isEmpty_iff.2 he, if_true]
        refine casInsert_good rfl hI hp hlt he htf fun d' hd => ?_
        simp [Op.toSpec, SOp.sem, hd, Agrees, Ret.ok, Ret.shown, Cell.liveCell, Cell.val?]
      · have hne : curr.isEmpty = false := by simp [Cell.isEmpty, hw]
        simp only [hne, Bool.false_eq_true, if_false]
        refine updUnsafe_good hI hlt ?_ ?_ (fun x => rfl)
        · simpa [Op.usesCas, Op.key, hw] using hs
        · intro d' u hd
          simp [Op.toSpec, SOp.sem, hd, Ret.ok, UpdFn.effUnsafe]
    | erase k =>
      obtain ⟨w, hw⟩ := hact
      simp only [actStep]
      refine casDelete_good rfl hI hp hlt hw fun d' hd => ?_
      simp only [Op.key] at hd
      simp [Op.key, Op.toSpec, SOp.sem, hd, Agrees, Ret.ok, Ret.shown, ReturnCode.successful,
        ReturnCode.toNat]
    | eraseIf k d =>
      simp only [actStep]
      refine casDelete_good rfl hI hp hlt hact fun d' hd => ?_
      simp only [Op.key] at hd
      simp [Op.key, Op.toSpec, SOp.sem, hd, Agrees, Ret.ok, Ret.shown, ReturnCode.successful,
        ReturnCode.toNat]

/-- No step sets a mark. -/
theorem step_marks {E : Env K} {t : Tbl K V} {op : Op K V} {pc : PC K V}
    (hpc : PcInv E t op pc) (p : Nat) (h : ((step E op pc t).1 p).marked = true) :
    (t p).marked = true := by
  have hset : ∀ (q : Nat) (x : Cell K V), (x.marked = true → (t q).marked = true) →
      ((t.set q x) p).marked = true → (t p).marked = true := by
    intro q x hx h
    unfold Tbl.set at h
    split at h
    · subst q; exact hx h
    · exact h
  cases pc with
  | load i att => revert h; simp only [step]; split <;> exact id
  | act i att curr =>
    obtain ⟨-, ⟨hm, -⟩, -⟩ := hpc
    have hau : ∀ k f, (atomicUpdate E.m k (t (E.M.remap i)) curr f).1.marked = true →
        (t (E.M.remap i)).marked = true := by
      intro k f
      have h1 : ∀ v, (curr.setMapped v).marked = false := by
        intro v; unfold Cell.setMapped; split <;> simp [hm]
      have h2 : ∀ (x : Cell K V) v, (x.setMapped v).marked = x.marked := by
        intro x v; unfold Cell.setMapped; split <;> rfl
      unfold atomicUpdate
      cases E.m <;> cases f.atomic <;> simp only [Bool.false_eq_true, if_false, if_true] <;>
        (try split) <;> simp_all
    have hnu : ∀ k f, (nonAtomicUpdate k (t (E.M.remap i)) f).1.marked = true →
        (t (E.M.remap i)).marked = true := by
      intro k f
      unfold nonAtomicUpdate
      simp only [Cell.setMapped]
      split <;> exact id
    have h0 : (Cell.deletedCell : Cell K V).marked = true → (t (E.M.remap i)).marked = true := by
      simp [Cell.deletedCell]
    have h1 : ∀ k d, (Cell.liveCell k d : Cell K V).marked = true →
        (t (E.M.remap i)).marked = true := by
      simp [Cell.liveCell]
    revert h
    simp only [step]
    split
    · cases op <;> simp only [actStep, casStep] <;> (repeat' split) <;>
        first | exact id | exact hset _ _ (hau _ _) | exact hset _ _ (hnu _ _)
              | exact hset _ _ h0 | exact hset _ _ (h1 _ _)
    · exact id

/-- A step refused as full sees a run of at least 302 occupied slots around the end of the
addressable part. -/
theorem step_full {E : Env K} {t t' : Tbl K V} {op : Op K V} {pc : PC K V} {r : Ret K V}
    (hE : E.OK) (hI : Inv E t) (hpc : PcInv E t op pc)
    (hs : step E op pc t = (t', .done r)) (hr : r.code = some .UNSUCCESS_FULL) :
    t' = t ∧ (∀ d : Dict K V, Stores E t d → d op.key = none) ∧
    E.M.cp = false ∧ ∀ p, E.M.addr - 1 ≤ p → p ≤ E.M.addr + 300 → (t p).c ≠ .empty := by
  obtain ⟨n, hw⟩ := hE.wf
  have hh := hw.map_lt (hE.hash op.key)
  cases pc with
  | load i att =>
    have ht : t' = t := by
      revert hs
      simp only [step]
      split <;> intro hs <;> exact (congrArg Prod.fst hs).symm
    have htf : tooFar E (E.M.remap i) = true ∧ (t (E.M.remap i)).isEmpty = true := by
      revert hs
      simp only [step]
      split
      · intro hs
        have ho := congrArg Prod.snd hs
        revert ho
        cases op <;> simp only [afterLoad, retEnd] <;> (repeat' split) <;> intro ho <;> cases ho <;>
          first | exact ⟨by assumption, by assumption⟩ | simp at hr
      · intro hs; cases congrArg Prod.snd hs
    obtain ⟨htf, hem⟩ := htf
    refine ⟨ht, fun d hd => hd.of_absent
      (fun p v hlt => hI.absent hpc (Cell.isEmpty_iff.1 hem) hlt), ?_⟩
    simp only [tooFar, Bool.and_eq_true, Bool.not_eq_true', decide_eq_true_eq] at htf
    refine ⟨htf.1, fun p h1 h2 => ?_⟩
    have := htf.2
    rw [Mapper.remap_lin htf.1] at this
    have := (hpc.2 p (by omega) (by omega)).1
    rwa [Mapper.remap_lin htf.1] at this
  | act i att curr =>
    exfalso
    revert hs
    simp only [step]
    split
    · intro hs
      have ho := congrArg Prod.snd hs
      revert ho
      cases op <;> simp only [actStep, casStep] <;> (repeat' split) <;> intro ho <;>
        first | (cases ho; simp at hr; done)
              | (simp only at ho; split at ho <;> cases ho <;> simp at hr)
              | (cases ho)
    · intro hs; cases congrArg Prod.snd hs

end
end Growt
