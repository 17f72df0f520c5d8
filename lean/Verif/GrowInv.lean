import Verif.GrowSeq
import Verif.Props.Migrate

/-!
# The invariant of a growing table used through one handle
-/

set_option linter.unusedSectionVars false

namespace Growt
section
variable {K V : Type} [DecidableEq K] [DecidableEq V] [Inhabited V]

/-- `resize` on the counters, as long as the difference is not negative. -/
theorem sub64_toSize {e d : Int} (h0 : 0 ≤ e - d) (h1 : e - d < 2 ^ 64) :
    Mapper.sub64 (toSize e) (toSize d) = (e - d).toNat := by
  unfold Mapper.sub64 toSize
  omega

/-- Geometry after `resize`: same kind, same size or doubled, doubled only when more than three
tenths are filled, not doubled only when at most that. -/
theorem resize_geo {M : Mapper} {k : Nat} (hw : M.WF k) (hk : k < 40) {e d : Int} (h0 : 0 ≤ e - d)
    (h1 : e - d < 2 ^ 64) :
    ∃ g, g ≤ 1 ∧ (M.resize (toSize e) (toSize d)).WF (k + g) ∧
      (M.resize (toSize e) (toSize d)).cm = M.cm ∧ (M.resize (toSize e) (toSize d)).cp = M.cp ∧
      (g = 1 → (3 * 2 ^ k : Nat) ≤ 10 * (e - d) + 1) ∧
      (g = 0 → 10 * (e - d) ≤ ((3 * 2 ^ k + 1 : Nat) : Int)) := by
  have hA := hw.addr_eq
  obtain ⟨big, hbig⟩ : ∃ b, Mapper.fillAboveExact (Mapper.sub64 (toSize e) (toSize d)) (2 ^ k) = b :=
    ⟨_, rfl⟩
  have hr : M.resize (toSize e) (toSize d) = Mapper.mk' M.cm M.cp (2 ^ (k + if big then 1 else 0))
      (if M.cm then 2 ^ k else if big then 1 else 0) := by
    simp only [Mapper.resize, hA, hbig]
    cases big <;> simp [Nat.shiftLeft_eq, Nat.pow_succ]
  have h63 : 2 ^ k ≤ 2 ^ 40 := Nat.pow_le_pow_right (by omega) (by omega)
  rw [sub64_toSize h0 h1] at hbig
  unfold Mapper.fillAboveExact at hbig
  have hw9 := hw.1
  refine ⟨if big then 1 else 0, by cases big <;> simp, ?_, by rw [hr]; rfl, by rw [hr]; rfl, ?_, ?_⟩
  · rw [hr]
    exact Mapper.wf_mk' (by omega) (by cases big <;> simp <;> omega)
  · intro hg
    have : big = true := by cases big <;> simp_all
    subst this
    simp only [decide_eq_true_eq] at hbig
    generalize 2 ^ k = A at *
    omega
  · intro hg
    have : big = false := by cases big <;> simp_all
    subst this
    simp only [decide_eq_false_iff_not] at hbig
    generalize 2 ^ k = A at *
    omega

/-- The facts about the table itself (not the counters). (proof, no code) -/
structure TInv (s : GSt K V) (d : Dict K V) : Prop where
  ok : s.E.OK
  combo : s.E.M.cm = true → s.E.M.cp = true
  inv : Inv s.E s.t
  marks : NoMarks s.t
  stores : Stores s.E s.t d
  big : ∀ k, s.E.M.WF k → 16 ≤ k

/-- Same configuration and hash function. (proof, no code) -/
def SameKind (E E' : Env K) : Prop :=
  E'.h = E.h ∧ E'.m = E.m ∧ E'.M.cm = E.M.cm ∧ E'.M.cp = E.M.cp

theorem SameKind.refl (E : Env K) : SameKind E E := ⟨rfl, rfl, rfl, rfl⟩

theorem SameKind.trans {E E' E'' : Env K} (h : SameKind E E') (h' : SameKind E' E'') :
    SameKind E E'' :=
  ⟨h'.1.trans h.1, h'.2.1.trans h.2.1, h'.2.2.1.trans h.2.2.1, h'.2.2.2.trans h.2.2.2⟩

theorem growEnv_ok {upd : Bool} {s : GSt K V} {d : Dict K V} (hT : TInv s d)
    (h0 : 0 ≤ s.elements - s.dummies) (h1 : s.elements - s.dummies < 2 ^ 64)
    (hsmall : s.E.M.addr < 2 ^ 32) : (growEnv upd s).OK := by
  obtain ⟨k, hw⟩ := hT.ok.wf
  have hk : k < 32 := by
    rw [hw.addr_eq] at hsmall
    exact (Nat.pow_lt_pow_iff_right (by omega : 1 < 2)).1 hsmall
  obtain ⟨g, hg, hwf, -⟩ := resize_geo hw (by omega) h0 h1
  exact ⟨hT.ok, rfl, rfl, ⟨_, _, rfl⟩, ⟨_, hwf⟩, hT.combo, hsmall⟩

/-- A growth step. -/
theorem Grow.good {upd : Bool} {s s' : GSt K V} {d : Dict K V} (hT : TInv s d)
    (h0 : 0 ≤ s.elements - s.dummies) (h1 : s.elements - s.dummies < 2 ^ 64)
    (hsmall : s.E.M.addr < 2 ^ 32) (hroom : HasRoom s.E s.t) (hg : Grow upd s s') :
    TInv s' d ∧ SameKind s.E s'.E ∧
      s'.elements = s.elements - s.dummies ∧ s'.dummies = 0 ∧ s'.c = s.c ∧
      s'.version = s.version + 1 ∧
      liveCount s'.E.M.total s'.t = liveCount s.E.M.total s.t ∧
      occupied s'.E.M.total s'.t = liveCount s.E.M.total s.t ∧
      (∀ q v, (s'.t q).c ≠ .deleted v) ∧
      ((s'.E.M.addr = s.E.M.addr ∧
          10 * (s.elements - s.dummies) ≤ ((3 * s.E.M.addr + 1 : Nat) : Int)) ∨
        (s'.E.M.addr = 2 * s.E.M.addr ∧
          ((3 * s.E.M.addr : Nat) : Int) ≤ 10 * (s.elements - s.dummies) + 1)) := by
  cases hg with
  | mk m hm hf =>
    have hG := growEnv_ok (upd := upd) hT h0 h1 hsmall
    obtain ⟨htorn, hc, -⟩ := hm.good
    have hr' : HasRoom (growEnv upd s).src m.mem.src := fun h => by
      obtain ⟨p, hp, he⟩ := hroom h
      exact ⟨p, hp, by rw [hc p]; exact he⟩
    obtain ⟨e1, e2, e3, e4, e5, e6, e7, e8⟩ := migration_end hG hT.inv hT.marks hm.reach htorn hf hr'
    obtain ⟨k, hw⟩ := hT.ok.wf
    have hk : k < 32 := by
      rw [hw.addr_eq] at hsmall
      exact (Nat.pow_lt_pow_iff_right (by omega : 1 < 2)).1 hsmall
    obtain ⟨g, hg, hwf, hcm, hcp, hbig, hsm⟩ := resize_geo hw (by omega) h0 h1
    have hst : Stores (growEnv upd s).src m.mem.src d := fun key v => by
      rw [hT.stores key v]
      constructor <;> rintro ⟨i, hi, h⟩ <;> exact ⟨i, hi, by rw [← h, hc i]⟩
    have hlive : liveCount (growEnv upd s).src.M.total m.mem.src = liveCount s.E.M.total s.t := by
      unfold liveCount
      apply List.countP_congr
      intro p _
      rw [hc p]
    have hlive' : liveCount (growEnv upd s).tgt.M.total (published m.mem.tgt) =
        liveCount s.E.M.total s.t := by
      have := liveCount_eq hT.inv e3 (fun key v => by
        rw [← hT.stores key v, ← e6 d hst key v])
      exact this
    refine ⟨⟨hG.tgtOK, ?_, e3, e4, e6 d hst, ?_⟩, ⟨rfl, rfl, hcm, hcp⟩, rfl, rfl, rfl, rfl, hlive', ?_, e5, ?_⟩
    · intro h
      have h' : s.E.M.cm = true := hcm ▸ h
      exact hcp ▸ hT.combo h'
    · intro k' hk'
      have := WF_unique hk' hwf
      have := hT.big k hw
      omega
    · rw [← hlive]; exact e7
    · have hA := hw.addr_eq
      have hA' := hwf.addr_eq
      show (Mapper.addr (s.E.M.resize (toSize s.elements) (toSize s.dummies)) = _ ∧ _) ∨
        (Mapper.addr (s.E.M.resize (toSize s.elements) (toSize s.dummies)) = _ ∧ _)
      rw [hA', hA]
      rcases Nat.le_one_iff_eq_zero_or_eq_one.1 hg with h | h
      · subst h
        exact .inl ⟨rfl, hsm rfl⟩
      · subst h
        exact .inr ⟨by rw [Nat.pow_succ]; omega, hbig rfl⟩

/-- A growth step is possible. -/
theorem Grow.exists {upd : Bool} {s : GSt K V} {d : Dict K V} (hT : TInv s d)
    (h0 : 0 ≤ s.elements - s.dummies) (h1 : s.elements - s.dummies < 2 ^ 64)
    (hsmall : s.E.M.addr < 2 ^ 32) : ∃ s', Grow upd s s' := by
  have hG := growEnv_ok (upd := upd) hT h0 h1 hsmall
  obtain ⟨k, g, hS⟩ := hG.shape
  obtain ⟨m, hm, hf⟩ := single_helper_ends (V := V) hS hT.inv hT.marks
  exact ⟨_, .mk m hm hf⟩

/-- The invariant: the table stores `d`; at most `n` insertions were called so far; counters and
table agree.  `A0`: initial size. (proof, no code) -/
structure GInv (A0 n : Nat) (s : GSt K V) (d : Dict K V) : Prop where
  tab : TInv s d
  cap : s.E.M.addr ≤ max A0 (7 * n)
  live : s.elements - s.dummies + s.c.inserted - s.c.deleted = liveCount s.E.M.total s.t
  few : liveCount s.E.M.total s.t ≤ n
  nonneg : 0 ≤ s.elements - s.dummies
  flushedFew : s.elements - s.dummies ≤ n
  occ : (occupied s.E.M.total s.t : Int) ≤ s.elements + s.c.inserted
  ins : 0 ≤ s.c.inserted
  del : 0 ≤ s.c.deleted
  upd : s.c.inserted + s.c.deleted = s.c.updates
  flushes : s.c.updates ≤ 64

theorem thresh_room {total : Nat} (h : 65536 ≤ total) : Cnt.thresh total + 65 < total := by
  unfold Cnt.thresh
  omega

theorem TInv.total_ge {s : GSt K V} {d : Dict K V} (hT : TInv s d) :
    65536 ≤ s.E.M.addr ∧ s.E.M.addr ≤ s.E.M.total ∧ s.E.M.total ≤ s.E.M.addr + 1024 := by
  obtain ⟨k, hw⟩ := hT.ok.wf
  have hk := hT.big k hw
  have h16 : 2 ^ 16 ≤ 2 ^ k := Nat.pow_le_pow_right (by omega) hk
  rw [hw.total_eq, hw.addr_eq]
  split <;> omega

/-- What is known right before the flush of a handle that has counted up to 65 operations. (proof, no code) -/
structure FInv (A0 n : Nat) (s : GSt K V) (d : Dict K V) : Prop where
  tab : TInv s d
  cap : s.E.M.addr ≤ max A0 (7 * n)
  live : s.elements - s.dummies + s.c.inserted - s.c.deleted = liveCount s.E.M.total s.t
  few : liveCount s.E.M.total s.t ≤ n
  occ : (occupied s.E.M.total s.t : Int) ≤ s.elements + s.c.inserted
  ins : 0 ≤ s.c.inserted
  few65 : s.c.inserted ≤ 65

theorem GInv.toF {A0 n : Nat} {s : GSt K V} {d : Dict K V} (h : GInv A0 n s d) : FInv A0 n s d :=
  ⟨h.tab, h.cap, h.live, h.few, h.occ, h.ins, by have := h.upd; have := h.flushes; have := h.del; omega⟩

theorem Flush.good {upd : Bool} {A0 n : Nat} {s s' : GSt K V} {d : Dict K V} (hF : FInv A0 n s d)
    (hA : A0 < 2 ^ 32) (hn : 7 * n < 2 ^ 32) (hf : Flush upd s s') :
    GInv A0 n s' d ∧ SameKind s.E s'.E ∧
      (s.elements < Cnt.thresh s.E.M.total → s'.elements ≤ Cnt.thresh s'.E.M.total) := by
  have hlive := hF.live; have hfew := hF.few; have hocc := hF.occ
  have hcap := hF.cap
  obtain ⟨hA1, hA2, hA3⟩ := hF.tab.total_ge
  cases hf with
  | quiet h =>
    refine ⟨⟨⟨hF.tab.ok, hF.tab.combo, hF.tab.inv, hF.tab.marks, hF.tab.stores, hF.tab.big⟩,
      hF.cap, ?_, hF.few, ?_, ?_, ?_, by simp, by simp, by simp, by simp⟩, SameKind.refl _, ?_⟩
    all_goals simp only [GSt.flushed]
    · omega
    · omega
    · omega
    · omega
    · intro hlt
      unfold Cnt.triggers at h
      simp only [Bool.and_eq_false_iff, decide_eq_false_iff_not] at h
      omega
  | @grow s1 h hg =>
    have hroom : HasRoom s.flushed.E s.flushed.t := by
      intro hcp
      apply occupied_lt
      have := thresh_room (show 65536 ≤ s.E.M.total by omega)
      unfold Cnt.triggers at h
      simp only [Bool.and_eq_true, decide_eq_true_eq] at h
      have hlt : s.elements < Cnt.thresh s.E.M.total := by omega
      have := hF.few65
      show occupied s.E.M.total s.t < s.E.M.total
      omega
    have hT : TInv s.flushed d :=
      ⟨hF.tab.ok, hF.tab.combo, hF.tab.inv, hF.tab.marks, hF.tab.stores, hF.tab.big⟩
    have hsmall : s.flushed.E.M.addr < 2 ^ 32 := by
      show s.E.M.addr < 2 ^ 32
      omega
    have he : s.flushed.elements - s.flushed.dummies = liveCount s.E.M.total s.t := by
      simp only [GSt.flushed]; omega
    obtain ⟨g1, g2, g3, g4, g5, g6, g7, g8, g9, g10⟩ := hg.good hT (by omega) (by omega) hsmall hroom
    have hE : s.flushed.E = s.E := rfl
    have ht : s.flushed.t = s.t := rfl
    simp only [hE, ht] at g2 g7 g8 g10
    rw [he] at g3 g10
    obtain ⟨hB1, hB2, hB3⟩ := g1.total_ge
    refine ⟨⟨⟨g1.ok, g1.combo, g1.inv, g1.marks, g1.stores, g1.big⟩, ?_, ?_, ?_, ?_, ?_, ?_, by simp,
      by simp, by simp, by simp⟩, g2, ?_⟩
    all_goals simp only []
    · omega
    · rw [g3, g4, g7]; omega
    · omega
    · omega
    · omega
    · rw [g8, g3]; omega
    · intro hlt
      have hocc2 := liveCount_le_occupied s.E.M.total s.t
      have := hF.few65
      rw [g3]
      unfold Cnt.thresh at hlt ⊢
      omega

theorem Flush.exists {upd : Bool} {A0 n : Nat} {s : GSt K V} {d : Dict K V} (hF : FInv A0 n s d)
    (hA : A0 < 2 ^ 32) (hn : 7 * n < 2 ^ 32) : ∃ s', Flush upd s s' := by
  have hlive := hF.live; have hfew := hF.few; have hcap := hF.cap
  cases h : Cnt.triggers s.E.M.total s.elements s.c.inserted with
  | false => exact ⟨_, .quiet h⟩
  | true =>
    have hT : TInv s.flushed d :=
      ⟨hF.tab.ok, hF.tab.combo, hF.tab.inv, hF.tab.marks, hF.tab.stores, hF.tab.big⟩
    have he : s.flushed.elements - s.flushed.dummies = liveCount s.E.M.total s.t := by
      simp only [GSt.flushed]; omega
    obtain ⟨s', hg⟩ := Grow.exists (upd := upd) hT (by omega) (by omega)
      (by show s.E.M.addr < 2 ^ 32; omega)
    exact ⟨_, .grow h hg⟩

/-- What an operation on a growing table has to return: the flag and the visible value of the
specification; exempt is the iterator of a successful plain `insert` (C09). (proof, no code) -/
def AgreesG (op : Op K V) (x y : SRes V) : Prop :=
  x.ok = y.ok ∧ ((∃ k v, op = .insert k v) ∧ x.ok = true ∨ x.shown = y.shown)

/-- The actions of the `switch` statements for the codes the base table can return. -/
theorem react_cases {op : Op K V} {r : Ret K V} (hc : r.code ∈ codesOf op)
    (hb : r.code ≠ some .UNSUCCESS_BACKOFF) :
    (react op r = .grow ↔ r.code = some .UNSUCCESS_FULL) ∧
    (react op r = .help ↔ r.code = some .UNSUCCESS_INVALID) ∧
    (react op r = .countInserted ↔ r.code = some .SUCCESS_IN) ∧
    (react op r = .countDeleted ↔ r.code = some .SUCCESS_DEL) ∧
    (∀ b, react op r = .ret b → b = r.ok op) ∧
    (r.code = some .SUCCESS_IN → r.ok op = true) ∧ (r.code = some .SUCCESS_DEL → r.ok op = true) := by
  obtain ⟨code, it⟩ := r
  cases op <;> simp only [codesOf, List.mem_cons, List.not_mem_nil, or_false] at hc
  all_goals
    first
      | (rcases hc with rfl | rfl | rfl | rfl | rfl)
      | (rcases hc with rfl | rfl | rfl | rfl)
      | (rcases hc with rfl | rfl | rfl)
      | subst hc
  all_goals
    simp [react, Ret.ok, switchInsert, switchUpdate, switchBackoff, switchInsertOrUpdate,
      switchErase, ReturnCode.successful, ReturnCode.toNat] at hb ⊢

theorem GInv.mono {A0 n n' : Nat} {s : GSt K V} {d : Dict K V} (h : GInv A0 n s d) (hn : n ≤ n') :
    GInv A0 n' s d :=
  ⟨h.tab, by have := h.cap; omega, h.live, by have := h.few; omega, h.nonneg,
    by have := h.flushedFew; omega, h.occ, h.ins, h.del, h.upd, h.flushes⟩

/-- 1 if the call may insert. (proof, no code) -/
def addsOf (op : Op K V) : Nat := if (op.toSpec true).inserts then 1 else 0

theorem addsOf_success {op : Op K V} {r : Ret K V} (hc : r.code ∈ codesOf op)
    (h : r.code = some .SUCCESS_IN) : addsOf op = 1 := by
  rw [h] at hc
  cases op <;> simp [codesOf] at hc <;> rfl

/-- A growth step keeps the invariant. -/
theorem Grow.keeps {upd : Bool} {A0 n : Nat} {s s' : GSt K V} {d : Dict K V} (hG : GInv A0 n s d)
    (hA : A0 < 2 ^ 32) (hn : 7 * n < 2 ^ 32) (hroom : HasRoom s.E s.t) (hg : Grow upd s s') :
    GInv A0 n s' d ∧ SameKind s.E s'.E ∧ (∀ q v, (s'.t q).c ≠ .deleted v) ∧
      (s'.E.M.addr = s.E.M.addr ∨ s'.E.M.addr = 2 * s.E.M.addr) := by
  have hlive := hG.live; have hfew := hG.few; have hcap := hG.cap
  have hff := hG.flushedFew; have hnn := hG.nonneg; have hd := hG.del
  obtain ⟨hA1, hA2, hA3⟩ := hG.tab.total_ge
  obtain ⟨g1, g2, g3, g4, g5, g6, g7, g8, g9, g10⟩ := hg.good hG.tab hG.nonneg (by omega)
    (by omega) hroom
  refine ⟨⟨g1, ?_, ?_, ?_, ?_, ?_, ?_, by rw [g5]; exact hG.ins, by rw [g5]; exact hG.del,
    by rw [g5]; exact hG.upd, by rw [g5]; exact hG.flushes⟩, g2, g9, ?_⟩
  all_goals (try rw [g5])
  all_goals omega

/-- A completed call: the invariant is kept and the result is that of the ideal map. -/
theorem Call.good {upd : Bool} {A0 n : Nat} {op : Op K V} {s s' : GSt K V} {x : SRes V}
    {d : Dict K V} (hc : Call upd op s x s') (hG : GInv A0 n s d) (hA : A0 < 2 ^ 32)
    (hn : 7 * (n + addsOf op) < 2 ^ 32) :
    GInv A0 (n + addsOf op) s' ((op.toSpec s.E.m).sem d).1 ∧ SameKind s.E s'.E ∧
      AgreesG op x ((op.toSpec s.E.m).sem d).2 := by
  induction hc with
  | @ret s f t' r b hrun ha =>
    obtain ⟨h1, h2, h3, h4, h5⟩ := run_done hG.tab.ok hG.tab.inv hG.tab.marks hG.tab.stores hrun
    obtain ⟨a1, a2, a3, a4, a5, a6, a7⟩ := react_cases h3 h4
    obtain ⟨pc, hpc, hsafe, hst⟩ := run_step hG.tab.ok hG.tab.inv hrun
    have hch := (step_change hpc hsafe hst).counts
    rcases h5 with ⟨hfull, -⟩ | ⟨hnf, hni, hst', hag⟩
    · rw [a1.2 hfull] at ha; cases ha
    · have hb := a5 b ha
      obtain ⟨c1, c2⟩ := hch.2.2 (fun h => by rw [a3.2 h] at ha; cases ha)
        (fun h => by rw [a4.2 h] at ha; cases ha)
      have hlive := hG.live; have hocc := hG.occ; have hfew := hG.few
      have hcap := hG.cap; have hff := hG.flushedFew
      refine ⟨⟨⟨hG.tab.ok, hG.tab.combo, h1, h2, hst', hG.tab.big⟩, ?_, ?_, ?_, hG.nonneg, ?_, ?_,
        hG.ins, hG.del, hG.upd, hG.flushes⟩, SameKind.refl _, ?_⟩
      · show s.E.M.addr ≤ _; omega
      · show _ = (liveCount s.E.M.total t' : Int); rw [c1]; exact hlive
      · show liveCount s.E.M.total t' ≤ _; omega
      · show s.elements - s.dummies ≤ _; omega
      · show (occupied s.E.M.total t' : Int) ≤ _; rw [c2]; exact hocc
      · subst hb; exact hag
  | @inserted s s' f t' r hrun ha hinc =>
    obtain ⟨h1, h2, h3, h4, h5⟩ := run_done hG.tab.ok hG.tab.inv hG.tab.marks hG.tab.stores hrun
    obtain ⟨a1, a2, a3, a4, a5, a6, a7⟩ := react_cases h3 h4
    obtain ⟨pc, hpc, hsafe, hst⟩ := run_step hG.tab.ok hG.tab.inv hrun
    have hch := (step_change hpc hsafe hst).counts
    have hin := a3.1 ha
    have hadd := addsOf_success h3 hin
    rcases h5 with ⟨hfull, -⟩ | ⟨hnf, hni, hst', hag⟩
    · rw [hfull] at hin; cases hin
    · obtain ⟨c1, c2⟩ := hch.1 hin
      have hok := a6 hin
      have hag' : AgreesG op ⟨true, r.shown⟩ ((op.toSpec s.E.m).sem d).2 := by
        unfold Agrees at hag; rw [hok] at hag; exact hag
      have hlive := hG.live; have hocc := hG.occ; have hfew := hG.few; have hup := hG.upd
      have hcap := hG.cap; have hff := hG.flushedFew; have hi := hG.ins; have hd := hG.del
      have hfl := hG.flushes
      rw [hadd] at hn ⊢
      cases hinc with
      | quiet hq =>
        refine ⟨⟨⟨hG.tab.ok, hG.tab.combo, h1, h2, hst', hG.tab.big⟩, ?_, ?_, ?_, hG.nonneg, ?_, ?_,
          ?_, ?_, ?_, hq⟩, SameKind.refl _, hag'⟩
        all_goals simp only []
        all_goals omega
      | flush hq hf =>
        have hF : FInv A0 (n + 1) { s with t := t', c := ⟨s.c.updates + 1, s.c.inserted + 1, s.c.deleted⟩ }
            ((op.toSpec s.E.m).sem d).1 := by
          refine ⟨⟨hG.tab.ok, hG.tab.combo, h1, h2, hst', hG.tab.big⟩, ?_, ?_, ?_, ?_, ?_, ?_⟩
          all_goals simp only []
          all_goals omega
        obtain ⟨f1, f2, -⟩ := hf.good hF hA hn
        exact ⟨f1, f2, hag'⟩
  | @deleted s s' f t' r hrun ha hinc =>
    obtain ⟨h1, h2, h3, h4, h5⟩ := run_done hG.tab.ok hG.tab.inv hG.tab.marks hG.tab.stores hrun
    obtain ⟨a1, a2, a3, a4, a5, a6, a7⟩ := react_cases h3 h4
    obtain ⟨pc, hpc, hsafe, hst⟩ := run_step hG.tab.ok hG.tab.inv hrun
    have hch := (step_change hpc hsafe hst).counts
    have hin := a4.1 ha
    rcases h5 with ⟨hfull, -⟩ | ⟨hnf, hni, hst', hag⟩
    · rw [hfull] at hin; cases hin
    · obtain ⟨c1, c2⟩ := hch.2.1 hin
      have hok := a7 hin
      have hag' : AgreesG op ⟨true, r.shown⟩ ((op.toSpec s.E.m).sem d).2 := by
        unfold Agrees at hag; rw [hok] at hag; exact hag
      have hlive := hG.live; have hocc := hG.occ; have hfew := hG.few; have hup := hG.upd
      have hcap := hG.cap; have hff := hG.flushedFew; have hi := hG.ins; have hd := hG.del
      have hfl := hG.flushes
      cases hinc with
      | quiet hq =>
        refine ⟨⟨⟨hG.tab.ok, hG.tab.combo, h1, h2, hst', hG.tab.big⟩, ?_, ?_, ?_, hG.nonneg, ?_, ?_,
          ?_, ?_, ?_, hq⟩, SameKind.refl _, hag'⟩
        all_goals simp only []
        all_goals omega
      | flush hq hf =>
        have hF : FInv A0 (n + addsOf op) { s with t := t', c := ⟨s.c.updates + 1, s.c.inserted, s.c.deleted + 1⟩ }
            ((op.toSpec s.E.m).sem d).1 := by
          refine ⟨⟨hG.tab.ok, hG.tab.combo, h1, h2, hst', hG.tab.big⟩, ?_, ?_, ?_, ?_, ?_, ?_⟩
          all_goals simp only []
          all_goals omega
        obtain ⟨f1, f2, -⟩ := hf.good hF hA hn
        exact ⟨f1, f2, hag'⟩
  | @grow s s1 s2 f t' r x hrun ha hg _ ih =>
    obtain ⟨h1, h2, h3, h4, h5⟩ := run_done hG.tab.ok hG.tab.inv hG.tab.marks hG.tab.stores hrun
    obtain ⟨a1, -⟩ := react_cases h3 h4
    rcases h5 with ⟨hfull, ht, hk, hi, hcp, -⟩ | ⟨hnf, -⟩
    · subst ht
      obtain ⟨g1, g2, -⟩ := hg.keeps hG hA (by omega) (fun h => by
        have : s.E.M.cp = true := h
        rw [hcp] at this; cases this)
      obtain ⟨i1, i2, i3⟩ := ih g1
      have hm : s1.E.m = s.E.m := g2.2.1
      rw [hm] at i1 i3
      exact ⟨i1, g2.trans i2, i3⟩
    · exact absurd (a1.1 ha) hnf
  | @help s s2 f t' r x hrun ha _ ih =>
    obtain ⟨h1, h2, h3, h4, h5⟩ := run_done hG.tab.ok hG.tab.inv hG.tab.marks hG.tab.stores hrun
    obtain ⟨-, a2, -⟩ := react_cases h3 h4
    have hinv := a2.1 ha
    rcases h5 with ⟨hfull, -⟩ | ⟨_, hni, -⟩
    · rw [hfull] at hinv; cases hinv
    · exact absurd hinv hni

/-- Replaying the calls on an ideal map explains every result. (proof, no code) -/
inductive ExplainedG (m : Bool) : Dict K V → List (Op K V × SRes V) → Dict K V → Prop where
  | nil (d : Dict K V) : ExplainedG m d [] d
  | call {d d' : Dict K V} {op : Op K V} {x : SRes V} {l : List (Op K V × SRes V)}
      (h : AgreesG op x ((op.toSpec m).sem d).2)
      (hl : ExplainedG m ((op.toSpec m).sem d).1 l d') : ExplainedG m d ((op, x) :: l) d'

/-- The operations among the calls. (proof, no code) -/
def opsOf : List (HOp K V) → List (Op K V)
  | [] => []
  | .op o :: l => o :: opsOf l
  | .flush :: l => opsOf l

theorem insertCalls_cons (op : Op K V) (l : List (Op K V)) :
    insertCalls (op :: l) = insertCalls l + addsOf op := by
  simp [insertCalls, List.countP_cons, addsOf]

theorem Calls.good {upd : Bool} {A0 n : Nat} {s s' : GSt K V} {ops : List (HOp K V)}
    {l : List (Op K V × SRes V)} {d : Dict K V} (h : Calls upd s ops l s') (hG : GInv A0 n s d)
    (hA : A0 < 2 ^ 32) (hn : 7 * (n + insertCalls (opsOf ops)) < 2 ^ 32) :
    l.map Prod.fst = opsOf ops ∧ ∃ d', ExplainedG s.E.m d l d' ∧
      GInv A0 (n + insertCalls (opsOf ops)) s' d' ∧ SameKind s.E s'.E := by
  induction h generalizing n d with
  | nil => exact ⟨rfl, d, .nil d, hG, SameKind.refl _⟩
  | @op s s1 s2 op x ops l h _ ih =>
    have hc := insertCalls_cons op (opsOf ops)
    simp only [opsOf, hc] at hn ⊢
    obtain ⟨h1, h2, h3⟩ := h.good hG hA (by omega)
    obtain ⟨i1, d', i2, i3, i4⟩ := ih h1 (by omega)
    have hm : s1.E.m = s.E.m := h2.2.1
    rw [hm] at i2
    exact ⟨by simp [i1], d', .call h3 i2, i3.mono (by omega), h2.trans i4⟩
  | @flush s s1 s2 ops l h _ ih =>
    simp only [opsOf] at hn ⊢
    obtain ⟨h1, h2, -⟩ := h.good hG.toF hA (by omega)
    obtain ⟨i1, d', i2, i3, i4⟩ := ih h1 hn
    have hm : s1.E.m = s.E.m := h2.2.1
    rw [hm] at i2
    exact ⟨i1, d', i2, i3, h2.trans i4⟩

theorem GInv.new {cm cp m : Bool} {h : K → Nat} {k : Nat} (hcombo : cm = true → cp = true)
    (hk : 16 ≤ k) (hk' : k < 32) (hh : ∀ x, h x < 2 ^ 64) :
    GInv (2 ^ k) 0 (GSt.new cm cp m h k : GSt K V) (fun _ => none) := by
  have hw : (Mapper.mk' cm cp (2 ^ k) 0).WF k := Mapper.wf_mk' (by omega) (by omega)
  have hlc : liveCount (Mapper.mk' cm cp (2 ^ k) 0).total (emptyTbl : Tbl K V) = 0 := by
    have := liveCount_le_occupied (Mapper.mk' cm cp (2 ^ k) 0).total (emptyTbl : Tbl K V)
    rw [occupied_empty] at this; omega
  refine ⟨⟨⟨⟨k, hw⟩, hh⟩, hcombo, Inv.emptyTbl _, fun _ => rfl, Stores.emptyTbl _, ?_⟩, ?_, ?_, ?_,
    by simp [GSt.new], by simp [GSt.new], ?_, by simp [GSt.new], by simp [GSt.new],
    by simp [GSt.new], by simp [GSt.new]⟩
  · intro k' hk2
    have := WF_unique hk2 hw
    omega
  · have := hw.addr_eq
    simp only [GSt.new]; omega
  · simp only [GSt.new, hlc]; rfl
  · simp only [GSt.new, hlc]; omega
  · simp only [GSt.new, occupied_empty]; decide

end
end Growt
