import Verif.MigInv

/-!
# Every step of a migration keeps the invariant
-/

set_option linter.unusedSectionVars false

namespace Growt
section
variable {K V : Type} [DecidableEq K] [DecidableEq V] [Inhabited V]

attribute [local irreducible] blockEnd

theorem MTbl.set_at (t : MTbl K V) (q : Nat) (x : Cell K V) : t.set q x q = some x := by
  simp [MTbl.set]

theorem MTbl.set_ne {t : MTbl K V} {q p : Nat} {x : Cell K V} (h : p ≠ q) : t.set q x p = t p := by
  simp [MTbl.set, h]

theorem Tbl.set_at (t : Tbl K V) (q : Nat) (x : Cell K V) : t.set q x q = x := by
  simp [Tbl.set]

theorem Tbl.set_other {t : Tbl K V} {q p : Nat} {x : Cell K V} (h : p ≠ q) : t.set q x p = t p := by
  simp [Tbl.set, h]

/-- Marking a slot. -/
theorem Upd.mark {G : MEnv K} {t : Tbl K V} (h : Inv G.src t) (hm : G.src.m = true) (p : Nat) :
    Upd G t (t.set p (t p).mark) := by
  have hc : ∀ q, (t.set p (t p).mark q).c = (t q).c := by
    intro q
    by_cases hq : q = p
    · subst hq; rw [Tbl.set_at]; rfl
    · rw [Tbl.set_other hq]
  refine ⟨h.congr hc, fun q => by rw [hc]; exact CellLe.refl _, fun q hf => ⟨hc q, ?_⟩,
    (fun hm2 => by rw [hm] at hm2; cases hm2), fun q hq => ?_⟩
  · by_cases hq : q = p
    · subst hq; rw [Tbl.set_at]; exact .inr rfl
    · rw [Tbl.set_other hq]; exact hf
  · by_cases hqp : q = p
    · subst hqp; rw [Tbl.set_at]; rfl
    · rw [Tbl.set_other hqp]; exact hq

/-- The effect of `atomic_mark` on the source. -/
theorem mark_cases {G : MEnv K} {t : Tbl K V} (h : Inv G.src t) (p : Nat) (curr : Cell K V)
    (hm0 : G.src.m = false → t p = curr) :
    (∃ t', t.set p (atomicMark G.src.m G.upd (t p) curr).1 = t' ∧ t p = curr ∧
      (atomicMark G.src.m G.upd (t p) curr).2 = (curr, true) ∧ Upd G t t' ∧
      Frozen G.src.m (t' p) ∧ (∀ q, (t' q).c = (t q).c) ∧ ∀ q, q ≠ p → t' q = t q) ∨
    (t.set p (atomicMark G.src.m G.upd (t p) curr).1 = t ∧ t p ≠ curr ∧ G.src.m = true ∧
      ((atomicMark G.src.m G.upd (t p) curr).2 = (t p, false) ∨
       (atomicMark G.src.m G.upd (t p) curr).2 = (curr, false))) := by
  unfold atomicMark
  cases hm : G.src.m with
  | false =>
    left
    have := hm0 hm
    refine ⟨t, ?_, this, ?_, Upd.refl h, .inl rfl, fun _ => rfl, fun _ _ => rfl⟩
    · simp [Tbl.set_self]
    · simp
  | true =>
    by_cases he : t p = curr
    · left
      subst he
      refine ⟨_, rfl, rfl, ?_, ?_, ?_, ?_, fun q hq => Tbl.set_other hq⟩
      · simp
      · simpa using Upd.mark h hm p
      · simp [Tbl.set_at, Frozen, Cell.mark]
      · intro q
        by_cases hq : q = p
        · subst hq; simp [Tbl.set_at, Cell.mark]
        · rw [Tbl.set_other hq]
    · right
      refine ⟨?_, he, rfl, ?_⟩
      · simp [he, Tbl.set_self]
      · cases G.upd <;> simp [he]

section
variable {G : MEnv K} {k g : Nat} (hS : Shape G k g)
include hS
variable {m : MMem K V} {jobs : Nat → Option (JobPC K V)} (h : Core G k m jobs)
include h

/-- The claim about one step. (proof, no code) -/
def StepOK (G : MEnv K) (k : Nat) (m : MMem K V) (jobs : Nat → Option (JobPC K V)) (b : Nat)
    (pc : JobPC K V) : Prop :=
  (jobStep G (blockEnd (2 ^ k) b) pc m).1.torn = false →
    ∃ pc', (jobStep G (blockEnd (2 ^ k) b) pc m).2 = .cont pc' ∧
      Core G k (jobStep G (blockEnd (2 ^ k) b) pc m).1 (upd1 jobs b (some pc'))

theorem step_scan {b i : Nat} (hj : jobs b = some (.scan i)) : StepOK G k m jobs b (.scan i) := by
  obtain ⟨hd, hb, h1, h2, h3, hz⟩ := h.job b _ hj
  have hlt : i < G.src.M.total := by have := hS.le_total; have := hS.blockEnd_le hb; omega
  intro _
  simp only [jobStep]
  rw [if_pos hlt]
  by_cases he : (m.src i).isEmpty = true
  · rw [if_pos he]
    refine ⟨_, rfl, h.move hS hj ?_ (.inl rfl)⟩
    exact ⟨⟨h1, h2, h3, hz⟩, Cell.isEmpty_iff.1 he, fun _ => rfl⟩
  · rw [if_neg he]
    have hne : (m.src i).c ≠ .empty := fun h => he (Cell.isEmpty_iff.2 h)
    have h4 : ∀ j, b ≤ j → j < i + 1 → (m.src j).c ≠ .empty := by
      intro j hj1 hj2
      by_cases hji : j = i
      · subst hji; exact hne
      · exact h3 j hj1 (by omega)
    refine ⟨_, rfl, h.move hS hj ?_ ?_⟩
    · by_cases hl : i + 1 < blockEnd (2 ^ k) b
      · rw [if_pos hl]; exact ⟨by omega, hl, h4, hz⟩
      · rw [if_neg hl]; exact ⟨fun j hj1 hj2 => h4 j hj1 (by omega), hz⟩
    · left; split <;> rfl

theorem step_scanMark {b i : Nat} {curr : Cell K V} (hj : jobs b = some (.scanMark i curr)) :
    StepOK G k m jobs b (.scanMark i curr) := by
  obtain ⟨hd, hb, ⟨h1, h2, h3, hz⟩, h4, h5⟩ := h.job b _ hj
  have hle := hS.blockEnd_le hb
  have hlt : i < G.src.M.total := by have := hS.le_total; omega
  intro _
  simp only [jobStep]
  rw [if_pos hlt]
  try dsimp only
  rcases mark_cases h.inv i curr h5 with ⟨t', ht, hpc, hr, hu, hfr, hc, hoth⟩ | ⟨ht, hpc, hm, hr⟩
  · rw [ht, hr]
    simp only [if_true]
    refine ⟨_, rfl, ?_⟩
    refine h.next (tn := m.torn) hu (TLe.refl _) (fun _ _ _ _ _ _ _ _ => rfl) ⟨hd, hb⟩ ?_ ?_ ?_
      (fun q x h1 _ => .inl h1) ?_ h.dom h.emp
    · refine ⟨⟨h1, h2, fun j a c => hu.ne (h3 j a c), .inl ⟨?_, hfr⟩, Nat.le_refl _, ?_, ?_, ?_⟩, ?_⟩
      · show (t' i).c = .empty
        rw [hc i, hpc, h4]
      · intro j a c; omega
      · intro j a c; omega
      · intro hc hb0
        rcases hz with hz | hz
        · rw [hc] at hz; cases hz
        · omega
      · simp only [Bool.false_eq_true, if_false]
        have hmem := hS.mem_initRange h2 hle
        exact ⟨trivial, fun q hq => (hmem q).1 hq, fun q a c d => .inl ((hmem q).2 ⟨a, c, d⟩)⟩
    · intro pc st cur ins a c
      rw [hj] at a; cases a; simp [JobPC.ext] at c
    · intro st' cur' ins' ic key v a c d
      simp only [JobPC.ext, Option.some.injEq, Prod.mk.injEq] at a
      omega
    · intro p a c
      by_cases hp : p = i
      · subst hp
        rw [hc p, hpc, h4] at c; exact absurd rfl c
      · rw [hoth p hp] at a; exact .inl a
  · rw [ht]
    have : (atomicMark G.src.m G.upd (m.src i) curr).2.2 = false := by
      rcases hr with hr | hr <;> rw [hr]
    rw [this]
    simp only [Bool.false_eq_true, if_false]
    exact ⟨_, rfl, h.move hS hj ⟨h1, h2, h3, hz⟩ (.inl rfl)⟩

/-- The initialised slots were free. -/
theorem fill_free {b st i q : Nat} {qs : List Nat} {tail : Bool}
    (hj : jobs b = some (.fill st (q :: qs) tail i)) :
    q < G.tgt.M.total ∧ ∀ x, m.tgt q = some x → x = Cell.emptyCell := by
  obtain ⟨hd, hb, hJ, h2⟩ := h.job b _ hj
  have hq : q < G.tgt.M.total ∧ ∃ ic, st ≤ ic ∧ i ≤ ic ∧ (ic ≤ i ∨ ic ≤ blockEnd (2 ^ k) b) ∧
      fiber G q = G.src.M.remap ic := by
    cases tail with
    | true =>
      simp only [if_true] at h2
      have := h2.2.2.1 q (by simp)
      exact ⟨this.1, i, hJ.le, Nat.le_refl _, .inl (Nat.le_refl _), this.2⟩
    | false =>
      simp only [Bool.false_eq_true, if_false] at h2
      obtain ⟨h3, h4, h5⟩ := h2.2.1 q (by simp)
      have hle := hS.blockEnd_le hb
      have := hS.le_total
      exact ⟨h3, fiber G q, h4, by omega, .inr (by omega), (hS.remap_small (by omega)).symm⟩
  obtain ⟨hq, ic, h3, h4, h5, h6⟩ := hq
  refine ⟨hq, fun x hx => ?_⟩
  have hxc : x.c = .empty := by
    false_or_by_contra
    rename_i hne
    have hsh := hJ.shape (c := ic) h3 h5
    have hok := hsh.cur_ok hS h.inv (hS.blockEnd_le hb) (Nat.le_refl ic)
    have hr : G.src.M.remap ic % G.src.M.total = G.src.M.remap ic :=
      Nat.mod_eq_of_lt (hS.remap_lt hok)
    obtain ⟨pc, st2, cur, ins, ic2, n, key, v, h7, h8, h9, h10, h11, -⟩ :=
      h.same hS (i := G.src.M.remap ic) (f := G.src.M.remap ic) hsh hd hb h3 (Nat.le_refl _)
        (Nat.le_refl _) hr (fun j a c => by omega) hx hne (by rw [hr, h6])
    rw [hj] at h7; cases h7
    simp only [JobPC.ext, Option.some.injEq, Prod.mk.injEq] at h8
    omega
  have hxm := h.emp q x hx hxc
  rw [Cell.eta x, hxc, hxm]; rfl

theorem step_fill {b st i q : Nat} {qs : List Nat} {tail : Bool}
    (hj : jobs b = some (.fill st (q :: qs) tail i)) :
    StepOK G k m jobs b (.fill st (q :: qs) tail i) := by
  obtain ⟨hq, hfree⟩ := fill_free hS h hj
  obtain ⟨hd, hb, hJ, h2⟩ := h.job b _ hj
  intro _
  simp only [jobStep]
  rw [if_pos hq]
  refine ⟨_, rfl, ?_⟩
  have hini : ∀ p, m.tgt.set q Cell.emptyCell p = m.tgt p ∨ (p = q ∧ m.tgt p = none) := by
    intro p
    by_cases hp : p = q
    · subst hp
      cases hx : m.tgt p with
      | none => exact .inr ⟨rfl, rfl⟩
      | some x => left; rw [MTbl.set_at, hfree x hx]
    · exact .inl (MTbl.set_ne hp)
  have hg : TLe m.tgt (m.tgt.set q Cell.emptyCell) := by
    constructor
    · intro p x h1 _
      rcases hini p with h3 | ⟨-, h3⟩
      · rw [h3, h1]
      · rw [h3] at h1; cases h1
    · intro p h1
      rcases hini p with h3 | ⟨-, h3⟩
      · rwa [h3]
      · exact absurd h3 h1
  have hat : m.tgt.set q Cell.emptyCell q ≠ none := by rw [MTbl.set_at]; simp
  refine h.next (t' := m.src) (tn := m.torn) (Upd.refl h.inv) hg ?_ ⟨hd, hb⟩ ⟨hJ, ?_⟩ ?_ ?_ ?_
    (fun p h1 _ => .inl h1) ?_ ?_
  · intro b2 st2 tl nxt u x _ hj2
    obtain ⟨-, -, -, -, -, y, hy, -⟩ := h.job b2 _ hj2
    rcases hini (G.tgt.M.remap u) with h3 | ⟨-, h3⟩
    · exact h3
    · rw [hy] at h3; cases h3
  · cases tail with
    | true =>
      simp only [if_true] at h2 ⊢
      obtain ⟨h3, h4, h5, h6⟩ := h2
      refine ⟨h3, h4.le hg, fun p hp => h5 p (by simp [hp]), fun p h7 h8 => ?_⟩
      rcases h6 p h7 h8 with h9 | h9
      · rcases List.mem_cons.1 h9 with h10 | h10
        · subst h10; exact .inr hat
        · exact .inl h10
      · exact .inr (hg.init p h9)
    | false =>
      simp only [Bool.false_eq_true, if_false] at h2 ⊢
      obtain ⟨h3, h5, h6⟩ := h2
      refine ⟨h3, fun p hp => h5 p (by simp [hp]), fun p h7 h8 h8' => ?_⟩
      rcases h6 p h7 h8 h8' with h9 | h9
      · rcases List.mem_cons.1 h9 with h10 | h10
        · subst h10; exact .inr hat
        · exact .inl h10
      · exact .inr (hg.init p h9)
  · intro pc0 st0 cur ins h3 h4
    rw [hj] at h3; cases h3
    exact ⟨cur, ins, h4, Nat.le_refl _, Nat.le_refl _⟩
  · intro st' cur' ins' ic key v h3 _ h5 _
    exact .inl ⟨_, cur', ins', hj, h3, h5⟩
  · intro p x h3 h4
    rcases hini p with h5 | ⟨h5, -⟩
    · left; rw [← h5, h3]
    · subst h5; rw [MTbl.set_at] at h3; cases h3; exact absurd rfl h4
  · intro p h3
    by_cases hp : p = q
    · rw [hp]; exact hq
    · rw [MTbl.set_ne hp] at h3; exact h.dom p h3
  · intro p x h3 h4
    rcases hini p with h5 | ⟨h5, -⟩
    · exact h.emp p x (by rw [← h5, h3]) h4
    · subst h5; rw [MTbl.set_at] at h3; cases h3; rfl

theorem step_fillEnd {b st i : Nat} {tail : Bool} (hj : jobs b = some (.fill st [] tail i)) :
    StepOK G k m jobs b (.fill st [] tail i) := by
  obtain ⟨hd, hb, hJ, h2⟩ := h.job b _ hj
  intro _
  simp only [jobStep]
  refine ⟨_, rfl, h.move hS hj ⟨hJ, ?_⟩ (.inl rfl)⟩
  cases tail with
  | true =>
    simp only [if_true] at h2 ⊢
    obtain ⟨h3, h4, -, h6⟩ := h2
    refine ⟨h3, fun j h7 h8 q h9 h10 => ?_⟩
    by_cases hji : j = i
    · subst hji
      rcases h6 q h9 h10 with h | h
      · simp at h
      · exact h
    · exact h4 j h7 (by omega) q h9 h10
  | false =>
    simp only [Bool.false_eq_true, if_false] at h2 ⊢
    obtain ⟨h3, -, h6⟩ := h2
    have := hJ.hi
    refine ⟨by omega, fun j h7 h8 q h9 h10 => ?_⟩
    have hle := hS.blockEnd_le hb
    have := hS.le_total
    rw [hS.remap_small (by omega)] at h10
    rcases h6 q h9 (by omega) (by omega) with h | h
    · simp at h
    · exact h

theorem step_load {b st i : Nat} {tail : Bool} (hj : jobs b = some (.load st tail i)) :
    StepOK G k m jobs b (.load st tail i) := by
  obtain ⟨hd, hb, hJ, h2, h3⟩ := h.job b _ hj
  intro _
  simp only [jobStep]
  have hsh := hJ.shape (c := i) hJ.le (.inl (Nat.le_refl _))
  have hlt := hS.remap_lt (hsh.cur_ok hS h.inv (hS.blockEnd_le hb) (Nat.le_refl i))
  rw [if_pos hlt]
  refine ⟨_, rfl, h.move hS hj ⟨hJ, h2, h3, fun _ => rfl, fun hne => ?_, id⟩ (.inl rfl)⟩
  exact h.notMarked hS hj rfl hne

theorem step_mark {b st i : Nat} {tail : Bool} {curr : Cell K V}
    (hj : jobs b = some (.mark st tail i curr)) : StepOK G k m jobs b (.mark st tail i curr) := by
  obtain ⟨hd, hb, hJ, h2, h3, h4, h5, h6⟩ := h.job b _ hj
  have hle := hS.blockEnd_le hb
  have hsh := hJ.shape (c := i) hJ.le (.inl (Nat.le_refl _))
  have hok := hsh.cur_ok hS h.inv hle (Nat.le_refl i)
  have hlt := hS.remap_lt hok
  simp only [StepOK, jobStep]
  rw [if_pos hlt]
  obtain ⟨p, hp⟩ : ∃ p, G.src.M.remap i = p := ⟨_, rfl⟩
  simp only [hp] at h4 h6 hlt ⊢
  rcases mark_cases h.inv p curr h4 with ⟨t', ht, hpc, hr, hu, hfr, hc, hoth⟩ | ⟨ht, hpc, hm, hr⟩
  · -- marked
    rw [ht, hr]
    have hout : (if tail = true then
        (({ src := t', tgt := m.tgt, torn := m.torn || (!true && decide ((m.src p).c ≠ curr.c)) } :
          MMem K V), process G (blockEnd (2 ^ k) b) st true i (if true = true then i + 1 else i) curr)
        else if true = true then
        (({ src := t', tgt := m.tgt, torn := m.torn } : MMem K V),
          process G (blockEnd (2 ^ k) b) st false i (i + 1) curr)
        else (({ src := t', tgt := m.tgt, torn := m.torn } : MMem K V),
          .cont (.load st false i))) =
        (⟨t', m.tgt, m.torn⟩, process G (blockEnd (2 ^ k) b) st tail i (i + 1) curr) := by
      cases tail <;> simp
    rw [hout]
    intro _
    -- what the next program point has to satisfy
    have hgo : ∀ pc' ins', pc'.ext = some (st, i + 1, ins') ∨ (pc'.ext = some (st, i, ins') ∧
          curr.c = .empty) → i ≤ ins' → (i < ins' → ∀ key v, curr.c ≠ .live key v) → ins' ≤ i + 1 →
        JobInv G ⟨t', m.tgt, m.torn⟩ b (blockEnd (2 ^ k) b) pc' →
        Core G k ⟨t', m.tgt, m.torn⟩ (upd1 jobs b (some pc')) := by
      intro pc' ins' he hins hlive hins2 hnew
      refine h.next (tn := m.torn) hu (TLe.refl _) (fun _ _ _ _ _ _ _ _ => rfl) ⟨hd, hb⟩ hnew ?_ ?_
        (fun q x h1 _ => .inl h1) ?_ h.dom h.emp
      · intro pc0 st0 cur ins a c
        rw [hj] at a; cases a
        simp only [JobPC.ext, Option.some.injEq, Prod.mk.injEq] at c
        obtain ⟨rfl, rfl, rfl⟩ := c
        rcases he with he | ⟨he, -⟩
        · exact ⟨_, _, he, by omega, hins⟩
        · exact ⟨_, _, he, by omega, hins⟩
      · intro st' cur' ins0 ic key v a c d f
        have hi0 : st' = st ∧ ins0 = ins' := by
          rcases he with he | ⟨he, -⟩ <;> rw [he] at a <;> simp at a <;> exact ⟨a.1.symm, a.2.2.symm⟩
        obtain ⟨rfl, rfl⟩ := hi0
        by_cases hic : ic < i
        · exact .inl ⟨_, i, i, hj, rfl, hic⟩
        · exfalso
          have : ic = i := by omega
          subst this
          rw [hp, hc, hpc] at f
          exact hlive d key v f
      · intro p' a c
        by_cases hpp : p' = p
        · subst hpp
          right
          rw [hc, hpc] at c
          rcases he with he | ⟨-, he⟩
          · exact ⟨st, i + 1, ins', i, he, hJ.le, by omega, hp⟩
          · exact absurd he c
        · rw [hoth p' hpp] at a; exact .inl a
    have hJ' := hJ.upd hu
    have hphase : tail = false → i < blockEnd (2 ^ k) b := by
      intro h; simpa [h] using h2
    have hnextJ : (tail = true → curr.c ≠ .empty) →
        JCells G t' b (blockEnd (2 ^ k) b) st (i + 1) := by
      intro hne
      refine ⟨hJ'.lo, hJ'.hi, hJ'.pre, hJ'.head, by have := hJ.le; omega, ?_, ?_, hJ.zero⟩
      · intro j a c
        by_cases hji : j = i
        · subst hji; rw [hp]; exact hfr
        · exact hJ'.froz j a (by omega)
      · intro j a c
        by_cases hji : j = i
        · subst hji
          rw [hp, hc, hpc]
          cases tail with
          | true => exact hne rfl
          | false => have := hphase rfl; omega
        · exact hJ'.tailne j a (by omega)
    have hlh : (tail = true → curr.c ≠ .empty) →
        JobInv G ⟨t', m.tgt, m.torn⟩ b (blockEnd (2 ^ k) b)
          (loopHead G (blockEnd (2 ^ k) b) st tail (i + 1)) ∧
        (loopHead (V := V) G (blockEnd (2 ^ k) b) st tail (i + 1)).ext = some (st, i + 1, i + 1) := by
      intro hne
      refine loopHead_inv (m := ⟨t', m.tgt, m.torn⟩) hS hu.inv hb (hnextJ hne) ?_ ?_
      · cases tail with
        | true => simp only [if_true] at h2 ⊢; omega
        | false => simp only [Bool.false_eq_true, if_false] at h2 ⊢; omega
      · cases tail with
        | true => exact h3
        | false => exact h3
    unfold process
    by_cases hem : curr.c = .empty
    · rw [if_pos (Cell.isEmpty_iff.2 hem)]
      cases tail with
      | true =>
        simp only [if_true]
        refine ⟨_, rfl, hgo _ i (.inr ⟨rfl, hem⟩) (Nat.le_refl _) (by omega) (by omega) ?_⟩
        refine ⟨hJ', by simpa using h2, by simpa using h3, ?_, ?_⟩
        · rw [hp]; exact hfr
        · show (t' (G.src.M.remap i)).c = .empty
          rw [hp, hc, hpc, hem]
      | false =>
        simp only [Bool.false_eq_true, if_false]
        obtain ⟨h7, h8⟩ := hlh (by simp)
        exact ⟨_, rfl, hgo _ (i + 1) (.inl h8) (by omega) (fun _ key v => by rw [hem]; simp)
          (Nat.le_refl _) h7⟩
    · rw [if_neg (fun h => hem (Cell.isEmpty_iff.1 h))]
      have hmk := h5 hem
      obtain ⟨h7, h8⟩ := hlh (fun _ => hem)
      cases hcc : curr.c with
      | empty => exact absurd hcc hem
      | deleted v =>
        have hdel : curr.isDeleted = true := by simp [Cell.isDeleted, hcc, hmk]
        rw [if_pos hdel]
        exact ⟨_, rfl, hgo _ (i + 1) (.inl h8) (by omega) (fun _ key v => by rw [hcc]; simp)
          (Nat.le_refl _) h7⟩
      | live key v =>
        have hdel : curr.isDeleted = false := by simp [Cell.isDeleted, hcc]
        rw [hdel]
        simp only [Bool.false_eq_true, if_false]
        obtain ⟨i', hi', hpass⟩ := h.inv.reach p key v hlt (by rw [hpc, hcc])
        refine ⟨_, rfl, hgo _ i (.inl rfl) (Nat.le_refl _) (by omega) (by omega) ?_⟩
        refine ⟨hnextJ (fun _ => hem), ?_, i, key, v, i', 0, rfl, hJ.le, ?_, ?_, ?_, ?_, ?_, rfl, ?_, ?_⟩
        · cases tail with
          | true => exact h3
          | false => exact h3
        · cases tail with
          | true => simpa using h2
          | false => simpa using h2
        · show (t' (G.src.M.remap i)).c = _
          rw [hp, hc, hpc, hcc]
        · rw [Cell.eta curr, hcc, hmk]
        · rw [hi', hp]
        · exact hpass.evolve hu.ev
        · rw [hS.fib_zero]; exact hpass.1
        · intro d' hd'; omega
  · -- not marked
    rw [ht]
    have h22 : (atomicMark G.src.m G.upd (m.src p) curr).2.2 = false := by
      rcases hr with hr | hr <;> rw [hr]
    rw [h22]
    cases tail with
    | false =>
      simp only [Bool.false_eq_true, if_false] at h2 h3 ⊢
      intro _
      exact ⟨_, rfl, h.move hS hj ⟨hJ, h2, h3⟩ (.inl rfl)⟩
    | true =>
      simp only [if_true] at h2 h3 ⊢
      intro htn
      simp only [Bool.not_false, Bool.true_and, Bool.or_eq_false_iff, decide_eq_false_iff_not,
        ne_eq, Classical.not_not] at htn
      obtain ⟨htn0, hcc⟩ := htn
      have hnm : (m.src p).marked ≠ curr.marked := by
        intro hmm
        apply hpc
        rw [Cell.eta (m.src p), Cell.eta curr, hcc, hmm]
      have hpm : (m.src p).marked = true := by
        cases hx : (m.src p).marked with
        | true => rfl
        | false =>
          cases hy : curr.marked with
          | true => rw [h6 hy] at hx; cases hx
          | false => rw [hx, hy] at hnm; exact absurd rfl hnm
      have hem : (m.src p).c = .empty := by
        false_or_by_contra
        rename_i hne
        have := h.notMarked hS hj rfl (by rwa [hp])
        rw [hp, hpm] at this; cases this
      have hem2 : (atomicMark G.src.m G.upd (m.src p) curr).2.1.isEmpty = true := by
        rcases hr with hr | hr <;> rw [hr]
        · exact Cell.isEmpty_iff.2 hem
        · exact Cell.isEmpty_iff.2 (by rw [← hcc, hem])
      unfold process
      rw [if_pos hem2]
      simp only [if_true]
      have htt : (m.torn || (!false && decide ((m.src p).c ≠ curr.c))) = m.torn := by
        simp [hcc]
      simp only [htt]
      refine ⟨_, rfl, h.move hS hj ⟨hJ, h2, h3, .inr ?_, ?_⟩ (.inl rfl)⟩
      · rw [hp, hpm]
      · rw [hp, hem]

/-- Facts about a running insertion. -/
theorem ins_facts {b st nxt u : Nat} {tail : Bool} {x : Cell K V} {i0 i d : Nat} {key : K} {v : V}
    (hd : blockSize ∣ b) (hb : b < 2 ^ k) (hJ : JCells G m.src b (blockEnd (2 ^ k) b) st nxt)
    (hi : InsInfo G m (blockEnd (2 ^ k) b) st tail nxt u x i0 key v i d) :
    G.tgt.M.remap u < G.tgt.M.total ∧ JShape G m.src b (blockEnd (2 ^ k) b) st i0 ∧
    i % G.src.M.total = G.src.M.remap i0 ∧
    (∀ f, G.src.M.map (G.src.h key) ≤ f → ∀ j, f < j → j ≤ i →
      (m.src (j % G.src.M.total)).c ≠ .empty) ∧
    (∀ d', d' ≤ d → fiber G (G.tgt.M.remap (tHome G key + d')) = fib G key d' % G.src.M.total ∧
      G.tgt.M.remap (tHome G key + d') < G.tgt.M.total ∧
      G.src.M.map (G.src.h key) ≤ fib G key d' ∧ fib G key d' ≤ i) ∧
    ∃ j, st ≤ j ∧ j ≤ i0 ∧ fib G key d % G.src.M.total = G.src.M.remap j := by
  have hne : (m.src (G.src.M.remap i)).c ≠ .empty := by rw [hi.pos, hi.cell]; simp
  have hge : ∀ d', G.src.M.map (G.src.h key) ≤ fib G key d' := by
    intro d'
    rw [← hS.fib_zero key]; exact hS.fib_mono key (Nat.zero_le d')
  obtain ⟨hok, -⟩ := hS.chain h.inv hi.passed hne (hge 0)
  have hsh : JShape G m.src b (blockEnd (2 ^ k) b) st i0 :=
    hJ.shape hi.lo (.inl (by have := hi.nxt; omega))
  have hmod : i % G.src.M.total = G.src.M.remap i0 := by rw [← hi.pos, hS.remap_mod hok]
  have hall : ∀ d', d' ≤ d → fiber G (G.tgt.M.remap (tHome G key + d')) =
      fib G key d' % G.src.M.total ∧ G.tgt.M.remap (tHome G key + d') < G.tgt.M.total ∧
      G.src.M.map (G.src.h key) ≤ fib G key d' ∧ fib G key d' ≤ i := by
    intro d' hd'
    have hf : fib G key d' ≤ i := Nat.le_trans (hS.fib_mono key hd') hi.fib
    have hin := hS.probe_in h.inv hi.passed hne hf
    exact ⟨hS.fiber_probe key d' hin, hin, hge d', hf⟩
  have hch : ∀ f, G.src.M.map (G.src.h key) ≤ f → ∀ j, f ≤ j → j ≤ i →
      (m.src (j % G.src.M.total)).c ≠ .empty := by
    intro f hf
    exact (hS.chain h.inv hi.passed hne hf).2
  refine ⟨?_, hsh, hmod, fun f hf j h1 h2 => hch f hf j (by omega) h2, hall, ?_⟩
  · rw [hi.at_]; exact (hall d (Nat.le_refl _)).2.1
  · obtain ⟨h1, h2, h3⟩ := hsh.back hS h.inv hd hb rfl hi.lo (Nat.le_refl _) hi.fib hmod
      (hch _ (hge d))
    exact ⟨_, h2, by omega, h3⟩

theorem step_probe {b st nxt u : Nat} {tail : Bool} {x : Cell K V}
    (hj : jobs b = some (.probe st tail nxt u x)) : StepOK G k m jobs b (.probe st tail nxt u x) := by
  obtain ⟨hd, hb, hJ, hin, i0, key, v, i, d, hi⟩ := h.job b _ hj
  obtain ⟨hlt, hsh, hmod, hch, hall, j, hj1, hj2, hj3⟩ := ins_facts hS h hd hb hJ hi
  intro _
  simp only [jobStep]
  rw [if_pos hlt]
  have hnn : m.tgt (G.tgt.M.remap u) ≠ none := by
    refine hin j hj1 ?_ _ hlt ?_
    · have := hi.phase
      have := hi.nxt
      cases tail <;> simp_all <;> omega
    · rw [← hj3, hi.at_]; exact (hall d (Nat.le_refl _)).1
  cases hy : m.tgt (G.tgt.M.remap u) with
  | none => exact absurd hy hnn
  | some y =>
    by_cases hem : y.isEmpty = true
    · simp only [if_pos hem]
      exact ⟨_, rfl, h.move hS hj ⟨hJ, hin, ⟨i0, key, v, i, d, hi⟩, y, hy, Cell.isEmpty_iff.1 hem⟩
        (.inl rfl)⟩
    · simp only [if_neg hem]
      have hne : y.c ≠ .empty := fun h => hem (Cell.isEmpty_iff.2 h)
      have hinfo := h.same hS hsh hd hb hi.lo (Nat.le_refl _) hi.fib hmod
        (hch _ (hall d (Nat.le_refl _)).2.2.1) hy hne
        (by rw [hi.at_]; exact (hall d (Nat.le_refl _)).1)
      obtain ⟨pc, st2, cur, ins, ic2, n, key2, v2, h1, h2, h3, h4, h5, h6, h7, -⟩ := hinfo
      rw [hj] at h1; cases h1
      have hnx := hi.nxt
      simp only [JobPC.ext, Option.some.injEq, Prod.mk.injEq] at h2
      obtain ⟨rfl, rfl, rfl⟩ := h2
      refine ⟨_, rfl, h.move hS hj ⟨hJ, hin, i0, key, v, i, d + 1, hi.nxt, hi.lo, hi.phase, hi.cell,
        hi.copy, hi.pos, hi.passed, ?_, ?_, ?_⟩ (.inl rfl)⟩
      · rw [hi.at_]; rfl
      · have := (hS.fib_succ key d).2
        omega
      · intro d' hd'
        by_cases hdd : d' = d
        · subst hdd
          refine ⟨y, by rw [← hi.at_, hy], hne, fun w hw => ?_⟩
          rw [h6] at hw
          injection hw with hk hv
          subst hk
          have hic2 : G.src.M.cp = true ∨ ic2 < G.src.M.total := by
            rcases hsh.cur_ok hS h.inv (hS.blockEnd_le hb) (Nat.le_refl i0) with hc | hc
            · exact .inl hc
            · exact .inr (by omega)
          have heq := h.inv.unique (hS.remap_lt hic2) (hS.remap_lt
            (hsh.cur_ok hS h.inv (hS.blockEnd_le hb) (Nat.le_refl i0))) h7 hi.cell
          -- the same slot, so the same index
          have hr : G.src.M.remap i0 % G.src.M.total = G.src.M.remap i0 :=
            Nat.mod_eq_of_lt (hS.remap_lt
              (hsh.cur_ok hS h.inv (hS.blockEnd_le hb) (Nat.le_refl i0)))
          have hone : ∀ j, G.src.M.remap i0 ≤ j → j ≤ G.src.M.remap i0 →
              (m.src (j % G.src.M.total)).c ≠ .empty := by
            intro j hj1 hj2
            have : j = G.src.M.remap i0 := by omega
            subst this
            rw [hr, hi.cell]; simp
          obtain ⟨-, hn⟩ := own2 hS h.inv hsh hsh hd hb rfl hd hb rfl hi.lo (Nat.le_refl _) h3
            (by omega) (Nat.le_refl _) hr hone (Nat.le_refl _) (by rw [hr, heq]) hone rfl
          omega
        · exact hi.walked d' (by omega)

theorem step_put {b st nxt u : Nat} {tail : Bool} {x : Cell K V}
    (hj : jobs b = some (.put st tail nxt u x)) : StepOK G k m jobs b (.put st tail nxt u x) := by
  obtain ⟨hd, hb, hJ, hin, ⟨i0, key, v, i, d, hi⟩, y, hy, hye⟩ := h.job b _ hj
  obtain ⟨hlt, hsh, hmod, hch, hall, -⟩ := ins_facts hS h hd hb hJ hi
  obtain ⟨hfq, -, hge, -⟩ := hall d (Nat.le_refl _)
  have hnx := hi.nxt
  intro _
  simp only [jobStep]
  rw [if_pos hlt]
  refine ⟨_, rfl, ?_⟩
  have hxc : x.c = .live key v := by rw [hi.copy]
  have hxm : x.marked = false := by rw [hi.copy]
  have hg : TLe m.tgt (m.tgt.set (G.tgt.M.remap u) x) := by
    constructor
    · intro p z h1 h2
      by_cases hp : p = G.tgt.M.remap u
      · subst hp; rw [hy] at h1; cases h1; exact absurd hye h2
      · rw [MTbl.set_ne hp, h1]
    · intro p h1
      by_cases hp : p = G.tgt.M.remap u
      · subst hp; rw [MTbl.set_at]; simp
      · rwa [MTbl.set_ne hp]
  have hlh := loopHead_inv (m := ⟨m.src, m.tgt.set (G.tgt.M.remap u) x, m.torn⟩) (tail := tail)
    hS h.inv hb hJ (by
      have := hi.phase
      cases tail with
      | true => simp only [if_true] at this ⊢; omega
      | false => simp only [Bool.false_eq_true, if_false] at this ⊢; omega) (hin.le hg)
  refine h.next (t' := m.src) (tn := m.torn) (Upd.refl h.inv) hg ?_ ⟨hd, hb⟩ hlh.1 ?_ ?_ ?_
    (fun p h1 _ => .inl h1) ?_ ?_
  · -- nobody else is about to write here
    intro b2 st2 tl2 nxt2 u2 x2 hb2 hj2
    apply MTbl.set_ne
    intro huu
    obtain ⟨hd', hb', hJ', hin', ⟨i0', key', v', i', d', hi'⟩, -⟩ := h.job b2 _ hj2
    obtain ⟨-, hsh', hmod', -, hall', -⟩ := ins_facts hS h hd' hb' hJ' hi'
    obtain ⟨hfq', -, hge', -⟩ := hall' d' (Nat.le_refl _)
    have hne : (m.src (G.src.M.remap i)).c ≠ .empty := by rw [hi.pos, hi.cell]; simp
    have hne' : (m.src (G.src.M.remap i')).c ≠ .empty := by rw [hi'.pos, hi'.cell]; simp
    have := own2 hS h.inv hsh hsh' hd hb rfl hd' hb' rfl hi.lo (Nat.le_refl _) hi'.lo
      (Nat.le_refl _) hi.fib hmod (hS.chain h.inv hi.passed hne hge).2 hi'.fib hmod'
      (hS.chain h.inv hi'.passed hne' hge').2 (by rw [← hfq, ← hfq', ← hi.at_, ← hi'.at_, huu])
    exact hb2 this.1.symm
  · intro pc0 st0 cur ins h1 h2
    rw [hj] at h1; cases h1
    simp only [JobPC.ext, Option.some.injEq, Prod.mk.injEq] at h2
    obtain ⟨rfl, rfl, rfl⟩ := h2
    exact ⟨_, _, hlh.2, Nat.le_refl _, by omega⟩
  · intro st' cur' ins' ic key' v' h1 h2 h3 h4
    rw [hlh.2] at h1
    simp only [Option.some.injEq, Prod.mk.injEq] at h1
    obtain ⟨rfl, rfl, rfl⟩ := h1
    by_cases hic : ic < i0
    · exact .inl ⟨_, nxt, nxt - 1, hj, rfl, by omega⟩
    · have : ic = i0 := by omega
      subst this
      rw [hi.cell] at h4; cases h4
      exact .inr ⟨_, x, MTbl.set_at _ _ _, hxc⟩
  · intro q z h1 h2
    by_cases hq : q = G.tgt.M.remap u
    · subst hq
      rw [MTbl.set_at] at h1; cases h1
      refine .inr ⟨hxm, key, v, hxc, b, _, st, nxt, nxt, i0, d, i, upd1_self _ _ _, hlh.2, hi.lo,
        by omega, hi.cell, hi.pos, hi.passed, by rw [hi.at_], hi.fib, hi.walked.le hg, ?_⟩
      intro hc
      -- linear probing: the overflow in the target is not longer than in the source
      have hc' : G.tgt.M.cp = false := by rw [hS.cp, hc]
      have hcm : G.src.M.cm = false := by
        cases h : G.src.M.cm with
        | false => rfl
        | true => have := hS.combo h; simp [hc] at this
      rw [Mapper.remap_lin hc'] at hlt ⊢
      by_cases hua : u < G.tgt.M.addr
      · exact .inl hua
      · right
        have hhl := hS.home_lt key
        have hua2 := hi.at_
        by_cases hue : u = G.tgt.M.addr
        · have hi0 : i = i0 := by
            have := hi.pos
            rwa [Mapper.remap_lin hc, Mapper.remap_lin hc] at this
          have hf := hi.fib
          have e : fib G key d = u / 2 ^ g := by
            unfold fib
            rw [hcm, hS.gh, hcm]
            simp only [Bool.false_eq_true, if_false]
            rw [hua2]; rfl
          rw [e, hue, hS.addr', Nat.mul_div_cancel _ (Nat.two_pow_pos g)] at hf
          rw [hS.addr]
          omega
        · obtain ⟨dd, rfl⟩ : ∃ dd, d = dd + 1 := ⟨d - 1, by omega⟩
          obtain ⟨y2, hy2, hy2n, -⟩ := hi.walked dd (by omega)
          obtain ⟨hfq2, -, hge2, hle2⟩ := hall dd (by omega)
          obtain ⟨pc, st2, cur, ins, ic2, n, key2, v2, h3, h4, h5, h6, h7, h8, h9, h10⟩ :=
            h.same hS hsh hd hb hi.lo (Nat.le_refl _) hle2 hmod (hch _ hge2) hy2 hy2n hfq2
          rw [hj] at h3; cases h3
          simp only [JobPC.ext, Option.some.injEq, Prod.mk.injEq] at h4
          obtain ⟨rfl, rfl, rfl⟩ := h4
          have := h10 hc
          rw [Mapper.remap_lin hc'] at this
          omega
    · rw [MTbl.set_ne hq] at h1
      exact .inl h1
  · intro q h1
    by_cases hq : q = G.tgt.M.remap u
    · rw [hq]; exact hlt
    · rw [MTbl.set_ne hq] at h1; exact h.dom q h1
  · intro q z h1 h2
    by_cases hq : q = G.tgt.M.remap u
    · subst hq; rw [MTbl.set_at] at h1; cases h1; exact hxm
    · rw [MTbl.set_ne hq] at h1; exact h.emp q z h1 h2

/-- Every step of every job keeps the invariant, and none is undefined. -/
theorem step_ok {b : Nat} {pc : JobPC K V} (hj : jobs b = some pc) (he : pc.ended = false) :
    StepOK G k m jobs b pc := by
  cases pc with
  | scan i => exact step_scan hS h hj
  | scanMark i curr => exact step_scanMark hS h hj
  | fill st qs tail i =>
    cases qs with
    | nil => exact step_fillEnd hS h hj
    | cons q qs => exact step_fill hS h hj
  | load st tail i => exact step_load hS h hj
  | mark st tail i curr => exact step_mark hS h hj
  | probe st tail nxt u x => exact step_probe hS h hj
  | put st tail nxt u x => exact step_put hS h hj
  | fin st i => cases he
  | nothing => cases he

/-- Claiming a block that was not claimed before. -/
theorem start_ok {b : Nat} (hd : blockSize ∣ b) (hb : b < 2 ^ k) (hj : jobs b = none) :
    Core G k m (upd1 jobs b (some (jobStart G b (blockEnd (2 ^ k) b)))) := by
  have hbe : b < blockEnd (2 ^ k) b := by
    rw [hS.blockEnd_eq hb]; unfold blockSize; omega
  refine h.next (t' := m.src) (g' := m.tgt) (tn := m.torn) (Upd.refl h.inv) (TLe.refl _)
    (fun _ _ _ _ _ _ _ _ => rfl) ⟨hd, hb⟩ ?_ ?_ ?_ (fun q x h1 _ => .inl h1)
    (fun p h1 _ => .inl h1) h.dom h.emp
  · unfold jobStart
    by_cases hc : G.src.M.cp = true ∨ b > 0
    · rw [if_pos hc, if_pos hbe]
      exact ⟨Nat.le_refl _, hbe, fun j h1 h2 => by omega, hc⟩
    · rw [if_neg hc, if_pos hbe]
      have hcp : G.src.M.cp = false := by
        cases h : G.src.M.cp with
        | false => rfl
        | true => exact absurd (.inl h) hc
      have hb0 : b = 0 := by
        by_cases h0 : b > 0
        · exact absurd (.inr h0) hc
        · omega
      have hmem := hS.mem_initRange hbe (hS.blockEnd_le hb)
      refine ⟨⟨Nat.le_refl _, hbe, fun j h1 h2 => by omega, .inr ⟨hcp, hb0, hb0⟩, Nat.le_refl _,
        fun j h1 h2 => by omega, fun j h1 h2 => by omega, fun _ _ => hb0⟩, ?_⟩
      simp only [Bool.false_eq_true, if_false]
      exact ⟨trivial, fun q hq => (hmem q).1 hq, fun q a c d => .inl ((hmem q).2 ⟨a, c, d⟩)⟩
  · intro pc st cur ins h1
    rw [hj] at h1; cases h1
  · intro st' cur' ins' ic key v h1 h2 h3 h4
    exfalso
    unfold jobStart at h1
    by_cases hc : G.src.M.cp = true ∨ b > 0
    · rw [if_pos hc, if_pos hbe] at h1; simp [JobPC.ext] at h1
    · rw [if_neg hc, if_pos hbe] at h1
      simp only [JobPC.ext, Option.some.injEq, Prod.mk.injEq] at h1
      omega

end
end
end Growt
