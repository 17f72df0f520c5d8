import Verif.AsyncTab

/-!
# What a migration keeps without any assumption

The invariant of `MigInv.lean` describes migrations in which no copy is lost or made twice.  Here is
the part of it that survives failed marks behind the end of a block (`base_linear.hpp:1181`, see
`MMem.torn`) and sources that violate the table invariant: which slots have been marked by which
block, and that no marked element is ever copied.
-/

set_option linter.unusedSectionVars false

namespace Growt

attribute [local irreducible] blockEnd blockSize initRange initSlot

section
variable {K V : Type} [DecidableEq K] [DecidableEq V] [Inhabited V]

/-- How a table with markable slots may change. (proof, no code) -/
structure WUpd (t t' : Tbl K V) : Prop where
  ne : ∀ p, (t p).c ≠ .empty → (t' p).c ≠ .empty
  fz : ∀ p, (t p).marked = true → (t' p).marked = true ∧ ((t p).c = .empty → (t' p).c = .empty)

theorem WUpd.refl (t : Tbl K V) : WUpd t t := ⟨fun _ h => h, fun _ h => ⟨h, id⟩⟩

/-! ## Operations -/

/-- The copy with which an operation accesses a slot is not marked. (proof, no code) -/
def PcM : PC K V → Prop
  | .load _ _ => True
  | .act _ _ c => c.marked = false

theorem setMapped_marked (x : Cell K V) (v : V) : (x.setMapped v).marked = x.marked := by
  unfold Cell.setMapped; split <;> rfl

theorem setMapped_empty (x : Cell K V) (v : V) : (x.setMapped v).c = .empty ↔ x.c = .empty := by
  unfold Cell.setMapped; split <;> rename_i h <;> simp [h]

theorem afterLoad_pcm {E : Env K} {op : Op K V} {i att pos : Nat} {c : Cell K V} {pc : PC K V}
    (h : afterLoad E op i att pos c = .cont pc) : PcM pc := by
  cases hm : c.marked with
  | false =>
    cases op <;> simp only [afterLoad, hm, Bool.false_eq_true, if_false] at h <;>
      (repeat' split at h) <;> first
        | (cases h; first | exact hm | trivial)
        | (simp only [retEnd, reduceCtorEq] at h)
  | true =>
    cases op <;> simp only [afterLoad, hm, if_true] at h <;>
      (repeat' split at h) <;> first
        | (cases h; trivial)
        | (simp only [retEnd, reduceCtorEq] at h)

/-- A slot is changed: not emptied, its mark is kept, and it was not a marked empty slot. (proof, no code) -/
structure WSet (x y : Cell K V) : Prop where
  ne : x.c ≠ .empty → y.c ≠ .empty
  keep : y.marked = x.marked
  fz : x.marked = true → x.c = .empty → y.c = .empty

theorem WSet.refl (x : Cell K V) : WSet x x := ⟨id, rfl, fun _ h => h⟩

theorem WSet.mapped (x : Cell K V) (v : V) : WSet x (x.setMapped v) :=
  ⟨fun h h' => h ((setMapped_empty x v).1 h'), setMapped_marked x v,
    fun _ h => (setMapped_empty x v).2 h⟩

theorem casStep_weak {t : Tbl K V} {i att pos : Nat} {curr new : Cell K V} {r : Ret K V}
    (hc : curr.marked = false) (hn : new.marked = false) (hne : new.c ≠ .empty) :
    (∃ y, (casStep t i att pos curr new r).1 = t.set pos y ∧ WSet (t pos) y) ∧
    ∀ pc, (casStep t i att pos curr new r).2 = .cont pc → PcM pc := by
  unfold casStep
  split
  · rename_i h
    refine ⟨⟨new, rfl, fun _ => hne, by rw [hn, h, hc], fun hm => ?_⟩, fun pc h => by cases h⟩
    rw [h, hc] at hm; cases hm
  · refine ⟨⟨t pos, ?_, WSet.refl _⟩, fun pc h => by cases h; trivial⟩
    funext j
    simp only [Tbl.set]
    split
    · rename_i h; rw [h]
    · rfl

theorem actStep_weak {E : Env K} (hE : E.m = true) {op : Op K V} {i att pos : Nat} {curr : Cell K V}
    (hc : curr.marked = false) (t : Tbl K V) :
    (∃ y, (actStep E op i att pos curr t).1 = t.set pos y ∧ WSet (t pos) y) ∧
    ∀ pc, (actStep E op i att pos curr t).2 = .cont pc → PcM pc := by
  have hid : t = t.set pos (t pos) := by
    funext j
    simp only [Tbl.set]
    split
    · rename_i h; rw [h]
    · rfl
  have hu : ∀ (k : K) (f : UpdFn V), WSet (t pos) (atomicUpdate E.m k (t pos) curr f).1 := by
    intro k f
    unfold atomicUpdate
    rw [hE]
    simp only [if_true]
    split
    · rename_i h; rw [h]; exact WSet.mapped _ _
    · exact WSet.refl _
  cases op with
  | find k | locate k => exact ⟨⟨t pos, hid, WSet.refl _⟩, fun pc h => by cases h⟩
  | insert k d => exact casStep_weak hc rfl (by simp [Cell.liveCell])
  | update k f =>
    refine ⟨⟨_, rfl, hu k f⟩, fun pc h => ?_⟩
    simp only [actStep] at h
    split at h <;> cases h
    trivial
  | updateBackoff k f b =>
    refine ⟨⟨_, rfl, hu k f⟩, fun pc h => ?_⟩
    simp only [actStep] at h
    split at h
    · cases h
    · split at h
      · cases h; trivial
      · cases h
  | updateUnsafe k f => exact ⟨⟨_, rfl, WSet.mapped _ _⟩, fun pc h => by cases h⟩
  | insertOrUpdate k d f =>
    simp only [actStep]
    split
    · exact casStep_weak hc rfl (by simp [Cell.liveCell])
    · refine ⟨⟨_, rfl, hu k f⟩, fun pc h => ?_⟩
      simp only at h
      split at h <;> cases h
      trivial
  | insertOrUpdateUnsafe k d f =>
    simp only [actStep]
    split
    · exact casStep_weak hc rfl (by simp [Cell.liveCell])
    · exact ⟨⟨_, rfl, WSet.mapped _ _⟩, fun pc h => by cases h⟩
  | erase k => exact casStep_weak hc rfl (by simp [Cell.deletedCell])
  | eraseIf k d => exact casStep_weak hc rfl (by simp [Cell.deletedCell])

/-- A step of an operation on markable slots. -/
theorem step_weak {E : Env K} (hE : E.m = true) {op : Op K V} {pc : PC K V} (hpc : PcM pc) {t t' : Tbl K V}
    {out : Out K V} (h : step E op pc t = (t', out)) :
    WUpd t t' ∧ (∀ p, (t' p).marked = (t p).marked) ∧ ∀ pc', out = .cont pc' → PcM pc' := by
  have key : ∀ pos y, t' = t.set pos y → WSet (t pos) y →
      WUpd t t' ∧ ∀ p, (t' p).marked = (t p).marked := by
    intro pos y e hy
    have hp : ∀ p, WSet (t p) (t' p) := by
      intro p
      rw [e]
      simp only [Tbl.set]
      split
      · rename_i h; rw [h]; exact hy
      · exact WSet.refl _
    exact ⟨⟨fun p => (hp p).ne, fun p hm => ⟨(hp p).keep.trans hm, (hp p).fz hm⟩⟩, fun p => (hp p).keep⟩
  cases pc with
  | load i att =>
    simp only [step] at h
    split at h
    · obtain ⟨rfl, rfl⟩ := Prod.mk.inj h
      exact ⟨WUpd.refl _, fun _ => rfl, fun pc' h => afterLoad_pcm h⟩
    · obtain ⟨rfl, rfl⟩ := Prod.mk.inj h
      exact ⟨WUpd.refl _, fun _ => rfl, fun pc' h => by cases h⟩
  | act i att curr =>
    simp only [step] at h
    split at h
    · obtain ⟨⟨y, e1, e2⟩, e3⟩ := actStep_weak (op := op) (i := i) (att := att) (pos := E.M.remap i) hE hpc t
      rw [h] at e1 e3
      obtain ⟨h1, h2⟩ := key _ y e1 e2
      exact ⟨h1, h2, e3⟩
    · obtain ⟨rfl, rfl⟩ := Prod.mk.inj h
      exact ⟨WUpd.refl _, fun _ => rfl, fun pc' h => by cases h⟩

/-! ## Migration -/

theorem JCells.wupd {G : MEnv K} (hm : G.src.m = true) {t t' : Tbl K V} {b e st cur : Nat}
    (hJ : JCells G t b e st cur) (h : WUpd t t') : JCells G t' b e st cur := by
  have hf : ∀ x : Cell K V, Frozen G.src.m x → x.marked = true := by
    intro x hx
    rcases hx with hx | hx
    · rw [hm] at hx; cases hx
    · exact hx
  refine ⟨hJ.lo, hJ.hi, fun j h1 h2 => h.ne _ (hJ.pre j h1 h2), ?_, hJ.le,
    fun j h1 h2 => .inr (h.fz _ (hf _ (hJ.froz j h1 h2))).1,
    fun j h1 h2 => h.ne _ (hJ.tailne j h1 h2), hJ.zero⟩
  rcases hJ.head with ⟨h1, h2⟩ | h1
  · obtain ⟨h3, h4⟩ := h.fz _ (hf _ h2)
    exact .inl ⟨h4 h1, .inr h3⟩
  · exact .inr h1

/-- What is known about one job. (proof, no code) -/
def WJob (G : MEnv K) (t : Tbl K V) (b e : Nat) : JobPC K V → Prop
  | .scan i => b ≤ i ∧ i < e ∧ (∀ j, b ≤ j → j < i → (t j).c ≠ .empty) ∧ (G.src.M.cp = true ∨ b > 0)
  | .scanMark i curr => (b ≤ i ∧ i < e ∧ (∀ j, b ≤ j → j < i → (t j).c ≠ .empty) ∧
      (G.src.M.cp = true ∨ b > 0)) ∧ curr.c = .empty
  | .fill st _ tail i => JCells G t b e st i ∧ (if tail then e ≤ i else i < e)
  | .load st tail i => JCells G t b e st i ∧ (if tail then e ≤ i else i < e)
  | .mark st tail i curr => JCells G t b e st i ∧ (if tail then e ≤ i else i < e) ∧
      (curr.c ≠ .empty → curr.marked = false)
  | .probe st tail nxt _ x => JCells G t b e st nxt ∧ (tail = true → e ≤ nxt) ∧ x.marked = false
  | .put st tail nxt _ x => JCells G t b e st nxt ∧ (tail = true → e ≤ nxt) ∧ x.marked = false
  | .fin st i => JCells G t b e st i
  | .nothing => True

theorem WJob.wupd {G : MEnv K} (hm : G.src.m = true) {t t' : Tbl K V} {b e : Nat} {pc : JobPC K V}
    (h : WJob G t b e pc) (hu : WUpd t t') : WJob G t' b e pc := by
  cases pc with
  | scan i => exact ⟨h.1, h.2.1, fun j h1 h2 => hu.ne _ (h.2.2.1 j h1 h2), h.2.2.2⟩
  | scanMark i curr =>
    exact ⟨⟨h.1.1, h.1.2.1, fun j h1 h2 => hu.ne _ (h.1.2.2.1 j h1 h2), h.1.2.2.2⟩, h.2⟩
  | fill st qs tail i => exact ⟨h.1.wupd hm hu, h.2⟩
  | load st tail i => exact ⟨h.1.wupd hm hu, h.2⟩
  | mark st tail i curr => exact ⟨h.1.wupd hm hu, h.2⟩
  | probe st tail nxt u x => exact ⟨h.1.wupd hm hu, h.2⟩
  | put st tail nxt u x => exact ⟨h.1.wupd hm hu, h.2⟩
  | fin st i => exact JCells.wupd hm h hu
  | nothing => trivial

theorem WJob.cells {G : MEnv K} {t : Tbl K V} {b e : Nat} {pc : JobPC K V} {st cur ins : Nat}
    (h : WJob G t b e pc) (he : pc.ext = some (st, cur, ins)) : JCells G t b e st cur := by
  cases pc <;> simp only [JobPC.ext, Option.some.injEq, Prod.mk.injEq, reduceCtorEq] at he <;>
    obtain ⟨rfl, rfl, rfl⟩ := he <;> first | exact h.1 | exact h

/-- Jobs and marks of one table. (proof, no code) -/
structure WCore (G : MEnv K) (k : Nat) (t : Tbl K V) (jobs : Nat → Option (JobPC K V)) : Prop where
  job : ∀ b pc, jobs b = some pc → blockSize ∣ b ∧ b < 2 ^ k ∧ WJob G t b (blockEnd (2 ^ k) b) pc
  marks : ∀ p, (t p).marked = true → (t p).c ≠ .empty →
    ∃ b pc st cur ins ic, jobs b = some pc ∧ pc.ext = some (st, cur, ins) ∧ st ≤ ic ∧ ic < cur ∧
      G.src.M.remap ic = p

/-- The table is changed by others. -/
theorem WCore.env {G : MEnv K} (hm : G.src.m = true) {k : Nat} {t t' : Tbl K V}
    {jobs : Nat → Option (JobPC K V)} (h : WCore G k t jobs) (hu : WUpd t t')
    (hmk : ∀ p, (t' p).marked = (t p).marked) : WCore G k t' jobs := by
  refine ⟨fun b pc hj => ?_, fun p h1 h2 => ?_⟩
  · obtain ⟨h1, h2, h3⟩ := h.job b pc hj
    exact ⟨h1, h2, h3.wupd hm hu⟩
  · rw [hmk] at h1
    exact h.marks p h1 fun h3 => h2 ((hu.fz p h1).2 h3)

/-- A step of one job: everything that has to be checked. -/
theorem WCore.next {G : MEnv K} (hm : G.src.m = true) {k : Nat} {t t' : Tbl K V}
    {jobs : Nat → Option (JobPC K V)} (h : WCore G k t jobs) {b : Nat} {pc' : JobPC K V} (hu : WUpd t t')
    (hb : blockSize ∣ b ∧ b < 2 ^ k) (hnew : WJob G t' b (blockEnd (2 ^ k) b) pc')
    (hext : ∀ pc st cur ins, jobs b = some pc → pc.ext = some (st, cur, ins) →
      ∃ cur' ins', pc'.ext = some (st, cur', ins') ∧ cur ≤ cur')
    (hmarks : ∀ p, (t' p).marked = true → (t' p).c ≠ .empty → ((t p).marked = true ∧ (t p).c ≠ .empty) ∨
      ∃ st cur ins ic, pc'.ext = some (st, cur, ins) ∧ st ≤ ic ∧ ic < cur ∧ G.src.M.remap ic = p) :
    WCore G k t' (upd1 jobs b (some pc')) := by
  refine ⟨fun b2 pc hj => ?_, fun p h1 h2 => ?_⟩
  · by_cases e : b2 = b
    · subst e
      rw [upd1_self] at hj
      cases hj
      exact ⟨hb.1, hb.2, hnew⟩
    · rw [upd1_ne e] at hj
      obtain ⟨h1, h2, h3⟩ := h.job b2 pc hj
      exact ⟨h1, h2, h3.wupd hm hu⟩
  · rcases hmarks p h1 h2 with ⟨h3, h4⟩ | ⟨st, cur, ins, ic, h3, h4⟩
    · obtain ⟨b2, pc, st, cur, ins, ic, e1, e2, e3, e4, e5⟩ := h.marks p h3 h4
      by_cases e : b2 = b
      · subst e
        obtain ⟨cur', ins', f1, f2⟩ := hext pc st cur ins e1 e2
        exact ⟨b2, pc', st, cur', ins', ic, upd1_self _ _ _, f1, e3, by omega, e5⟩
      · exact ⟨b2, pc, st, cur, ins, ic, by rw [upd1_ne e]; exact e1, e2, e3, e4, e5⟩
    · exact ⟨b, pc', st, cur, ins, ic, upd1_self _ _ _, h3, h4⟩

section
variable {k : Nat}

theorem wblockEnd_eq (hk : k < 32) {b : Nat} (hb : b < 2 ^ k) : blockEnd (2 ^ k) b = min (b + blockSize) (2 ^ k) := by
  have h31 : 2 ^ k ≤ 2 ^ 31 := Nat.pow_le_pow_right (by omega) (by omega)
  unfold blockEnd blockSize
  rw [Nat.mod_eq_of_lt (by omega), Nat.mod_eq_of_lt (by omega)]

/-- Blocks do not overlap. -/
theorem wblock_sep (hk : k < 32) {b b2 : Nat} (hb : b < 2 ^ k) (hd : blockSize ∣ b) (hd2 : blockSize ∣ b2) (h : b < b2) :
    blockEnd (2 ^ k) b ≤ b2 := by
  rw [wblockEnd_eq hk hb]
  obtain ⟨c, rfl⟩ := hd
  obtain ⟨c2, rfl⟩ := hd2
  unfold blockSize at *
  omega

/-- From `2^32` slots on all blocks are empty. -/
theorem wblockEnd_zero (hk : 32 ≤ k) (b : Nat) : blockEnd (2 ^ k) b = 0 := by
  have : 2 ^ k % 2 ^ 32 = 0 := Nat.mod_eq_zero_of_dvd (Nat.pow_dvd_pow 2 hk)
  unfold blockEnd
  rw [this]
  simp

variable {G : MEnv K} (hw : G.src.M.WF k)
include hw

/-- A slot that is not empty and has been marked for one block is not the slot at which the job of a
block stands. -/
theorem WCore.notMarked {t : Tbl K V} {jobs : Nat → Option (JobPC K V)} (h : WCore G k t jobs) {b : Nat}
    {pc : JobPC K V} {st cur ins : Nat} (hj : jobs b = some pc) (he : pc.ext = some (st, cur, ins))
    (hne : (t (G.src.M.remap cur)).c ≠ .empty) : (t (G.src.M.remap cur)).marked = false := by
  cases hmk : (t (G.src.M.remap cur)).marked with
  | false => rfl
  | true =>
    exfalso
    obtain ⟨b2, pc2, st2, cur2, ins2, ic, e1, e2, e3, e4, e5⟩ := h.marks _ hmk hne
    obtain ⟨d1, l1, j1⟩ := h.job b pc hj
    obtain ⟨d2, l2, j2⟩ := h.job b2 pc2 e1
    have J := j1.cells he
    have J2 := j2.cells e2
    by_cases hk : k < 32
    case neg =>
      have := J.hi
      rw [wblockEnd_zero (by omega)] at this
      omega
    have hE := wblockEnd_eq hk l1
    have hE2 := wblockEnd_eq hk l2
    have hN : 0 < 2 ^ k := Nat.two_pow_pos k
    cases hcp : G.src.M.cp with
    | true =>
      have hr : ∀ i, G.src.M.remap i = i % 2 ^ k := hw.remap_cp hcp
      have hs : (t st).c = .empty := by
        rcases J.head with h | h
        · exact h.1
        · rw [hcp] at h; cases h.1
      have hs2 : (t st2).c = .empty := by
        rcases J2.head with h | h
        · exact h.1
        · rw [hcp] at h; cases h.1
      have := J.lo; have := J.hi; have := J.le; have := J2.lo; have := J2.hi; have := J2.le
      -- the job at `b` has not passed an empty slot
      have pass : ∀ {b e st cur x y : Nat}, JCells G t b e st cur → (t x).c = .empty → x < 2 ^ k →
          e ≤ x + y * 2 ^ k → cur ≤ x + y * 2 ^ k := by
        intro b e st cur x y J hx hlt hle
        false_or_by_contra
        have := J.tailne _ hle (by omega)
        rw [hr, Nat.add_mul_mod_self_right, Nat.mod_eq_of_lt hlt] at this
        exact this hx
      have pass0 : ∀ {b e st cur x : Nat}, JCells G t b e st cur → (t x).c = .empty → x < 2 ^ k →
          e ≤ x → cur ≤ x := by
        intro b e st cur x J hx hlt hle
        have := pass (y := 0) J hx hlt (by omega)
        omega
      have pass1 : ∀ {b e st cur x : Nat}, JCells G t b e st cur → (t x).c = .empty → x < 2 ^ k →
          e ≤ x + 2 ^ k → cur ≤ x + 2 ^ k := by
        intro b e st cur x J hx hlt hle
        have := pass (y := 1) J hx hlt (by omega)
        omega
      rw [hr] at hne
      rw [hr, hr] at e5
      have hcur : ∀ x, (t x).c = .empty → x < 2 ^ k → cur ≠ x ∧ cur ≠ x + 2 ^ k := by
        intro x hx hlt
        constructor
        · rintro rfl
          rw [Nat.mod_eq_of_lt hlt] at hne; exact hne hx
        · rintro rfl
          rw [Nat.add_mod_right, Nat.mod_eq_of_lt hlt] at hne; exact hne hx
      -- congruent indices are a multiple of the size apart
      have hcong : ic < cur → ic + 2 ^ k ≤ cur := by
        intro hlt
        have h0 := Nat.sub_mod_eq_zero_of_mod_eq e5.symm
        obtain ⟨q, hq⟩ := Nat.dvd_of_mod_eq_zero h0
        have : q ≠ 0 := by rintro rfl; omega
        have : 2 ^ k * 1 ≤ 2 ^ k * q := Nat.mul_le_mul_left _ (by omega)
        omega
      have hcong' : cur < ic → cur + 2 ^ k ≤ ic := by
        intro hlt
        have h0 := Nat.sub_mod_eq_zero_of_mod_eq e5
        obtain ⟨q, hq⟩ := Nat.dvd_of_mod_eq_zero h0
        have : q ≠ 0 := by rintro rfl; omega
        have : 2 ^ k * 1 ≤ 2 ^ k * q := Nat.mul_le_mul_left _ (by omega)
        omega
      rcases Nat.lt_trichotomy b b2 with hlt | rfl | hlt
      · have hsep := wblock_sep hk l1 d1 d2 hlt
        have p1 := pass0 J hs2 (by omega) (by omega)
        have p2 := pass1 J2 hs (by omega) (by omega)
        have p3 := (hcur st2 hs2 (by omega)).1
        have := hcong' (by omega)
        omega
      · rw [hj] at e1
        cases e1
        rw [he] at e2
        cases e2
        have p1 := pass1 J hs (by omega) (by omega)
        have p3 := (hcur st hs (by omega)).2
        have := hcong e4
        omega
      · have hsep := wblock_sep hk l2 d2 d1 hlt
        have p1 := pass0 J2 hs (by omega) (by omega)
        have p2 := pass1 J hs2 (by omega) (by omega)
        have p3 := (hcur st2 hs2 (by omega)).2
        have := hcong (by omega)
        omega
    | false =>
      have hr : ∀ i, G.src.M.remap i = i := Mapper.remap_lin hcp
      rw [hr] at hne
      rw [hr, hr] at e5
      subst e5
      have := J.lo; have := J.hi; have := J.le; have := J2.lo; have := J2.hi; have := J2.le
      have hs : b ≠ 0 → (t st).c = .empty := by
        intro hb
        rcases J.head with h | h
        · exact h.1
        · exact absurd h.2.2 hb
      have hs2 : b2 ≠ 0 → (t st2).c = .empty := by
        intro hb
        rcases J2.head with h | h
        · exact h.1
        · exact absurd h.2.2 hb
      have pass : ∀ {b e st cur x : Nat}, JCells G t b e st cur → (t x).c = .empty → e ≤ x → cur ≤ x := by
        intro b e st cur x J hx hle
        false_or_by_contra
        have := J.tailne _ hle (by omega)
        rw [hr] at this
        exact this hx
      rcases Nat.lt_trichotomy b b2 with hlt | rfl | hlt
      · have hsep := wblock_sep hk l1 d1 d2 hlt
        have h2 := hs2 (by omega)
        have p1 := pass J h2 (by omega)
        have : ic = st2 := by omega
        rw [this] at hne
        exact hne h2
      · rw [hj] at e1
        cases e1
        rw [he] at e2
        cases e2
        omega
      · have hsep := wblock_sep hk l2 d2 d1 hlt
        have h2 := hs (by omega)
        have p1 := pass J2 h2 (by omega)
        omega

/-- A step of a job keeps the invariant, and what it writes in the target is not marked. -/
theorem WCore.step (hm : G.src.m = true) {m m' : MMem K V} {jobs : Nat → Option (JobPC K V)}
    (h : WCore G k m.src jobs) {b : Nat} {pc pc' : JobPC K V} (hj : jobs b = some pc)
    (hst : jobStep G (blockEnd (2 ^ k) b) pc m = (m', .cont pc')) :
    WCore G k m'.src (upd1 jobs b (some pc')) ∧
      (∀ q x, m'.tgt q = some x → m.tgt q = some x ∨ x.marked = false) ∧
      (∀ q, (m'.src q).c = (m.src q).c) := by
  obtain ⟨hd, hb, hi⟩ := h.job b pc hj
  have hsame : ∀ q x, m.tgt q = some x → m.tgt q = some x ∨ x.marked = false := fun q x h => .inl h
  have hset : ∀ (pos : Nat) (y : Cell K V), y.marked = false → ∀ q x, m.tgt.set pos y q = some x →
      m.tgt q = some x ∨ x.marked = false := by
    intro pos y hy q x hx
    simp only [MTbl.set] at hx
    split at hx
    · cases hx; exact .inr hy
    · exact .inl hx
  -- steps that leave the source alone
  have move : ∀ pc', WJob G m.src b (blockEnd (2 ^ k) b) pc' →
      (∀ st cur ins, pc.ext = some (st, cur, ins) → ∃ cur' ins', pc'.ext = some (st, cur', ins') ∧ cur ≤ cur') →
      WCore G k m.src (upd1 jobs b (some pc')) := by
    intro pc' hn he
    refine h.next hm (WUpd.refl _) ⟨hd, hb⟩ hn ?_ (fun p h1 h2 => .inl ⟨h1, h2⟩)
    intro pc0 st cur ins e1 e2
    rw [hj] at e1; cases e1
    exact he st cur ins e2
  have hcont : ∀ q, (m'.src q).c = (m.src q).c := by
    intro q
    have := jobStep_content G (blockEnd (2 ^ k) b) pc m q
    rw [hst] at this
    exact this
  -- marking a slot
  have hupd : ∀ pos (x : Cell K V), m.src pos = x → WUpd m.src (m.src.set pos x.mark) := by
    rintro pos x rfl
    refine ⟨fun p hp => ?_, fun p hp => ?_⟩ <;> simp only [Tbl.set] <;> split
    · rename_i e; rw [← e]; exact hp
    · exact hp
    · rename_i e; rw [← e]; exact ⟨rfl, id⟩
    · exact ⟨hp, id⟩
  have hid : ∀ pos, m.src.set pos (m.src pos) = m.src := by
    intro pos
    funext j
    simp only [Tbl.set]
    split
    · rename_i e; rw [e]
    · rfl
  cases pc with
  | scan i =>
    simp only [jobStep] at hst
    split at hst
    · split at hst
      · rename_i hem
        cases hst
        exact ⟨move _ ⟨hi, Cell.isEmpty_iff.1 hem⟩ (fun _ _ _ e => by cases e), hsame, hcont⟩
      · rename_i hem
        cases hst
        refine ⟨?_, hsame, hcont⟩
        obtain ⟨h1, h2, h3, h4⟩ := hi
        split
        · rename_i hlt
          refine move _ ⟨by omega, hlt, fun j a c => ?_, h4⟩ (fun _ _ _ e => by cases e)
          by_cases e : j = i
          · subst e; exact fun h => hem (Cell.isEmpty_iff.2 h)
          · exact h3 j a (by omega)
        · exact move _ trivial (fun _ _ _ e => by cases e)
    · cases hst
  | scanMark i curr =>
    obtain ⟨⟨h1, h2, h3, h4⟩, h5⟩ := hi
    simp only [jobStep] at hst
    split at hst
    · by_cases hx : m.src i = curr
      · have hr : atomicMark G.src.m G.upd (m.src i) curr = (curr.mark, curr, true) := by
          simp [atomicMark, hm, hx]
        rw [hr] at hst
        simp only [if_true] at hst
        cases hst
        have hu := hupd i curr hx
        refine ⟨h.next hm hu ⟨hd, hb⟩ ?_ ?_ ?_, hsame, hcont⟩
        · refine ⟨⟨h1, h2, fun j a c => hu.ne _ (h3 j a c), .inl ?_, Nat.le_refl _, fun j a c => by omega,
            fun j a c => by omega, fun a c => ?_⟩, by simpa using h2⟩
          · simp only [Tbl.set, if_true]
            exact ⟨h5, .inr rfl⟩
          · rcases h4 with h4 | h4
            · rw [a] at h4; cases h4
            · omega
        · intro pc0 st cur ins e1 e2
          rw [hj] at e1; cases e1
          cases e2
        · intro p a c
          simp only [Tbl.set] at a c
          split at a
          · rw [if_pos (by assumption)] at c; exact absurd h5 c
          · rw [if_neg (by assumption)] at c; exact .inl ⟨a, c⟩
      · have hr : (atomicMark G.src.m G.upd (m.src i) curr).1 = m.src i ∧
            (atomicMark G.src.m G.upd (m.src i) curr).2.2 = false := by
          simp [atomicMark, hm, hx]
        rw [hr.1, hr.2, hid] at hst
        simp only [Bool.false_eq_true, if_false] at hst
        cases hst
        exact ⟨move _ ⟨h1, h2, h3, h4⟩ (fun _ _ _ e => by cases e), hsame, hcont⟩
    · cases hst
  | fill st qs tail i =>
    cases qs with
    | nil =>
      simp only [jobStep] at hst
      cases hst
      exact ⟨move _ hi (fun _ _ _ e => by cases e; exact ⟨_, _, rfl, Nat.le_refl _⟩), hsame, hcont⟩
    | cons q qs =>
      simp only [jobStep] at hst
      split at hst
      · cases hst
        exact ⟨move _ hi (fun _ _ _ e => by cases e; exact ⟨_, _, rfl, Nat.le_refl _⟩), hset _ _ rfl, hcont⟩
      · cases hst
  | load st tail i =>
    simp only [jobStep] at hst
    split at hst
    · cases hst
      refine ⟨move _ ⟨hi.1, hi.2, fun hne => ?_⟩ (fun _ _ _ e => by cases e; exact ⟨_, _, rfl, Nat.le_refl _⟩),
        hsame, hcont⟩
      exact h.notMarked hw hj rfl hne
    · cases hst
  | mark st tail i curr =>
    obtain ⟨hJ, h2, h5⟩ := hi
    simp only [jobStep] at hst
    split at hst
    case isFalse => cases hst
    rename_i hpos
    -- where the job continues
    have hlh : ∀ t' nxt, JCells G t' b (blockEnd (2 ^ k) b) st nxt → (tail = true → blockEnd (2 ^ k) b ≤ nxt) →
        WJob G t' b (blockEnd (2 ^ k) b) (loopHead (V := V) G (blockEnd (2 ^ k) b) st tail nxt) ∧
        (loopHead (V := V) G (blockEnd (2 ^ k) b) st tail nxt).ext = some (st, nxt, nxt) := by
      intro t' nxt hJ' hn
      unfold loopHead
      split
      · rename_i hc; exact ⟨⟨hJ', by simpa using hc.2⟩, rfl⟩
      · rename_i hc
        refine ⟨⟨hJ', ?_⟩, rfl⟩
        simp only [if_true]
        cases tail with
        | true => exact hn rfl
        | false => simp at hc; exact hc
    by_cases hx : m.src (G.src.M.remap i) = curr
    · have hr : atomicMark G.src.m G.upd (m.src (G.src.M.remap i)) curr = (curr.mark, curr, true) := by
        simp [atomicMark, hm, hx]
      rw [hr] at hst
      have hu := hupd _ curr hx
      have hself : m.src.set (G.src.M.remap i) curr.mark (G.src.M.remap i) = curr.mark := by
        simp [Tbl.set]
      have hJ' := hJ.wupd hm hu
      have hnextJ : (tail = true → curr.c ≠ .empty) →
          JCells G (m.src.set (G.src.M.remap i) curr.mark) b (blockEnd (2 ^ k) b) st (i + 1) := by
        intro hne
        refine ⟨hJ'.lo, hJ'.hi, hJ'.pre, hJ'.head, by have := hJ.le; omega, ?_, ?_, hJ.zero⟩
        · intro j a c
          by_cases hji : j = i
          · subst hji; rw [hself]; exact .inr rfl
          · exact hJ'.froz j a (by omega)
        · intro j a c
          by_cases hji : j = i
          · subst hji
            rw [hself]
            cases tail with
            | true => exact hne rfl
            | false => simp at h2; omega
          · exact hJ'.tailne j a (by omega)
      -- every continuation
      have hgo : ∀ pc' ins', (pc'.ext = some (st, i + 1, ins') ∨ (pc'.ext = some (st, i, ins') ∧ curr.c = .empty)) →
          WJob G (m.src.set (G.src.M.remap i) curr.mark) b (blockEnd (2 ^ k) b) pc' →
          WCore G k (m.src.set (G.src.M.remap i) curr.mark) (upd1 jobs b (some pc')) := by
        intro pc' ins' he hn
        refine h.next hm hu ⟨hd, hb⟩ hn ?_ ?_
        · intro pc0 st0 cur ins a c
          rw [hj] at a; cases a
          cases c
          rcases he with he | ⟨he, -⟩
          · exact ⟨_, _, he, by omega⟩
          · exact ⟨_, _, he, by omega⟩
        · intro p a c
          by_cases e : p = G.src.M.remap i
          · subst e
            rw [hself] at c
            rcases he with he | ⟨-, he⟩
            · exact .inr ⟨st, i + 1, ins', i, he, hJ.le, by omega, rfl⟩
            · exact absurd he c
          · simp only [Tbl.set, if_neg e] at a c
            exact .inl ⟨a, c⟩
      have hproc : process G (blockEnd (2 ^ k) b) st tail i (i + 1) curr = .cont pc' →
          WCore G k (m.src.set (G.src.M.remap i) curr.mark) (upd1 jobs b (some pc')) := by
        intro hp
        unfold process at hp
        by_cases hem : curr.c = .empty
        · rw [if_pos (Cell.isEmpty_iff.2 hem)] at hp
          cases tail with
          | true =>
            simp only [if_true] at hp
            cases hp
            exact hgo _ i (.inr ⟨rfl, hem⟩) hJ'
          | false =>
            simp only [Bool.false_eq_true, if_false] at hp
            cases hp
            obtain ⟨h7, h8⟩ := hlh _ _ (hnextJ (by simp)) (by simp)
            exact hgo _ _ (.inl h8) h7
        · rw [if_neg (fun h => hem (Cell.isEmpty_iff.1 h))] at hp
          have hge : tail = true → blockEnd (2 ^ k) b ≤ i + 1 := by
            rintro rfl; simp at h2; omega
          split at hp
          · cases hp
            obtain ⟨h7, h8⟩ := hlh _ _ (hnextJ (fun _ => hem)) hge
            exact hgo _ _ (.inl h8) h7
          · split at hp
            · cases hp
              exact hgo _ _ (.inl rfl) ⟨hnextJ (fun _ => hem), hge, h5 hem⟩
            · cases hp
      cases tail with
      | true =>
        simp only [if_true] at hst
        obtain ⟨e1, e2⟩ := Prod.mk.inj hst
        subst e1
        exact ⟨hproc e2, hsame, hcont⟩
      | false =>
        simp only [Bool.false_eq_true, if_false, if_true] at hst
        obtain ⟨e1, e2⟩ := Prod.mk.inj hst
        subst e1
        exact ⟨hproc e2, hsame, hcont⟩
    · obtain ⟨c', hr, hc'⟩ : ∃ c', atomicMark G.src.m G.upd (m.src (G.src.M.remap i)) curr =
          (m.src (G.src.M.remap i), c', false) ∧ (c' = m.src (G.src.M.remap i) ∨ c' = curr) := by
        refine ⟨if G.upd then m.src (G.src.M.remap i) else curr, by simp [atomicMark, hm, hx], ?_⟩
        split
        · exact .inl rfl
        · exact .inr rfl
      rw [hr] at hst
      cases tail with
      | false =>
        simp only [Bool.false_eq_true, if_false, hid] at hst
        cases hst
        exact ⟨move _ ⟨hJ, h2⟩ (fun _ _ _ e => by cases e; exact ⟨_, _, rfl, Nat.le_refl _⟩), hsame, hcont⟩
      | true =>
        simp only [if_true, Bool.false_eq_true, if_false, hid] at hst
        obtain ⟨e1, e2⟩ := Prod.mk.inj hst
        subst e1
        refine ⟨?_, hsame, hcont⟩
        have hmv : ∀ pc'' ins', pc''.ext = some (st, i, ins') → WJob G m.src b (blockEnd (2 ^ k) b) pc'' →
            WCore G k m.src (upd1 jobs b (some pc'')) := by
          intro pc'' ins' he hn
          exact move _ hn (fun _ _ _ e => by cases e; exact ⟨_, _, he, Nat.le_refl _⟩)
        have hge : blockEnd (2 ^ k) b ≤ i := by simpa using h2
        unfold process at e2
        split at e2
        · simp only [if_true] at e2
          cases e2
          exact hmv _ _ rfl hJ
        · rename_i hem
          split at e2
          · cases e2
            obtain ⟨h7, h8⟩ := hlh _ _ hJ (fun _ => hge)
            exact hmv _ _ h8 h7
          · split at e2
            · cases e2
              refine hmv _ _ rfl ⟨hJ, fun _ => hge, ?_⟩
              have hem' : c'.c ≠ .empty := fun h => hem (Cell.isEmpty_iff.2 h)
              rcases hc' with e | e
              · rw [e] at hem' ⊢
                exact h.notMarked hw hj rfl hem'
              · rw [e] at hem' ⊢
                exact h5 hem'
            · cases e2
  | probe st tail i u x =>
    simp only [jobStep] at hst
    split at hst
    · split at hst
      · cases hst
      · cases hst
        refine ⟨?_, hsame, hcont⟩
        split
        · exact move _ hi (fun _ _ _ e => by cases e; exact ⟨_, _, rfl, Nat.le_refl _⟩)
        · exact move _ hi (fun _ _ _ e => by cases e; exact ⟨_, _, rfl, Nat.le_refl _⟩)
    · cases hst
  | put st tail i u x =>
    obtain ⟨hJ, hge, hx⟩ := hi
    simp only [jobStep] at hst
    split at hst
    · cases hst
      refine ⟨?_, hset _ _ hx, hcont⟩
      unfold loopHead
      split
      · rename_i hc
        exact move _ ⟨hJ, by simpa using hc.2⟩ (fun _ _ _ e => by cases e; exact ⟨_, _, rfl, Nat.le_refl _⟩)
      · rename_i hc
        refine move _ ⟨hJ, ?_⟩ (fun _ _ _ e => by cases e; exact ⟨_, _, rfl, Nat.le_refl _⟩)
        simp only [if_true]
        cases tail with
        | true => exact hge rfl
        | false => simp at hc; exact hc
    · cases hst
  | fin st i =>
    simp only [jobStep] at hst
    cases hst
    exact ⟨move _ hi (fun _ _ _ e => ⟨_, _, e, Nat.le_refl _⟩), hsame, hcont⟩
  | nothing =>
    simp only [jobStep] at hst
    cases hst
    exact ⟨move _ hi (fun _ _ _ e => ⟨_, _, e, Nat.le_refl _⟩), hsame, hcont⟩

/-- A new job. -/
theorem WCore.start (hm : G.src.m = true) {t : Tbl K V} {jobs : Nat → Option (JobPC K V)}
    (h : WCore G k t jobs) {b : Nat} (hd : blockSize ∣ b) (hb : b < 2 ^ k) (hj : jobs b = none) :
    WCore G k t (upd1 jobs b (some (jobStart G b (blockEnd (2 ^ k) b)))) := by
  refine h.next hm (WUpd.refl _) ⟨hd, hb⟩ ?_ ?_ (fun p h1 h2 => .inl ⟨h1, h2⟩)
  · unfold jobStart
    split
    · rename_i hc
      split
      · exact ⟨Nat.le_refl _, by assumption, fun j a c => by omega, hc⟩
      · trivial
    · rename_i hc
      split
      · rename_i hlt
        refine ⟨⟨Nat.le_refl _, hlt, fun j a c => by omega, .inr ⟨?_, by omega, by omega⟩, Nat.le_refl _,
          fun j a c => by omega, fun j a c => by omega, fun _ h => h⟩, by simpa using hlt⟩
        cases hcp : G.src.M.cp
        · rfl
        · exact absurd (.inl hcp) hc
      · trivial
  · intro pc st cur ins e
    rw [hj] at e; cases e

end
end
end Growt
