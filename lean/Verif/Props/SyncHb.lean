import Verif.SyncHb

/-!
# C69: synchronised growth, operations happen before the migration and the migration before later operations
-/

set_option linter.unusedSectionVars false

namespace Growt
namespace Sync
section
variable {T A : Type} [DecidableEq T] [DecidableEq A]

/-- No data race on the tables: a thread in an operation on a table knows its construction, the migration of all
blocks into it, and all operations on earlier tables; a thread that migrates a block of a table knows all
operations on this table, the construction of the new table, and what users of the old table know; a thread
about to delete a table knows all operations on it and all migrated blocks of it.
(specification, no code) -/
def HSt.Safe (x : HSt T A) : Prop :=
  (∀ t h a v, x.s.pc t = .op h a v → ∀ k, x.b.done k = true →
    (∀ w, k = .made w → w ≤ v) → (∀ w i c, k = .op w i c → w < v) → (∀ w j i, k = .blk w j i → w < v) →
    x.b.know t k = true) ∧
  (∀ t h c a v b j, x.s.pc t = .mg5 h c a v b j → ∀ k, x.b.done k = true →
    (∀ w, k = .made w → w ≤ v + 1) → (∀ w i c, k = .op w i c → w ≤ v) → (∀ w j i, k = .blk w j i → w < v) →
    x.b.know t k = true) ∧
  ∀ t h a v, x.s.pc t = .gr14 h a v → ∀ k, x.b.done k = true →
    (∀ w, k = .made w → w ≤ v + 1) → (∀ w i c, k = .op w i c → w ≤ v) → (∀ w j i, k = .blk w j i → w ≤ v) →
    x.b.know t k = true

/-- **C69**: in every execution, whatever the other orders are (moved-from handles are not destroyed while the
new handle is in use: see C28 for what happens then). -/
theorem C69_sync_accesses_ordered_partial {o : Orders} (ho : o.Ok) {a : A} {n : Nat} {x : HSt T A}
    (h : HReach o a n x) : x.Safe := by
  have hi := HInv.reach ho h
  refine ⟨fun t hd a v hp k hk h1 h2 h3 => hi.need t k hk ?_, fun t hd c a v b j hp k hk h1 h2 h3 => hi.need t k hk ?_,
    fun t hd a v hp k hk h1 h2 h3 => hi.need t k hk ?_⟩ <;> rw [hp]
  · cases k with
    | made w => exact h1 w rfl
    | op w i c => exact h2 w i c rfl
    | blk w j i => exact h3 w j i rfl
  · refine .inl ?_
    cases k with
    | made w =>
      have := h1 w rfl
      by_cases e : w = v + 1
      · exact .inr (.inl (by rw [e]))
      · exact .inl (by simp only [Tok.ver]; omega)
    | op w i c =>
      have := h2 w i c rfl
      by_cases e : w = v
      · exact .inr (.inr ⟨i, c, by rw [e]⟩)
      · exact .inl (by simp only [Tok.ver]; omega)
    | blk w j i => have := h3 w j i rfl; exact .inl (by simp only [Tok.ver]; omega)
  · show k.ver ≤ v + 1
    cases k with
    | made w => exact h1 w rfl
    | op w i c => have := h2 w i c rfl; simp only [Tok.ver]; omega
    | blk w j i => have := h3 w j i rfl; simp only [Tok.ver]; omega

/-- **C69**: the accesses that have not happened yet are not in the way: while a block is migrated nobody is in an
operation, and when a table is about to be deleted nobody operates on it or migrates a block from or to it. -/
theorem C69_sync_no_accesses_left_partial {a : A} {n : Nat} {s : St T A} (h : Reach false a n s) :
    (∀ t t' hd c x v y k hd' x' v', s.pc t = .mg5 hd c x v y k → s.pc t' ≠ .op hd' x' v') ∧
    ∀ t hd x v, s.pc t = .gr14 hd x v →
      (∀ t' hd' x' v', s.pc t' = .op hd' x' v' → x' ≠ x) ∧
      ∀ t' hd' c x' v' y k, s.pc t' = .mg5 hd' c x' v' y k → x' ≠ x ∧ y ≠ x := by
  have hi := h.inv
  constructor
  · intro t t' hd c x v y k hd' x' v' hp hq
    have h1 := hi.core t
    have h2 := hi.core t'
    rw [hp] at h1
    rw [hq] at h2
    exact (hi.mig_epoch h1.1).2.2.2 _ _ h2.2.1
  · intro t hd x v hp
    have h1 := hi.core t
    rw [hp] at h1
    obtain ⟨⟨o, p1, p2, p3⟩, p4, p5, p6⟩ := h1
    constructor
    · rintro t' hd' x' v' hq rfl
      have h2 := hi.core t'
      rw [hq] at h2
      rcases h2.2.1 with h3 | ⟨h3, -⟩
      · exact p4 h3
      · exact p5 h3
    · intro t' hd' c x' v' y k hq
      have h2 := hi.core t'
      rw [hq] at h2
      have h3 := h2.1
      have hg := hi.glob
      have hy : ∀ o', s.heap y = some o' → o'.fresh → y ≠ x := by
        rintro o' q1 q2 rfl
        rw [p1] at q1; cases q1
        exact p3.1 q2.1
      unfold St.migOK at h3
      unfold Glob St.two at hg
      cases hph : s.phase <;> simp only [hph] at h3 hg
      case migrating =>
        obtain ⟨rfl, rfl, rfl⟩ := h3
        obtain ⟨-, -, -, -, o', q1, -, q2⟩ := hg
        exact ⟨fun e => p6 (by rw [hph, ← e]; rfl), hy o' q1 q2⟩
      case drained =>
        obtain ⟨rfl, rfl, rfl⟩ := h3
        obtain ⟨-, -, -, -, o', q1, -, q2⟩ := hg
        exact ⟨fun e => p6 (by rw [hph, ← e]; rfl), hy o' q1 q2⟩
      case nulled =>
        obtain ⟨rfl, rfl, rfl⟩ := h3
        obtain ⟨-, -, -, -, o', q1, -, q2⟩ := hg
        exact ⟨fun e => p6 (by rw [hph, ← e]; rfl), hy o' q1 q2⟩
      case waitMig =>
        obtain ⟨⟨rfl, rfl, rfl⟩, -⟩ := h3
        obtain ⟨-, -, -, -, o', q1, -, q2⟩ := hg
        exact ⟨fun e => p6 (by rw [hph, ← e]; rfl), hy o' q1 q2⟩

/-- Two threads at `p` and `q`. (specification, no code) -/
def at2 (p q : PC Nat) (t : Bool) : PC Nat := match t with | true => p | false => q

/-- A step of one of two threads. -/
theorem go {o : Orders} {s s' : St Bool Nat} {b : HB Bool} {l : Lbl Bool Nat} {p p' P Q : PC Nat}
    (r : HReach o 0 1 ⟨s, b⟩) (t : Bool) (hs : Step false s l s') (h : s'.pc (!t) = s.pc (!t)) (hp : s.pc t = p)
    (hp' : s'.pc t = p') (hP : s'.pc true = P) (hQ : s'.pc false = Q) :
    HReach o 0 1 ⟨⟨s'.table, s'.epoch, s'.heap, s'.used, s'.ops, s'.mig, s'.last, at2 P Q, s'.phase⟩,
      eff o b t p p'⟩ := by
  have r' := r.step (.one t hs (fun t' ht => by
    cases t <;> cases t' <;> first
      | exact absurd rfl ht
      | exact h))
  simp only [hp, hp'] at r'
  have e : at2 P Q = s'.pc := by
    funext t'
    cases t'
    · exact hQ.symm
    · exact hP.symm
  rw [e]
  exact r'

/-- An execution in which thread `false` finishes an operation, and thread `true` then grows the table and
migrates its block. -/
theorem ex_ops (o : Orders) : ∃ x : HSt Bool Nat, HReach o 0 1 x ∧ x.s.pc true = .mg5 ⟨0, false⟩ (.grow 0 0 1) 0 0 1 0 ∧
    x.b.done (.op 0 1 0) = true ∧
    (o = { codeOrders with opsSt := false } ∨ o = { codeOrders with opsLd := false } →
      x.b.know true (.op 0 1 0) = false) ∧
    (o = codeOrders → x.b.know true (.op 0 1 0) = true) := by
  have r0 : HReach (T := Bool) o (0 : Nat) 1 ⟨⟨.clear 0, -1, (upd (fun _ => none) 0 (some ⟨0, none, 0, 1⟩)), (fun _ => false), (fun _ => none), (fun _ => none), 0, at2 (.out) (.out), .quiet⟩, HB.init⟩ := by
    have := HReach.init (T := Bool) (o := o) (a := (0 : Nat)) (n := 1)
    have e : (St.init 0 1 : St Bool Nat) = ⟨.clear 0, -1, (upd (fun _ => none) 0 (some ⟨0, none, 0, 1⟩)), (fun _ => false), (fun _ => none), (fun _ => none), 0, at2 (.out) (.out), .quiet⟩ := by
      have : at2 .out .out = fun _ => PC.out (A := Nat) := by funext t; cases t <;> rfl
      rw [this]; rfl
    rw [← e]; exact this
  have r1 : HReach o 0 1 ⟨⟨.clear 0, -1, (upd (fun _ => none) 0 (some ⟨0, none, 0, 1⟩)), (fun _ => false), (fun _ => none), (fun _ => none), 0, at2 (.reg 0) (.out), .quiet⟩, eff o _ true (.out) (.reg 0)⟩ :=
    go r0 true (Step.create (t := true) rfl) rfl rfl rfl rfl rfl
  have r2 : HReach o 0 1 ⟨⟨.clear 0, -1, (upd (fun _ => none) 0 (some ⟨0, none, 0, 1⟩)), (fun _ => false), (fun _ => none), (fun _ => none), 0, at2 (.regTry 0) (.out), .quiet⟩, eff o _ true (.reg 0) (.regTry 0)⟩ :=
    go r1 true (Step.regFree (t := true) rfl (show 0 < maxHandles by decide) rfl) rfl rfl rfl rfl rfl
  have r3 : HReach o 0 1 ⟨⟨.clear 0, -1, (upd (fun _ => none) 0 (some ⟨0, none, 0, 1⟩)), (upd (fun _ => false) 0 true), (fun _ => none), (fun _ => none), 0, at2 (.regLast 0) (.out), .quiet⟩, eff o _ true (.regTry 0) (.regLast 0)⟩ :=
    go r2 true (Step.reserve (t := true) rfl rfl) rfl rfl rfl rfl rfl
  have r4 : HReach o 0 1 ⟨⟨.clear 0, -1, (upd (fun _ => none) 0 (some ⟨0, none, 0, 1⟩)), (upd (fun _ => false) 0 true), (fun _ => none), (fun _ => none), 0, at2 (.regCas 0 0) (.out), .quiet⟩, eff o _ true (.regLast 0) (.regCas 0 0)⟩ :=
    go r3 true (Step.regLoad (t := true) rfl) rfl rfl rfl rfl rfl
  have r5 : HReach o 0 1 ⟨⟨.clear 0, -1, (upd (fun _ => none) 0 (some ⟨0, none, 0, 1⟩)), (upd (fun _ => false) 0 true), (fun _ => none), (fun _ => none), 1, at2 (.regCas 0 0) (.out), .quiet⟩, eff o _ true (.regCas 0 0) (.regCas 0 0)⟩ :=
    go r4 true (Step.regCas (t := true) rfl (Nat.le_refl 0) rfl) rfl rfl rfl rfl rfl
  have r6 : HReach o 0 1 ⟨⟨.clear 0, -1, (upd (fun _ => none) 0 (some ⟨0, none, 0, 1⟩)), (upd (fun _ => false) 0 true), (fun _ => none), (fun _ => none), 1, at2 (.regCas 0 1) (.out), .quiet⟩, eff o _ true (.regCas 0 0) (.regCas 0 1)⟩ :=
    go r5 true (Step.regCasFail (t := true) rfl (Nat.le_refl 0)) rfl rfl rfl rfl rfl
  have r7 : HReach o 0 1 ⟨⟨.clear 0, -1, (upd (fun _ => none) 0 (some ⟨0, none, 0, 1⟩)), (upd (fun _ => false) 0 true), (fun _ => none), (fun _ => none), 1, at2 (.idle ⟨0, false⟩) (.out), .quiet⟩, eff o _ true (.regCas 0 1) (.idle ⟨0, false⟩)⟩ :=
    go r6 true (Step.regEnd (t := true) rfl (Nat.not_succ_le_self 0)) rfl rfl rfl rfl rfl
  have r8 : HReach o 0 1 ⟨⟨.clear 0, -1, (upd (fun _ => none) 0 (some ⟨0, none, 0, 1⟩)), (upd (fun _ => false) 0 true), (fun _ => none), (fun _ => none), 1, at2 (.idle ⟨0, false⟩) (.reg 0), .quiet⟩, eff o _ false (.out) (.reg 0)⟩ :=
    go r7 false (Step.create (t := false) rfl) rfl rfl rfl rfl rfl
  have r9 : HReach o 0 1 ⟨⟨.clear 0, -1, (upd (fun _ => none) 0 (some ⟨0, none, 0, 1⟩)), (upd (fun _ => false) 0 true), (fun _ => none), (fun _ => none), 1, at2 (.idle ⟨0, false⟩) (.reg 1), .quiet⟩, eff o _ false (.reg 0) (.reg 1)⟩ :=
    go r8 false (Step.regUsed (t := false) rfl (show 0 < maxHandles by decide) rfl) rfl rfl rfl rfl rfl
  have r10 : HReach o 0 1 ⟨⟨.clear 0, -1, (upd (fun _ => none) 0 (some ⟨0, none, 0, 1⟩)), (upd (fun _ => false) 0 true), (fun _ => none), (fun _ => none), 1, at2 (.idle ⟨0, false⟩) (.regTry 1), .quiet⟩, eff o _ false (.reg 1) (.regTry 1)⟩ :=
    go r9 false (Step.regFree (t := false) rfl (show 1 < maxHandles by decide) rfl) rfl rfl rfl rfl rfl
  have r11 : HReach o 0 1 ⟨⟨.clear 0, -1, (upd (fun _ => none) 0 (some ⟨0, none, 0, 1⟩)), (upd (upd (fun _ => false) 0 true) 1 true), (fun _ => none), (fun _ => none), 1, at2 (.idle ⟨0, false⟩) (.regLast 1), .quiet⟩, eff o _ false (.regTry 1) (.regLast 1)⟩ :=
    go r10 false (Step.reserve (t := false) rfl rfl) rfl rfl rfl rfl rfl
  have r12 : HReach o 0 1 ⟨⟨.clear 0, -1, (upd (fun _ => none) 0 (some ⟨0, none, 0, 1⟩)), (upd (upd (fun _ => false) 0 true) 1 true), (fun _ => none), (fun _ => none), 1, at2 (.idle ⟨0, false⟩) (.regCas 1 1), .quiet⟩, eff o _ false (.regLast 1) (.regCas 1 1)⟩ :=
    go r11 false (Step.regLoad (t := false) rfl) rfl rfl rfl rfl rfl
  have r13 : HReach o 0 1 ⟨⟨.clear 0, -1, (upd (fun _ => none) 0 (some ⟨0, none, 0, 1⟩)), (upd (upd (fun _ => false) 0 true) 1 true), (fun _ => none), (fun _ => none), 2, at2 (.idle ⟨0, false⟩) (.regCas 1 1), .quiet⟩, eff o _ false (.regCas 1 1) (.regCas 1 1)⟩ :=
    go r12 false (Step.regCas (t := false) rfl (Nat.le_refl 1) rfl) rfl rfl rfl rfl rfl
  have r14 : HReach o 0 1 ⟨⟨.clear 0, -1, (upd (fun _ => none) 0 (some ⟨0, none, 0, 1⟩)), (upd (upd (fun _ => false) 0 true) 1 true), (fun _ => none), (fun _ => none), 2, at2 (.idle ⟨0, false⟩) (.regCas 1 2), .quiet⟩, eff o _ false (.regCas 1 1) (.regCas 1 2)⟩ :=
    go r13 false (Step.regCasFail (t := false) rfl (Nat.le_refl 1)) rfl rfl rfl rfl rfl
  have r15 : HReach o 0 1 ⟨⟨.clear 0, -1, (upd (fun _ => none) 0 (some ⟨0, none, 0, 1⟩)), (upd (upd (fun _ => false) 0 true) 1 true), (fun _ => none), (fun _ => none), 2, at2 (.idle ⟨0, false⟩) (.idle ⟨1, false⟩), .quiet⟩, eff o _ false (.regCas 1 2) (.idle ⟨1, false⟩)⟩ :=
    go r14 false (Step.regEnd (t := false) rfl (Nat.not_succ_le_self 1)) rfl rfl rfl rfl rfl
  have r16 : HReach o 0 1 ⟨⟨.clear 0, -1, (upd (fun _ => none) 0 (some ⟨0, none, 0, 1⟩)), (upd (upd (fun _ => false) 0 true) 1 true), (fun _ => none), (fun _ => none), 2, at2 (.idle ⟨0, false⟩) (.gt1 ⟨1, false⟩), .quiet⟩, eff o _ false (.idle ⟨1, false⟩) (.gt1 ⟨1, false⟩)⟩ :=
    go r15 false (Step.call (t := false) rfl) rfl rfl rfl rfl rfl
  have r17 : HReach o 0 1 ⟨⟨.clear 0, -1, (upd (fun _ => none) 0 (some ⟨0, none, 0, 1⟩)), (upd (upd (fun _ => false) 0 true) 1 true), (fun _ => none), (fun _ => none), 2, at2 (.idle ⟨0, false⟩) (.gt2 ⟨1, false⟩ 0), .quiet⟩, eff o _ false (.gt1 ⟨1, false⟩) (.gt2 ⟨1, false⟩ 0)⟩ :=
    go r16 false (Step.gtLoad (t := false) rfl rfl) rfl rfl rfl rfl rfl
  have r18 : HReach o 0 1 ⟨⟨.clear 0, -1, (upd (fun _ => none) 0 (some ⟨0, none, 0, 1⟩)), (upd (upd (fun _ => false) 0 true) 1 true), (upd (fun _ => none) 1 (some 0)), (fun _ => none), 2, at2 (.idle ⟨0, false⟩) (.gt3 ⟨1, false⟩ 0), .quiet⟩, eff o _ false (.gt2 ⟨1, false⟩ 0) (.gt3 ⟨1, false⟩ 0)⟩ :=
    go r17 false (Step.gtStore (t := false) rfl) rfl rfl rfl rfl rfl
  have r19 : HReach o 0 1 ⟨⟨.clear 0, -1, (upd (fun _ => none) 0 (some ⟨0, none, 0, 1⟩)), (upd (upd (fun _ => false) 0 true) 1 true), (upd (fun _ => none) 1 (some 0)), (fun _ => none), 2, at2 (.idle ⟨0, false⟩) (.op ⟨1, false⟩ 0 0), .quiet⟩, eff o _ false (.gt3 ⟨1, false⟩ 0) (.op ⟨1, false⟩ 0 0)⟩ :=
    go r18 false (Step.gtSame (t := false) rfl rfl rfl) rfl rfl rfl rfl rfl
  have r20 : HReach o 0 1 ⟨⟨.clear 0, -1, (upd (fun _ => none) 0 (some ⟨0, none, 0, 1⟩)), (upd (upd (fun _ => false) 0 true) 1 true), (upd (upd (fun _ => none) 1 (some 0)) 1 none), (fun _ => none), 2, at2 (.idle ⟨0, false⟩) (.idle ⟨1, false⟩), .quiet⟩, eff o _ false (.op ⟨1, false⟩ 0 0) (.idle ⟨1, false⟩)⟩ :=
    go r19 false (Step.opEnd (t := false) (h := ⟨1, false⟩) (a := 0) (v := 0) rfl .plain) rfl rfl rfl rfl rfl
  have r21 : HReach o 0 1 ⟨⟨.clear 0, -1, (upd (fun _ => none) 0 (some ⟨0, none, 0, 1⟩)), (upd (upd (fun _ => false) 0 true) 1 true), (upd (upd (fun _ => none) 1 (some 0)) 1 none), (fun _ => none), 2, at2 (.gt1 ⟨0, false⟩) (.idle ⟨1, false⟩), .quiet⟩, eff o _ true (.idle ⟨0, false⟩) (.gt1 ⟨0, false⟩)⟩ :=
    go r20 true (Step.call (t := true) rfl) rfl rfl rfl rfl rfl
  have r22 : HReach o 0 1 ⟨⟨.clear 0, -1, (upd (fun _ => none) 0 (some ⟨0, none, 0, 1⟩)), (upd (upd (fun _ => false) 0 true) 1 true), (upd (upd (fun _ => none) 1 (some 0)) 1 none), (fun _ => none), 2, at2 (.gt2 ⟨0, false⟩ 0) (.idle ⟨1, false⟩), .quiet⟩, eff o _ true (.gt1 ⟨0, false⟩) (.gt2 ⟨0, false⟩ 0)⟩ :=
    go r21 true (Step.gtLoad (t := true) rfl rfl) rfl rfl rfl rfl rfl
  have r23 : HReach o 0 1 ⟨⟨.clear 0, -1, (upd (fun _ => none) 0 (some ⟨0, none, 0, 1⟩)), (upd (upd (fun _ => false) 0 true) 1 true), (upd (upd (upd (fun _ => none) 1 (some 0)) 1 none) 0 (some 0)), (fun _ => none), 2, at2 (.gt3 ⟨0, false⟩ 0) (.idle ⟨1, false⟩), .quiet⟩, eff o _ true (.gt2 ⟨0, false⟩ 0) (.gt3 ⟨0, false⟩ 0)⟩ :=
    go r22 true (Step.gtStore (t := true) rfl) rfl rfl rfl rfl rfl
  have r24 : HReach o 0 1 ⟨⟨.clear 0, -1, (upd (fun _ => none) 0 (some ⟨0, none, 0, 1⟩)), (upd (upd (fun _ => false) 0 true) 1 true), (upd (upd (upd (fun _ => none) 1 (some 0)) 1 none) 0 (some 0)), (fun _ => none), 2, at2 (.op ⟨0, false⟩ 0 0) (.idle ⟨1, false⟩), .quiet⟩, eff o _ true (.gt3 ⟨0, false⟩ 0) (.op ⟨0, false⟩ 0 0)⟩ :=
    go r23 true (Step.gtSame (t := true) rfl rfl rfl) rfl rfl rfl rfl rfl
  have r25 : HReach o 0 1 ⟨⟨.clear 0, -1, (upd (fun _ => none) 0 (some ⟨0, none, 0, 1⟩)), (upd (upd (fun _ => false) 0 true) 1 true), (upd (upd (upd (upd (fun _ => none) 1 (some 0)) 1 none) 0 (some 0)) 0 none), (fun _ => none), 2, at2 (.gr1 ⟨0, false⟩ 0) (.idle ⟨1, false⟩), .quiet⟩, eff o _ true (.op ⟨0, false⟩ 0 0) (.gr1 ⟨0, false⟩ 0)⟩ :=
    go r24 true (Step.opEnd (t := true) (h := ⟨0, false⟩) (a := 0) (v := 0) rfl .grow) rfl rfl rfl rfl rfl
  have r26 : HReach o 0 1 ⟨⟨.clear 0, -1, (upd (fun _ => none) 0 (some ⟨0, none, 0, 1⟩)), (upd (upd (fun _ => false) 0 true) 1 true), (upd (upd (upd (upd (fun _ => none) 1 (some 0)) 1 none) 0 (some 0)) 0 none), (fun _ => none), 2, at2 (.gr2 ⟨0, false⟩ 0 (-1)) (.idle ⟨1, false⟩), .quiet⟩, eff o _ true (.gr1 ⟨0, false⟩ 0) (.gr2 ⟨0, false⟩ 0 (-1))⟩ :=
    go r25 true (Step.grEpoch (t := true) rfl) rfl rfl rfl rfl rfl
  have r27 : HReach o 0 1 ⟨⟨.clear 0, 0, (upd (fun _ => none) 0 (some ⟨0, none, 0, 1⟩)), (upd (upd (fun _ => false) 0 true) 1 true), (upd (upd (upd (upd (fun _ => none) 1 (some 0)) 1 none) 0 (some 0)) 0 none), (fun _ => none), 2, at2 (.gr3 ⟨0, false⟩) (.idle ⟨1, false⟩), .begun⟩, eff o _ true (.gr2 ⟨0, false⟩ 0 (-1)) (.gr3 ⟨0, false⟩)⟩ :=
    go r26 true (Step.grCas (t := true) rfl (show (-1 : Int) < 0 by decide) rfl) rfl rfl rfl rfl rfl
  have r28 : HReach o 0 1 ⟨⟨.clear 0, 0, (upd (fun _ => none) 0 (some ⟨0, none, 0, 1⟩)), (upd (upd (fun _ => false) 0 true) 1 true), (upd (upd (upd (upd (fun _ => none) 1 (some 0)) 1 none) 0 (some 0)) 0 none), (fun _ => none), 2, at2 (.gr4 ⟨0, false⟩ 0 0) (.idle ⟨1, false⟩), .begun⟩, eff o _ true (.gr3 ⟨0, false⟩) (.gr4 ⟨0, false⟩ 0 0)⟩ :=
    go r27 true (Step.grLoad (t := true) rfl rfl rfl) rfl rfl rfl rfl rfl
  have r29 : HReach o 0 1 ⟨⟨.mark 0, 0, (upd (fun _ => none) 0 (some ⟨0, none, 0, 1⟩)), (upd (upd (fun _ => false) 0 true) 1 true), (upd (upd (upd (upd (fun _ => none) 1 (some 0)) 1 none) 0 (some 0)) 0 none), (fun _ => none), 2, at2 (.gr5 ⟨0, false⟩ 0 0) (.idle ⟨1, false⟩), .marked 0 0⟩, eff o _ true (.gr4 ⟨0, false⟩ 0 0) (.gr5 ⟨0, false⟩ 0 0)⟩ :=
    go r28 true (Step.grMark (t := true) rfl rfl) rfl rfl rfl rfl rfl
  have r30 : HReach o 0 1 ⟨⟨.mark 0, 0, (upd (upd (fun _ => none) 0 (some ⟨0, none, 0, 1⟩)) 1 (some ⟨1, none, 0, 1⟩)), (upd (upd (fun _ => false) 0 true) 1 true), (upd (upd (upd (upd (fun _ => none) 1 (some 0)) 1 none) 0 (some 0)) 0 none), (fun _ => none), 2, at2 (.gr6 ⟨0, false⟩ 0 0 1) (.idle ⟨1, false⟩), .made 0 0 1⟩, eff o _ true (.gr5 ⟨0, false⟩ 0 0) (.gr6 ⟨0, false⟩ 0 0 1)⟩ :=
    go r29 true (Step.grMake (t := true) (b := 1) 1 rfl rfl rfl) rfl rfl rfl rfl rfl
  have r31 : HReach o 0 1 ⟨⟨.mark 0, 0, (upd (upd (fun _ => none) 0 (some ⟨0, none, 0, 1⟩)) 1 (some ⟨1, none, 0, 1⟩)), (upd (upd (fun _ => false) 0 true) 1 true), (upd (upd (upd (upd (fun _ => none) 1 (some 0)) 1 none) 0 (some 0)) 0 none), (fun _ => none), 2, at2 (.gr7 ⟨0, false⟩ 0 0 1 2 0) (.idle ⟨1, false⟩), .waitOps 0 0 1 2 0⟩, eff o _ true (.gr6 ⟨0, false⟩ 0 0 1) (.gr7 ⟨0, false⟩ 0 0 1 2 0)⟩ :=
    go r30 true (Step.grOps (t := true) rfl) rfl rfl rfl rfl rfl
  have r32 : HReach o 0 1 ⟨⟨.mark 0, 0, (upd (upd (fun _ => none) 0 (some ⟨0, none, 0, 1⟩)) 1 (some ⟨1, none, 0, 1⟩)), (upd (upd (fun _ => false) 0 true) 1 true), (upd (upd (upd (upd (fun _ => none) 1 (some 0)) 1 none) 0 (some 0)) 0 none), (fun _ => none), 2, at2 (.gr7 ⟨0, false⟩ 0 0 1 2 1) (.idle ⟨1, false⟩), .waitOps 0 0 1 2 1⟩, eff o _ true (.gr7 ⟨0, false⟩ 0 0 1 2 0) (.gr7 ⟨0, false⟩ 0 0 1 2 1)⟩ :=
    go r31 true (Step.grOpsNext (t := true) rfl (show 0 < 2 by decide) (show (none : Option Nat) ≠ some 0 from nofun)) rfl rfl rfl rfl rfl
  have r33 : HReach o 0 1 ⟨⟨.mark 0, 0, (upd (upd (fun _ => none) 0 (some ⟨0, none, 0, 1⟩)) 1 (some ⟨1, none, 0, 1⟩)), (upd (upd (fun _ => false) 0 true) 1 true), (upd (upd (upd (upd (fun _ => none) 1 (some 0)) 1 none) 0 (some 0)) 0 none), (fun _ => none), 2, at2 (.gr7 ⟨0, false⟩ 0 0 1 2 2) (.idle ⟨1, false⟩), .waitOps 0 0 1 2 2⟩, eff o _ true (.gr7 ⟨0, false⟩ 0 0 1 2 1) (.gr7 ⟨0, false⟩ 0 0 1 2 2)⟩ :=
    go r32 true (Step.grOpsNext (t := true) rfl (show 1 < 2 by decide) (show (none : Option Nat) ≠ some 0 from nofun)) rfl rfl rfl rfl rfl
  have r34 : HReach o 0 1 ⟨⟨.mark 0, 0, (upd (upd (fun _ => none) 0 (some ⟨0, none, 0, 1⟩)) 1 (some ⟨1, none, 0, 1⟩)), (upd (upd (fun _ => false) 0 true) 1 true), (upd (upd (upd (upd (fun _ => none) 1 (some 0)) 1 none) 0 (some 0)) 0 none), (fun _ => none), 2, at2 (.gr8 ⟨0, false⟩ 0 0 1) (.idle ⟨1, false⟩), .ready 0 0 1⟩, eff o _ true (.gr7 ⟨0, false⟩ 0 0 1 2 2) (.gr8 ⟨0, false⟩ 0 0 1)⟩ :=
    go r33 true (Step.grOpsEnd (t := true) rfl (Nat.lt_irrefl 2)) rfl rfl rfl rfl rfl
  have r35 : HReach o 0 1 ⟨⟨.mark 0, 0, (upd (upd (upd (fun _ => none) 0 (some ⟨0, none, 0, 1⟩)) 1 (some ⟨1, none, 0, 1⟩)) 0 (some ⟨0, some 1, 0, 1⟩)), (upd (upd (fun _ => false) 0 true) 1 true), (upd (upd (upd (upd (fun _ => none) 1 (some 0)) 1 none) 0 (some 0)) 0 none), (fun _ => none), 2, at2 (.mg1 ⟨0, false⟩ (.grow 0 0 1)) (.idle ⟨1, false⟩), .migrating 0 0 1⟩, eff o _ true (.gr8 ⟨0, false⟩ 0 0 1) (.mg1 ⟨0, false⟩ (.grow 0 0 1))⟩ :=
    go r34 true (Step.grNext (t := true) rfl rfl) rfl rfl rfl rfl rfl
  have r36 : HReach o 0 1 ⟨⟨.mark 0, 0, (upd (upd (upd (fun _ => none) 0 (some ⟨0, none, 0, 1⟩)) 1 (some ⟨1, none, 0, 1⟩)) 0 (some ⟨0, some 1, 0, 1⟩)), (upd (upd (fun _ => false) 0 true) 1 true), (upd (upd (upd (upd (fun _ => none) 1 (some 0)) 1 none) 0 (some 0)) 0 none), (fun _ => none), 2, at2 (.mg2 ⟨0, false⟩ (.grow 0 0 1) 0 0) (.idle ⟨1, false⟩), .migrating 0 0 1⟩, eff o _ true (.mg1 ⟨0, false⟩ (.grow 0 0 1)) (.mg2 ⟨0, false⟩ (.grow 0 0 1) 0 0)⟩ :=
    go r35 true (Step.mgLoad (t := true) rfl rfl rfl) rfl rfl rfl rfl rfl
  have r37 : HReach o 0 1 ⟨⟨.mark 0, 0, (upd (upd (upd (fun _ => none) 0 (some ⟨0, none, 0, 1⟩)) 1 (some ⟨1, none, 0, 1⟩)) 0 (some ⟨0, some 1, 0, 1⟩)), (upd (upd (fun _ => false) 0 true) 1 true), (upd (upd (upd (upd (fun _ => none) 1 (some 0)) 1 none) 0 (some 0)) 0 none), (upd (fun _ => none) 0 (some 0)), 2, at2 (.mg3 ⟨0, false⟩ (.grow 0 0 1) 0 0) (.idle ⟨1, false⟩), .migrating 0 0 1⟩, eff o _ true (.mg2 ⟨0, false⟩ (.grow 0 0 1) 0 0) (.mg3 ⟨0, false⟩ (.grow 0 0 1) 0 0)⟩ :=
    go r36 true (Step.mgStore (t := true) rfl) rfl rfl rfl rfl rfl
  have r38 : HReach o 0 1 ⟨⟨.mark 0, 0, (upd (upd (upd (fun _ => none) 0 (some ⟨0, none, 0, 1⟩)) 1 (some ⟨1, none, 0, 1⟩)) 0 (some ⟨0, some 1, 0, 1⟩)), (upd (upd (fun _ => false) 0 true) 1 true), (upd (upd (upd (upd (fun _ => none) 1 (some 0)) 1 none) 0 (some 0)) 0 none), (upd (fun _ => none) 0 (some 0)), 2, at2 (.mg4 ⟨0, false⟩ (.grow 0 0 1) 0 0 1) (.idle ⟨1, false⟩), .migrating 0 0 1⟩, eff o _ true (.mg3 ⟨0, false⟩ (.grow 0 0 1) 0 0) (.mg4 ⟨0, false⟩ (.grow 0 0 1) 0 0 1)⟩ :=
    go r37 true (Step.mgNext (t := true) rfl rfl rfl rfl) rfl rfl rfl rfl rfl
  have r39 : HReach o 0 1 ⟨⟨.mark 0, 0, (upd (upd (upd (upd (fun _ => none) 0 (some ⟨0, none, 0, 1⟩)) 1 (some ⟨1, none, 0, 1⟩)) 0 (some ⟨0, some 1, 0, 1⟩)) 0 (some ⟨0, some 1, 1, 1⟩)), (upd (upd (fun _ => false) 0 true) 1 true), (upd (upd (upd (upd (fun _ => none) 1 (some 0)) 1 none) 0 (some 0)) 0 none), (upd (fun _ => none) 0 (some 0)), 2, at2 (.mg5 ⟨0, false⟩ (.grow 0 0 1) 0 0 1 0) (.idle ⟨1, false⟩), .migrating 0 0 1⟩, eff o _ true (.mg4 ⟨0, false⟩ (.grow 0 0 1) 0 0 1) (.mg5 ⟨0, false⟩ (.grow 0 0 1) 0 0 1 0)⟩ :=
    go r38 true (Step.mgClaim (t := true) rfl rfl rfl (Nat.lt_succ_self 0)) rfl rfl rfl rfl rfl
  refine ⟨_, r39, rfl, rfl, ?_, ?_⟩
  · rintro (rfl | rfl) <;> decide
  · rintro rfl; decide

/-- An execution in which thread `true` grows the table and thread `false` helps to migrate it. -/
theorem ex_next (o : Orders) : ∃ x : HSt Bool Nat, HReach o 0 1 x ∧ x.s.pc false = .mg5 ⟨1, false⟩ .help 0 0 1 0 ∧
    x.b.done (.made 1) = true ∧
    (o = { codeOrders with nextX := false } ∨ o = { codeOrders with nextLd := false } →
      x.b.know false (.made 1) = false) ∧
    (o = codeOrders → x.b.know false (.made 1) = true) := by
  have r0 : HReach (T := Bool) o (0 : Nat) 1 ⟨⟨.clear 0, -1, (upd (fun _ => none) 0 (some ⟨0, none, 0, 1⟩)), (fun _ => false), (fun _ => none), (fun _ => none), 0, at2 (.out) (.out), .quiet⟩, HB.init⟩ := by
    have := HReach.init (T := Bool) (o := o) (a := (0 : Nat)) (n := 1)
    have e : (St.init 0 1 : St Bool Nat) = ⟨.clear 0, -1, (upd (fun _ => none) 0 (some ⟨0, none, 0, 1⟩)), (fun _ => false), (fun _ => none), (fun _ => none), 0, at2 (.out) (.out), .quiet⟩ := by
      have : at2 .out .out = fun _ => PC.out (A := Nat) := by funext t; cases t <;> rfl
      rw [this]; rfl
    rw [← e]; exact this
  have r1 : HReach o 0 1 ⟨⟨.clear 0, -1, (upd (fun _ => none) 0 (some ⟨0, none, 0, 1⟩)), (fun _ => false), (fun _ => none), (fun _ => none), 0, at2 (.reg 0) (.out), .quiet⟩, eff o _ true (.out) (.reg 0)⟩ :=
    go r0 true (Step.create (t := true) rfl) rfl rfl rfl rfl rfl
  have r2 : HReach o 0 1 ⟨⟨.clear 0, -1, (upd (fun _ => none) 0 (some ⟨0, none, 0, 1⟩)), (fun _ => false), (fun _ => none), (fun _ => none), 0, at2 (.regTry 0) (.out), .quiet⟩, eff o _ true (.reg 0) (.regTry 0)⟩ :=
    go r1 true (Step.regFree (t := true) rfl (show 0 < maxHandles by decide) rfl) rfl rfl rfl rfl rfl
  have r3 : HReach o 0 1 ⟨⟨.clear 0, -1, (upd (fun _ => none) 0 (some ⟨0, none, 0, 1⟩)), (upd (fun _ => false) 0 true), (fun _ => none), (fun _ => none), 0, at2 (.regLast 0) (.out), .quiet⟩, eff o _ true (.regTry 0) (.regLast 0)⟩ :=
    go r2 true (Step.reserve (t := true) rfl rfl) rfl rfl rfl rfl rfl
  have r4 : HReach o 0 1 ⟨⟨.clear 0, -1, (upd (fun _ => none) 0 (some ⟨0, none, 0, 1⟩)), (upd (fun _ => false) 0 true), (fun _ => none), (fun _ => none), 0, at2 (.regCas 0 0) (.out), .quiet⟩, eff o _ true (.regLast 0) (.regCas 0 0)⟩ :=
    go r3 true (Step.regLoad (t := true) rfl) rfl rfl rfl rfl rfl
  have r5 : HReach o 0 1 ⟨⟨.clear 0, -1, (upd (fun _ => none) 0 (some ⟨0, none, 0, 1⟩)), (upd (fun _ => false) 0 true), (fun _ => none), (fun _ => none), 1, at2 (.regCas 0 0) (.out), .quiet⟩, eff o _ true (.regCas 0 0) (.regCas 0 0)⟩ :=
    go r4 true (Step.regCas (t := true) rfl (Nat.le_refl 0) rfl) rfl rfl rfl rfl rfl
  have r6 : HReach o 0 1 ⟨⟨.clear 0, -1, (upd (fun _ => none) 0 (some ⟨0, none, 0, 1⟩)), (upd (fun _ => false) 0 true), (fun _ => none), (fun _ => none), 1, at2 (.regCas 0 1) (.out), .quiet⟩, eff o _ true (.regCas 0 0) (.regCas 0 1)⟩ :=
    go r5 true (Step.regCasFail (t := true) rfl (Nat.le_refl 0)) rfl rfl rfl rfl rfl
  have r7 : HReach o 0 1 ⟨⟨.clear 0, -1, (upd (fun _ => none) 0 (some ⟨0, none, 0, 1⟩)), (upd (fun _ => false) 0 true), (fun _ => none), (fun _ => none), 1, at2 (.idle ⟨0, false⟩) (.out), .quiet⟩, eff o _ true (.regCas 0 1) (.idle ⟨0, false⟩)⟩ :=
    go r6 true (Step.regEnd (t := true) rfl (Nat.not_succ_le_self 0)) rfl rfl rfl rfl rfl
  have r8 : HReach o 0 1 ⟨⟨.clear 0, -1, (upd (fun _ => none) 0 (some ⟨0, none, 0, 1⟩)), (upd (fun _ => false) 0 true), (fun _ => none), (fun _ => none), 1, at2 (.idle ⟨0, false⟩) (.reg 0), .quiet⟩, eff o _ false (.out) (.reg 0)⟩ :=
    go r7 false (Step.create (t := false) rfl) rfl rfl rfl rfl rfl
  have r9 : HReach o 0 1 ⟨⟨.clear 0, -1, (upd (fun _ => none) 0 (some ⟨0, none, 0, 1⟩)), (upd (fun _ => false) 0 true), (fun _ => none), (fun _ => none), 1, at2 (.idle ⟨0, false⟩) (.reg 1), .quiet⟩, eff o _ false (.reg 0) (.reg 1)⟩ :=
    go r8 false (Step.regUsed (t := false) rfl (show 0 < maxHandles by decide) rfl) rfl rfl rfl rfl rfl
  have r10 : HReach o 0 1 ⟨⟨.clear 0, -1, (upd (fun _ => none) 0 (some ⟨0, none, 0, 1⟩)), (upd (fun _ => false) 0 true), (fun _ => none), (fun _ => none), 1, at2 (.idle ⟨0, false⟩) (.regTry 1), .quiet⟩, eff o _ false (.reg 1) (.regTry 1)⟩ :=
    go r9 false (Step.regFree (t := false) rfl (show 1 < maxHandles by decide) rfl) rfl rfl rfl rfl rfl
  have r11 : HReach o 0 1 ⟨⟨.clear 0, -1, (upd (fun _ => none) 0 (some ⟨0, none, 0, 1⟩)), (upd (upd (fun _ => false) 0 true) 1 true), (fun _ => none), (fun _ => none), 1, at2 (.idle ⟨0, false⟩) (.regLast 1), .quiet⟩, eff o _ false (.regTry 1) (.regLast 1)⟩ :=
    go r10 false (Step.reserve (t := false) rfl rfl) rfl rfl rfl rfl rfl
  have r12 : HReach o 0 1 ⟨⟨.clear 0, -1, (upd (fun _ => none) 0 (some ⟨0, none, 0, 1⟩)), (upd (upd (fun _ => false) 0 true) 1 true), (fun _ => none), (fun _ => none), 1, at2 (.idle ⟨0, false⟩) (.regCas 1 1), .quiet⟩, eff o _ false (.regLast 1) (.regCas 1 1)⟩ :=
    go r11 false (Step.regLoad (t := false) rfl) rfl rfl rfl rfl rfl
  have r13 : HReach o 0 1 ⟨⟨.clear 0, -1, (upd (fun _ => none) 0 (some ⟨0, none, 0, 1⟩)), (upd (upd (fun _ => false) 0 true) 1 true), (fun _ => none), (fun _ => none), 2, at2 (.idle ⟨0, false⟩) (.regCas 1 1), .quiet⟩, eff o _ false (.regCas 1 1) (.regCas 1 1)⟩ :=
    go r12 false (Step.regCas (t := false) rfl (Nat.le_refl 1) rfl) rfl rfl rfl rfl rfl
  have r14 : HReach o 0 1 ⟨⟨.clear 0, -1, (upd (fun _ => none) 0 (some ⟨0, none, 0, 1⟩)), (upd (upd (fun _ => false) 0 true) 1 true), (fun _ => none), (fun _ => none), 2, at2 (.idle ⟨0, false⟩) (.regCas 1 2), .quiet⟩, eff o _ false (.regCas 1 1) (.regCas 1 2)⟩ :=
    go r13 false (Step.regCasFail (t := false) rfl (Nat.le_refl 1)) rfl rfl rfl rfl rfl
  have r15 : HReach o 0 1 ⟨⟨.clear 0, -1, (upd (fun _ => none) 0 (some ⟨0, none, 0, 1⟩)), (upd (upd (fun _ => false) 0 true) 1 true), (fun _ => none), (fun _ => none), 2, at2 (.idle ⟨0, false⟩) (.idle ⟨1, false⟩), .quiet⟩, eff o _ false (.regCas 1 2) (.idle ⟨1, false⟩)⟩ :=
    go r14 false (Step.regEnd (t := false) rfl (Nat.not_succ_le_self 1)) rfl rfl rfl rfl rfl
  have r16 : HReach o 0 1 ⟨⟨.clear 0, -1, (upd (fun _ => none) 0 (some ⟨0, none, 0, 1⟩)), (upd (upd (fun _ => false) 0 true) 1 true), (fun _ => none), (fun _ => none), 2, at2 (.gt1 ⟨0, false⟩) (.idle ⟨1, false⟩), .quiet⟩, eff o _ true (.idle ⟨0, false⟩) (.gt1 ⟨0, false⟩)⟩ :=
    go r15 true (Step.call (t := true) rfl) rfl rfl rfl rfl rfl
  have r17 : HReach o 0 1 ⟨⟨.clear 0, -1, (upd (fun _ => none) 0 (some ⟨0, none, 0, 1⟩)), (upd (upd (fun _ => false) 0 true) 1 true), (fun _ => none), (fun _ => none), 2, at2 (.gt2 ⟨0, false⟩ 0) (.idle ⟨1, false⟩), .quiet⟩, eff o _ true (.gt1 ⟨0, false⟩) (.gt2 ⟨0, false⟩ 0)⟩ :=
    go r16 true (Step.gtLoad (t := true) rfl rfl) rfl rfl rfl rfl rfl
  have r18 : HReach o 0 1 ⟨⟨.clear 0, -1, (upd (fun _ => none) 0 (some ⟨0, none, 0, 1⟩)), (upd (upd (fun _ => false) 0 true) 1 true), (upd (fun _ => none) 0 (some 0)), (fun _ => none), 2, at2 (.gt3 ⟨0, false⟩ 0) (.idle ⟨1, false⟩), .quiet⟩, eff o _ true (.gt2 ⟨0, false⟩ 0) (.gt3 ⟨0, false⟩ 0)⟩ :=
    go r17 true (Step.gtStore (t := true) rfl) rfl rfl rfl rfl rfl
  have r19 : HReach o 0 1 ⟨⟨.clear 0, -1, (upd (fun _ => none) 0 (some ⟨0, none, 0, 1⟩)), (upd (upd (fun _ => false) 0 true) 1 true), (upd (fun _ => none) 0 (some 0)), (fun _ => none), 2, at2 (.op ⟨0, false⟩ 0 0) (.idle ⟨1, false⟩), .quiet⟩, eff o _ true (.gt3 ⟨0, false⟩ 0) (.op ⟨0, false⟩ 0 0)⟩ :=
    go r18 true (Step.gtSame (t := true) rfl rfl rfl) rfl rfl rfl rfl rfl
  have r20 : HReach o 0 1 ⟨⟨.clear 0, -1, (upd (fun _ => none) 0 (some ⟨0, none, 0, 1⟩)), (upd (upd (fun _ => false) 0 true) 1 true), (upd (upd (fun _ => none) 0 (some 0)) 0 none), (fun _ => none), 2, at2 (.gr1 ⟨0, false⟩ 0) (.idle ⟨1, false⟩), .quiet⟩, eff o _ true (.op ⟨0, false⟩ 0 0) (.gr1 ⟨0, false⟩ 0)⟩ :=
    go r19 true (Step.opEnd (t := true) (h := ⟨0, false⟩) (a := 0) (v := 0) rfl .grow) rfl rfl rfl rfl rfl
  have r21 : HReach o 0 1 ⟨⟨.clear 0, -1, (upd (fun _ => none) 0 (some ⟨0, none, 0, 1⟩)), (upd (upd (fun _ => false) 0 true) 1 true), (upd (upd (fun _ => none) 0 (some 0)) 0 none), (fun _ => none), 2, at2 (.gr2 ⟨0, false⟩ 0 (-1)) (.idle ⟨1, false⟩), .quiet⟩, eff o _ true (.gr1 ⟨0, false⟩ 0) (.gr2 ⟨0, false⟩ 0 (-1))⟩ :=
    go r20 true (Step.grEpoch (t := true) rfl) rfl rfl rfl rfl rfl
  have r22 : HReach o 0 1 ⟨⟨.clear 0, 0, (upd (fun _ => none) 0 (some ⟨0, none, 0, 1⟩)), (upd (upd (fun _ => false) 0 true) 1 true), (upd (upd (fun _ => none) 0 (some 0)) 0 none), (fun _ => none), 2, at2 (.gr3 ⟨0, false⟩) (.idle ⟨1, false⟩), .begun⟩, eff o _ true (.gr2 ⟨0, false⟩ 0 (-1)) (.gr3 ⟨0, false⟩)⟩ :=
    go r21 true (Step.grCas (t := true) rfl (show (-1 : Int) < 0 by decide) rfl) rfl rfl rfl rfl rfl
  have r23 : HReach o 0 1 ⟨⟨.clear 0, 0, (upd (fun _ => none) 0 (some ⟨0, none, 0, 1⟩)), (upd (upd (fun _ => false) 0 true) 1 true), (upd (upd (fun _ => none) 0 (some 0)) 0 none), (fun _ => none), 2, at2 (.gr4 ⟨0, false⟩ 0 0) (.idle ⟨1, false⟩), .begun⟩, eff o _ true (.gr3 ⟨0, false⟩) (.gr4 ⟨0, false⟩ 0 0)⟩ :=
    go r22 true (Step.grLoad (t := true) rfl rfl rfl) rfl rfl rfl rfl rfl
  have r24 : HReach o 0 1 ⟨⟨.mark 0, 0, (upd (fun _ => none) 0 (some ⟨0, none, 0, 1⟩)), (upd (upd (fun _ => false) 0 true) 1 true), (upd (upd (fun _ => none) 0 (some 0)) 0 none), (fun _ => none), 2, at2 (.gr5 ⟨0, false⟩ 0 0) (.idle ⟨1, false⟩), .marked 0 0⟩, eff o _ true (.gr4 ⟨0, false⟩ 0 0) (.gr5 ⟨0, false⟩ 0 0)⟩ :=
    go r23 true (Step.grMark (t := true) rfl rfl) rfl rfl rfl rfl rfl
  have r25 : HReach o 0 1 ⟨⟨.mark 0, 0, (upd (upd (fun _ => none) 0 (some ⟨0, none, 0, 1⟩)) 1 (some ⟨1, none, 0, 1⟩)), (upd (upd (fun _ => false) 0 true) 1 true), (upd (upd (fun _ => none) 0 (some 0)) 0 none), (fun _ => none), 2, at2 (.gr6 ⟨0, false⟩ 0 0 1) (.idle ⟨1, false⟩), .made 0 0 1⟩, eff o _ true (.gr5 ⟨0, false⟩ 0 0) (.gr6 ⟨0, false⟩ 0 0 1)⟩ :=
    go r24 true (Step.grMake (t := true) (b := 1) 1 rfl rfl rfl) rfl rfl rfl rfl rfl
  have r26 : HReach o 0 1 ⟨⟨.mark 0, 0, (upd (upd (fun _ => none) 0 (some ⟨0, none, 0, 1⟩)) 1 (some ⟨1, none, 0, 1⟩)), (upd (upd (fun _ => false) 0 true) 1 true), (upd (upd (fun _ => none) 0 (some 0)) 0 none), (fun _ => none), 2, at2 (.gr7 ⟨0, false⟩ 0 0 1 2 0) (.idle ⟨1, false⟩), .waitOps 0 0 1 2 0⟩, eff o _ true (.gr6 ⟨0, false⟩ 0 0 1) (.gr7 ⟨0, false⟩ 0 0 1 2 0)⟩ :=
    go r25 true (Step.grOps (t := true) rfl) rfl rfl rfl rfl rfl
  have r27 : HReach o 0 1 ⟨⟨.mark 0, 0, (upd (upd (fun _ => none) 0 (some ⟨0, none, 0, 1⟩)) 1 (some ⟨1, none, 0, 1⟩)), (upd (upd (fun _ => false) 0 true) 1 true), (upd (upd (fun _ => none) 0 (some 0)) 0 none), (fun _ => none), 2, at2 (.gr7 ⟨0, false⟩ 0 0 1 2 1) (.idle ⟨1, false⟩), .waitOps 0 0 1 2 1⟩, eff o _ true (.gr7 ⟨0, false⟩ 0 0 1 2 0) (.gr7 ⟨0, false⟩ 0 0 1 2 1)⟩ :=
    go r26 true (Step.grOpsNext (t := true) rfl (show 0 < 2 by decide) (show (none : Option Nat) ≠ some 0 from nofun)) rfl rfl rfl rfl rfl
  have r28 : HReach o 0 1 ⟨⟨.mark 0, 0, (upd (upd (fun _ => none) 0 (some ⟨0, none, 0, 1⟩)) 1 (some ⟨1, none, 0, 1⟩)), (upd (upd (fun _ => false) 0 true) 1 true), (upd (upd (fun _ => none) 0 (some 0)) 0 none), (fun _ => none), 2, at2 (.gr7 ⟨0, false⟩ 0 0 1 2 2) (.idle ⟨1, false⟩), .waitOps 0 0 1 2 2⟩, eff o _ true (.gr7 ⟨0, false⟩ 0 0 1 2 1) (.gr7 ⟨0, false⟩ 0 0 1 2 2)⟩ :=
    go r27 true (Step.grOpsNext (t := true) rfl (show 1 < 2 by decide) (show (none : Option Nat) ≠ some 0 from nofun)) rfl rfl rfl rfl rfl
  have r29 : HReach o 0 1 ⟨⟨.mark 0, 0, (upd (upd (fun _ => none) 0 (some ⟨0, none, 0, 1⟩)) 1 (some ⟨1, none, 0, 1⟩)), (upd (upd (fun _ => false) 0 true) 1 true), (upd (upd (fun _ => none) 0 (some 0)) 0 none), (fun _ => none), 2, at2 (.gr8 ⟨0, false⟩ 0 0 1) (.idle ⟨1, false⟩), .ready 0 0 1⟩, eff o _ true (.gr7 ⟨0, false⟩ 0 0 1 2 2) (.gr8 ⟨0, false⟩ 0 0 1)⟩ :=
    go r28 true (Step.grOpsEnd (t := true) rfl (Nat.lt_irrefl 2)) rfl rfl rfl rfl rfl
  have r30 : HReach o 0 1 ⟨⟨.mark 0, 0, (upd (upd (upd (fun _ => none) 0 (some ⟨0, none, 0, 1⟩)) 1 (some ⟨1, none, 0, 1⟩)) 0 (some ⟨0, some 1, 0, 1⟩)), (upd (upd (fun _ => false) 0 true) 1 true), (upd (upd (fun _ => none) 0 (some 0)) 0 none), (fun _ => none), 2, at2 (.mg1 ⟨0, false⟩ (.grow 0 0 1)) (.idle ⟨1, false⟩), .migrating 0 0 1⟩, eff o _ true (.gr8 ⟨0, false⟩ 0 0 1) (.mg1 ⟨0, false⟩ (.grow 0 0 1))⟩ :=
    go r29 true (Step.grNext (t := true) rfl rfl) rfl rfl rfl rfl rfl
  have r31 : HReach o 0 1 ⟨⟨.mark 0, 0, (upd (upd (upd (fun _ => none) 0 (some ⟨0, none, 0, 1⟩)) 1 (some ⟨1, none, 0, 1⟩)) 0 (some ⟨0, some 1, 0, 1⟩)), (upd (upd (fun _ => false) 0 true) 1 true), (upd (upd (fun _ => none) 0 (some 0)) 0 none), (fun _ => none), 2, at2 (.mg1 ⟨0, false⟩ (.grow 0 0 1)) (.gt1 ⟨1, false⟩), .migrating 0 0 1⟩, eff o _ false (.idle ⟨1, false⟩) (.gt1 ⟨1, false⟩)⟩ :=
    go r30 false (Step.call (t := false) rfl) rfl rfl rfl rfl rfl
  have r32 : HReach o 0 1 ⟨⟨.mark 0, 0, (upd (upd (upd (fun _ => none) 0 (some ⟨0, none, 0, 1⟩)) 1 (some ⟨1, none, 0, 1⟩)) 0 (some ⟨0, some 1, 0, 1⟩)), (upd (upd (fun _ => false) 0 true) 1 true), (upd (upd (fun _ => none) 0 (some 0)) 0 none), (fun _ => none), 2, at2 (.mg1 ⟨0, false⟩ (.grow 0 0 1)) (.mg1 ⟨1, false⟩ .help), .migrating 0 0 1⟩, eff o _ false (.gt1 ⟨1, false⟩) (.mg1 ⟨1, false⟩ .help)⟩ :=
    go r31 false (Step.gtMark (t := false) rfl rfl) rfl rfl rfl rfl rfl
  have r33 : HReach o 0 1 ⟨⟨.mark 0, 0, (upd (upd (upd (fun _ => none) 0 (some ⟨0, none, 0, 1⟩)) 1 (some ⟨1, none, 0, 1⟩)) 0 (some ⟨0, some 1, 0, 1⟩)), (upd (upd (fun _ => false) 0 true) 1 true), (upd (upd (fun _ => none) 0 (some 0)) 0 none), (fun _ => none), 2, at2 (.mg1 ⟨0, false⟩ (.grow 0 0 1)) (.mg2 ⟨1, false⟩ .help 0 0), .migrating 0 0 1⟩, eff o _ false (.mg1 ⟨1, false⟩ .help) (.mg2 ⟨1, false⟩ .help 0 0)⟩ :=
    go r32 false (Step.mgLoad (t := false) rfl rfl rfl) rfl rfl rfl rfl rfl
  have r34 : HReach o 0 1 ⟨⟨.mark 0, 0, (upd (upd (upd (fun _ => none) 0 (some ⟨0, none, 0, 1⟩)) 1 (some ⟨1, none, 0, 1⟩)) 0 (some ⟨0, some 1, 0, 1⟩)), (upd (upd (fun _ => false) 0 true) 1 true), (upd (upd (fun _ => none) 0 (some 0)) 0 none), (upd (fun _ => none) 1 (some 0)), 2, at2 (.mg1 ⟨0, false⟩ (.grow 0 0 1)) (.mg3 ⟨1, false⟩ .help 0 0), .migrating 0 0 1⟩, eff o _ false (.mg2 ⟨1, false⟩ .help 0 0) (.mg3 ⟨1, false⟩ .help 0 0)⟩ :=
    go r33 false (Step.mgStore (t := false) rfl) rfl rfl rfl rfl rfl
  have r35 : HReach o 0 1 ⟨⟨.mark 0, 0, (upd (upd (upd (fun _ => none) 0 (some ⟨0, none, 0, 1⟩)) 1 (some ⟨1, none, 0, 1⟩)) 0 (some ⟨0, some 1, 0, 1⟩)), (upd (upd (fun _ => false) 0 true) 1 true), (upd (upd (fun _ => none) 0 (some 0)) 0 none), (upd (fun _ => none) 1 (some 0)), 2, at2 (.mg1 ⟨0, false⟩ (.grow 0 0 1)) (.mg4 ⟨1, false⟩ .help 0 0 1), .migrating 0 0 1⟩, eff o _ false (.mg3 ⟨1, false⟩ .help 0 0) (.mg4 ⟨1, false⟩ .help 0 0 1)⟩ :=
    go r34 false (Step.mgNext (t := false) rfl rfl rfl rfl) rfl rfl rfl rfl rfl
  have r36 : HReach o 0 1 ⟨⟨.mark 0, 0, (upd (upd (upd (upd (fun _ => none) 0 (some ⟨0, none, 0, 1⟩)) 1 (some ⟨1, none, 0, 1⟩)) 0 (some ⟨0, some 1, 0, 1⟩)) 0 (some ⟨0, some 1, 1, 1⟩)), (upd (upd (fun _ => false) 0 true) 1 true), (upd (upd (fun _ => none) 0 (some 0)) 0 none), (upd (fun _ => none) 1 (some 0)), 2, at2 (.mg1 ⟨0, false⟩ (.grow 0 0 1)) (.mg5 ⟨1, false⟩ .help 0 0 1 0), .migrating 0 0 1⟩, eff o _ false (.mg4 ⟨1, false⟩ .help 0 0 1) (.mg5 ⟨1, false⟩ .help 0 0 1 0)⟩ :=
    go r35 false (Step.mgClaim (t := false) rfl rfl rfl (Nat.lt_succ_self 0)) rfl rfl rfl rfl rfl
  refine ⟨_, r36, rfl, rfl, ?_, ?_⟩
  · rintro (rfl | rfl) <;> decide
  · rintro rfl; decide

/-- An execution in which thread `false` migrates the only block, and thread `true` then replaces the table and
is about to delete the old one. -/
theorem ex_mig (o : Orders) : ∃ x : HSt Bool Nat, HReach o 0 1 x ∧ x.s.pc true = .gr14 ⟨0, false⟩ 0 0 ∧
    x.b.done (.blk 0 0 1) = true ∧
    (o = { codeOrders with migSt := false } ∨ o = { codeOrders with migLd := false } →
      x.b.know true (.blk 0 0 1) = false) ∧
    (o = codeOrders → x.b.know true (.blk 0 0 1) = true) := by
  have r0 : HReach (T := Bool) o (0 : Nat) 1 ⟨⟨.clear 0, -1, (upd (fun _ => none) 0 (some ⟨0, none, 0, 1⟩)), (fun _ => false), (fun _ => none), (fun _ => none), 0, at2 (.out) (.out), .quiet⟩, HB.init⟩ := by
    have := HReach.init (T := Bool) (o := o) (a := (0 : Nat)) (n := 1)
    have e : (St.init 0 1 : St Bool Nat) = ⟨.clear 0, -1, (upd (fun _ => none) 0 (some ⟨0, none, 0, 1⟩)), (fun _ => false), (fun _ => none), (fun _ => none), 0, at2 (.out) (.out), .quiet⟩ := by
      have : at2 .out .out = fun _ => PC.out (A := Nat) := by funext t; cases t <;> rfl
      rw [this]; rfl
    rw [← e]; exact this
  have r1 : HReach o 0 1 ⟨⟨.clear 0, -1, (upd (fun _ => none) 0 (some ⟨0, none, 0, 1⟩)), (fun _ => false), (fun _ => none), (fun _ => none), 0, at2 (.reg 0) (.out), .quiet⟩, eff o _ true (.out) (.reg 0)⟩ :=
    go r0 true (Step.create (t := true) rfl) rfl rfl rfl rfl rfl
  have r2 : HReach o 0 1 ⟨⟨.clear 0, -1, (upd (fun _ => none) 0 (some ⟨0, none, 0, 1⟩)), (fun _ => false), (fun _ => none), (fun _ => none), 0, at2 (.regTry 0) (.out), .quiet⟩, eff o _ true (.reg 0) (.regTry 0)⟩ :=
    go r1 true (Step.regFree (t := true) rfl (show 0 < maxHandles by decide) rfl) rfl rfl rfl rfl rfl
  have r3 : HReach o 0 1 ⟨⟨.clear 0, -1, (upd (fun _ => none) 0 (some ⟨0, none, 0, 1⟩)), (upd (fun _ => false) 0 true), (fun _ => none), (fun _ => none), 0, at2 (.regLast 0) (.out), .quiet⟩, eff o _ true (.regTry 0) (.regLast 0)⟩ :=
    go r2 true (Step.reserve (t := true) rfl rfl) rfl rfl rfl rfl rfl
  have r4 : HReach o 0 1 ⟨⟨.clear 0, -1, (upd (fun _ => none) 0 (some ⟨0, none, 0, 1⟩)), (upd (fun _ => false) 0 true), (fun _ => none), (fun _ => none), 0, at2 (.regCas 0 0) (.out), .quiet⟩, eff o _ true (.regLast 0) (.regCas 0 0)⟩ :=
    go r3 true (Step.regLoad (t := true) rfl) rfl rfl rfl rfl rfl
  have r5 : HReach o 0 1 ⟨⟨.clear 0, -1, (upd (fun _ => none) 0 (some ⟨0, none, 0, 1⟩)), (upd (fun _ => false) 0 true), (fun _ => none), (fun _ => none), 1, at2 (.regCas 0 0) (.out), .quiet⟩, eff o _ true (.regCas 0 0) (.regCas 0 0)⟩ :=
    go r4 true (Step.regCas (t := true) rfl (Nat.le_refl 0) rfl) rfl rfl rfl rfl rfl
  have r6 : HReach o 0 1 ⟨⟨.clear 0, -1, (upd (fun _ => none) 0 (some ⟨0, none, 0, 1⟩)), (upd (fun _ => false) 0 true), (fun _ => none), (fun _ => none), 1, at2 (.regCas 0 1) (.out), .quiet⟩, eff o _ true (.regCas 0 0) (.regCas 0 1)⟩ :=
    go r5 true (Step.regCasFail (t := true) rfl (Nat.le_refl 0)) rfl rfl rfl rfl rfl
  have r7 : HReach o 0 1 ⟨⟨.clear 0, -1, (upd (fun _ => none) 0 (some ⟨0, none, 0, 1⟩)), (upd (fun _ => false) 0 true), (fun _ => none), (fun _ => none), 1, at2 (.idle ⟨0, false⟩) (.out), .quiet⟩, eff o _ true (.regCas 0 1) (.idle ⟨0, false⟩)⟩ :=
    go r6 true (Step.regEnd (t := true) rfl (Nat.not_succ_le_self 0)) rfl rfl rfl rfl rfl
  have r8 : HReach o 0 1 ⟨⟨.clear 0, -1, (upd (fun _ => none) 0 (some ⟨0, none, 0, 1⟩)), (upd (fun _ => false) 0 true), (fun _ => none), (fun _ => none), 1, at2 (.idle ⟨0, false⟩) (.reg 0), .quiet⟩, eff o _ false (.out) (.reg 0)⟩ :=
    go r7 false (Step.create (t := false) rfl) rfl rfl rfl rfl rfl
  have r9 : HReach o 0 1 ⟨⟨.clear 0, -1, (upd (fun _ => none) 0 (some ⟨0, none, 0, 1⟩)), (upd (fun _ => false) 0 true), (fun _ => none), (fun _ => none), 1, at2 (.idle ⟨0, false⟩) (.reg 1), .quiet⟩, eff o _ false (.reg 0) (.reg 1)⟩ :=
    go r8 false (Step.regUsed (t := false) rfl (show 0 < maxHandles by decide) rfl) rfl rfl rfl rfl rfl
  have r10 : HReach o 0 1 ⟨⟨.clear 0, -1, (upd (fun _ => none) 0 (some ⟨0, none, 0, 1⟩)), (upd (fun _ => false) 0 true), (fun _ => none), (fun _ => none), 1, at2 (.idle ⟨0, false⟩) (.regTry 1), .quiet⟩, eff o _ false (.reg 1) (.regTry 1)⟩ :=
    go r9 false (Step.regFree (t := false) rfl (show 1 < maxHandles by decide) rfl) rfl rfl rfl rfl rfl
  have r11 : HReach o 0 1 ⟨⟨.clear 0, -1, (upd (fun _ => none) 0 (some ⟨0, none, 0, 1⟩)), (upd (upd (fun _ => false) 0 true) 1 true), (fun _ => none), (fun _ => none), 1, at2 (.idle ⟨0, false⟩) (.regLast 1), .quiet⟩, eff o _ false (.regTry 1) (.regLast 1)⟩ :=
    go r10 false (Step.reserve (t := false) rfl rfl) rfl rfl rfl rfl rfl
  have r12 : HReach o 0 1 ⟨⟨.clear 0, -1, (upd (fun _ => none) 0 (some ⟨0, none, 0, 1⟩)), (upd (upd (fun _ => false) 0 true) 1 true), (fun _ => none), (fun _ => none), 1, at2 (.idle ⟨0, false⟩) (.regCas 1 1), .quiet⟩, eff o _ false (.regLast 1) (.regCas 1 1)⟩ :=
    go r11 false (Step.regLoad (t := false) rfl) rfl rfl rfl rfl rfl
  have r13 : HReach o 0 1 ⟨⟨.clear 0, -1, (upd (fun _ => none) 0 (some ⟨0, none, 0, 1⟩)), (upd (upd (fun _ => false) 0 true) 1 true), (fun _ => none), (fun _ => none), 2, at2 (.idle ⟨0, false⟩) (.regCas 1 1), .quiet⟩, eff o _ false (.regCas 1 1) (.regCas 1 1)⟩ :=
    go r12 false (Step.regCas (t := false) rfl (Nat.le_refl 1) rfl) rfl rfl rfl rfl rfl
  have r14 : HReach o 0 1 ⟨⟨.clear 0, -1, (upd (fun _ => none) 0 (some ⟨0, none, 0, 1⟩)), (upd (upd (fun _ => false) 0 true) 1 true), (fun _ => none), (fun _ => none), 2, at2 (.idle ⟨0, false⟩) (.regCas 1 2), .quiet⟩, eff o _ false (.regCas 1 1) (.regCas 1 2)⟩ :=
    go r13 false (Step.regCasFail (t := false) rfl (Nat.le_refl 1)) rfl rfl rfl rfl rfl
  have r15 : HReach o 0 1 ⟨⟨.clear 0, -1, (upd (fun _ => none) 0 (some ⟨0, none, 0, 1⟩)), (upd (upd (fun _ => false) 0 true) 1 true), (fun _ => none), (fun _ => none), 2, at2 (.idle ⟨0, false⟩) (.idle ⟨1, false⟩), .quiet⟩, eff o _ false (.regCas 1 2) (.idle ⟨1, false⟩)⟩ :=
    go r14 false (Step.regEnd (t := false) rfl (Nat.not_succ_le_self 1)) rfl rfl rfl rfl rfl
  have r16 : HReach o 0 1 ⟨⟨.clear 0, -1, (upd (fun _ => none) 0 (some ⟨0, none, 0, 1⟩)), (upd (upd (fun _ => false) 0 true) 1 true), (fun _ => none), (fun _ => none), 2, at2 (.gt1 ⟨0, false⟩) (.idle ⟨1, false⟩), .quiet⟩, eff o _ true (.idle ⟨0, false⟩) (.gt1 ⟨0, false⟩)⟩ :=
    go r15 true (Step.call (t := true) rfl) rfl rfl rfl rfl rfl
  have r17 : HReach o 0 1 ⟨⟨.clear 0, -1, (upd (fun _ => none) 0 (some ⟨0, none, 0, 1⟩)), (upd (upd (fun _ => false) 0 true) 1 true), (fun _ => none), (fun _ => none), 2, at2 (.gt2 ⟨0, false⟩ 0) (.idle ⟨1, false⟩), .quiet⟩, eff o _ true (.gt1 ⟨0, false⟩) (.gt2 ⟨0, false⟩ 0)⟩ :=
    go r16 true (Step.gtLoad (t := true) rfl rfl) rfl rfl rfl rfl rfl
  have r18 : HReach o 0 1 ⟨⟨.clear 0, -1, (upd (fun _ => none) 0 (some ⟨0, none, 0, 1⟩)), (upd (upd (fun _ => false) 0 true) 1 true), (upd (fun _ => none) 0 (some 0)), (fun _ => none), 2, at2 (.gt3 ⟨0, false⟩ 0) (.idle ⟨1, false⟩), .quiet⟩, eff o _ true (.gt2 ⟨0, false⟩ 0) (.gt3 ⟨0, false⟩ 0)⟩ :=
    go r17 true (Step.gtStore (t := true) rfl) rfl rfl rfl rfl rfl
  have r19 : HReach o 0 1 ⟨⟨.clear 0, -1, (upd (fun _ => none) 0 (some ⟨0, none, 0, 1⟩)), (upd (upd (fun _ => false) 0 true) 1 true), (upd (fun _ => none) 0 (some 0)), (fun _ => none), 2, at2 (.op ⟨0, false⟩ 0 0) (.idle ⟨1, false⟩), .quiet⟩, eff o _ true (.gt3 ⟨0, false⟩ 0) (.op ⟨0, false⟩ 0 0)⟩ :=
    go r18 true (Step.gtSame (t := true) rfl rfl rfl) rfl rfl rfl rfl rfl
  have r20 : HReach o 0 1 ⟨⟨.clear 0, -1, (upd (fun _ => none) 0 (some ⟨0, none, 0, 1⟩)), (upd (upd (fun _ => false) 0 true) 1 true), (upd (upd (fun _ => none) 0 (some 0)) 0 none), (fun _ => none), 2, at2 (.gr1 ⟨0, false⟩ 0) (.idle ⟨1, false⟩), .quiet⟩, eff o _ true (.op ⟨0, false⟩ 0 0) (.gr1 ⟨0, false⟩ 0)⟩ :=
    go r19 true (Step.opEnd (t := true) (h := ⟨0, false⟩) (a := 0) (v := 0) rfl .grow) rfl rfl rfl rfl rfl
  have r21 : HReach o 0 1 ⟨⟨.clear 0, -1, (upd (fun _ => none) 0 (some ⟨0, none, 0, 1⟩)), (upd (upd (fun _ => false) 0 true) 1 true), (upd (upd (fun _ => none) 0 (some 0)) 0 none), (fun _ => none), 2, at2 (.gr2 ⟨0, false⟩ 0 (-1)) (.idle ⟨1, false⟩), .quiet⟩, eff o _ true (.gr1 ⟨0, false⟩ 0) (.gr2 ⟨0, false⟩ 0 (-1))⟩ :=
    go r20 true (Step.grEpoch (t := true) rfl) rfl rfl rfl rfl rfl
  have r22 : HReach o 0 1 ⟨⟨.clear 0, 0, (upd (fun _ => none) 0 (some ⟨0, none, 0, 1⟩)), (upd (upd (fun _ => false) 0 true) 1 true), (upd (upd (fun _ => none) 0 (some 0)) 0 none), (fun _ => none), 2, at2 (.gr3 ⟨0, false⟩) (.idle ⟨1, false⟩), .begun⟩, eff o _ true (.gr2 ⟨0, false⟩ 0 (-1)) (.gr3 ⟨0, false⟩)⟩ :=
    go r21 true (Step.grCas (t := true) rfl (show (-1 : Int) < 0 by decide) rfl) rfl rfl rfl rfl rfl
  have r23 : HReach o 0 1 ⟨⟨.clear 0, 0, (upd (fun _ => none) 0 (some ⟨0, none, 0, 1⟩)), (upd (upd (fun _ => false) 0 true) 1 true), (upd (upd (fun _ => none) 0 (some 0)) 0 none), (fun _ => none), 2, at2 (.gr4 ⟨0, false⟩ 0 0) (.idle ⟨1, false⟩), .begun⟩, eff o _ true (.gr3 ⟨0, false⟩) (.gr4 ⟨0, false⟩ 0 0)⟩ :=
    go r22 true (Step.grLoad (t := true) rfl rfl rfl) rfl rfl rfl rfl rfl
  have r24 : HReach o 0 1 ⟨⟨.mark 0, 0, (upd (fun _ => none) 0 (some ⟨0, none, 0, 1⟩)), (upd (upd (fun _ => false) 0 true) 1 true), (upd (upd (fun _ => none) 0 (some 0)) 0 none), (fun _ => none), 2, at2 (.gr5 ⟨0, false⟩ 0 0) (.idle ⟨1, false⟩), .marked 0 0⟩, eff o _ true (.gr4 ⟨0, false⟩ 0 0) (.gr5 ⟨0, false⟩ 0 0)⟩ :=
    go r23 true (Step.grMark (t := true) rfl rfl) rfl rfl rfl rfl rfl
  have r25 : HReach o 0 1 ⟨⟨.mark 0, 0, (upd (upd (fun _ => none) 0 (some ⟨0, none, 0, 1⟩)) 1 (some ⟨1, none, 0, 1⟩)), (upd (upd (fun _ => false) 0 true) 1 true), (upd (upd (fun _ => none) 0 (some 0)) 0 none), (fun _ => none), 2, at2 (.gr6 ⟨0, false⟩ 0 0 1) (.idle ⟨1, false⟩), .made 0 0 1⟩, eff o _ true (.gr5 ⟨0, false⟩ 0 0) (.gr6 ⟨0, false⟩ 0 0 1)⟩ :=
    go r24 true (Step.grMake (t := true) (b := 1) 1 rfl rfl rfl) rfl rfl rfl rfl rfl
  have r26 : HReach o 0 1 ⟨⟨.mark 0, 0, (upd (upd (fun _ => none) 0 (some ⟨0, none, 0, 1⟩)) 1 (some ⟨1, none, 0, 1⟩)), (upd (upd (fun _ => false) 0 true) 1 true), (upd (upd (fun _ => none) 0 (some 0)) 0 none), (fun _ => none), 2, at2 (.gr7 ⟨0, false⟩ 0 0 1 2 0) (.idle ⟨1, false⟩), .waitOps 0 0 1 2 0⟩, eff o _ true (.gr6 ⟨0, false⟩ 0 0 1) (.gr7 ⟨0, false⟩ 0 0 1 2 0)⟩ :=
    go r25 true (Step.grOps (t := true) rfl) rfl rfl rfl rfl rfl
  have r27 : HReach o 0 1 ⟨⟨.mark 0, 0, (upd (upd (fun _ => none) 0 (some ⟨0, none, 0, 1⟩)) 1 (some ⟨1, none, 0, 1⟩)), (upd (upd (fun _ => false) 0 true) 1 true), (upd (upd (fun _ => none) 0 (some 0)) 0 none), (fun _ => none), 2, at2 (.gr7 ⟨0, false⟩ 0 0 1 2 1) (.idle ⟨1, false⟩), .waitOps 0 0 1 2 1⟩, eff o _ true (.gr7 ⟨0, false⟩ 0 0 1 2 0) (.gr7 ⟨0, false⟩ 0 0 1 2 1)⟩ :=
    go r26 true (Step.grOpsNext (t := true) rfl (show 0 < 2 by decide) (show (none : Option Nat) ≠ some 0 from nofun)) rfl rfl rfl rfl rfl
  have r28 : HReach o 0 1 ⟨⟨.mark 0, 0, (upd (upd (fun _ => none) 0 (some ⟨0, none, 0, 1⟩)) 1 (some ⟨1, none, 0, 1⟩)), (upd (upd (fun _ => false) 0 true) 1 true), (upd (upd (fun _ => none) 0 (some 0)) 0 none), (fun _ => none), 2, at2 (.gr7 ⟨0, false⟩ 0 0 1 2 2) (.idle ⟨1, false⟩), .waitOps 0 0 1 2 2⟩, eff o _ true (.gr7 ⟨0, false⟩ 0 0 1 2 1) (.gr7 ⟨0, false⟩ 0 0 1 2 2)⟩ :=
    go r27 true (Step.grOpsNext (t := true) rfl (show 1 < 2 by decide) (show (none : Option Nat) ≠ some 0 from nofun)) rfl rfl rfl rfl rfl
  have r29 : HReach o 0 1 ⟨⟨.mark 0, 0, (upd (upd (fun _ => none) 0 (some ⟨0, none, 0, 1⟩)) 1 (some ⟨1, none, 0, 1⟩)), (upd (upd (fun _ => false) 0 true) 1 true), (upd (upd (fun _ => none) 0 (some 0)) 0 none), (fun _ => none), 2, at2 (.gr8 ⟨0, false⟩ 0 0 1) (.idle ⟨1, false⟩), .ready 0 0 1⟩, eff o _ true (.gr7 ⟨0, false⟩ 0 0 1 2 2) (.gr8 ⟨0, false⟩ 0 0 1)⟩ :=
    go r28 true (Step.grOpsEnd (t := true) rfl (Nat.lt_irrefl 2)) rfl rfl rfl rfl rfl
  have r30 : HReach o 0 1 ⟨⟨.mark 0, 0, (upd (upd (upd (fun _ => none) 0 (some ⟨0, none, 0, 1⟩)) 1 (some ⟨1, none, 0, 1⟩)) 0 (some ⟨0, some 1, 0, 1⟩)), (upd (upd (fun _ => false) 0 true) 1 true), (upd (upd (fun _ => none) 0 (some 0)) 0 none), (fun _ => none), 2, at2 (.mg1 ⟨0, false⟩ (.grow 0 0 1)) (.idle ⟨1, false⟩), .migrating 0 0 1⟩, eff o _ true (.gr8 ⟨0, false⟩ 0 0 1) (.mg1 ⟨0, false⟩ (.grow 0 0 1))⟩ :=
    go r29 true (Step.grNext (t := true) rfl rfl) rfl rfl rfl rfl rfl
  have r31 : HReach o 0 1 ⟨⟨.mark 0, 0, (upd (upd (upd (fun _ => none) 0 (some ⟨0, none, 0, 1⟩)) 1 (some ⟨1, none, 0, 1⟩)) 0 (some ⟨0, some 1, 0, 1⟩)), (upd (upd (fun _ => false) 0 true) 1 true), (upd (upd (fun _ => none) 0 (some 0)) 0 none), (fun _ => none), 2, at2 (.mg1 ⟨0, false⟩ (.grow 0 0 1)) (.gt1 ⟨1, false⟩), .migrating 0 0 1⟩, eff o _ false (.idle ⟨1, false⟩) (.gt1 ⟨1, false⟩)⟩ :=
    go r30 false (Step.call (t := false) rfl) rfl rfl rfl rfl rfl
  have r32 : HReach o 0 1 ⟨⟨.mark 0, 0, (upd (upd (upd (fun _ => none) 0 (some ⟨0, none, 0, 1⟩)) 1 (some ⟨1, none, 0, 1⟩)) 0 (some ⟨0, some 1, 0, 1⟩)), (upd (upd (fun _ => false) 0 true) 1 true), (upd (upd (fun _ => none) 0 (some 0)) 0 none), (fun _ => none), 2, at2 (.mg1 ⟨0, false⟩ (.grow 0 0 1)) (.mg1 ⟨1, false⟩ .help), .migrating 0 0 1⟩, eff o _ false (.gt1 ⟨1, false⟩) (.mg1 ⟨1, false⟩ .help)⟩ :=
    go r31 false (Step.gtMark (t := false) rfl rfl) rfl rfl rfl rfl rfl
  have r33 : HReach o 0 1 ⟨⟨.mark 0, 0, (upd (upd (upd (fun _ => none) 0 (some ⟨0, none, 0, 1⟩)) 1 (some ⟨1, none, 0, 1⟩)) 0 (some ⟨0, some 1, 0, 1⟩)), (upd (upd (fun _ => false) 0 true) 1 true), (upd (upd (fun _ => none) 0 (some 0)) 0 none), (fun _ => none), 2, at2 (.mg1 ⟨0, false⟩ (.grow 0 0 1)) (.mg2 ⟨1, false⟩ .help 0 0), .migrating 0 0 1⟩, eff o _ false (.mg1 ⟨1, false⟩ .help) (.mg2 ⟨1, false⟩ .help 0 0)⟩ :=
    go r32 false (Step.mgLoad (t := false) rfl rfl rfl) rfl rfl rfl rfl rfl
  have r34 : HReach o 0 1 ⟨⟨.mark 0, 0, (upd (upd (upd (fun _ => none) 0 (some ⟨0, none, 0, 1⟩)) 1 (some ⟨1, none, 0, 1⟩)) 0 (some ⟨0, some 1, 0, 1⟩)), (upd (upd (fun _ => false) 0 true) 1 true), (upd (upd (fun _ => none) 0 (some 0)) 0 none), (upd (fun _ => none) 1 (some 0)), 2, at2 (.mg1 ⟨0, false⟩ (.grow 0 0 1)) (.mg3 ⟨1, false⟩ .help 0 0), .migrating 0 0 1⟩, eff o _ false (.mg2 ⟨1, false⟩ .help 0 0) (.mg3 ⟨1, false⟩ .help 0 0)⟩ :=
    go r33 false (Step.mgStore (t := false) rfl) rfl rfl rfl rfl rfl
  have r35 : HReach o 0 1 ⟨⟨.mark 0, 0, (upd (upd (upd (fun _ => none) 0 (some ⟨0, none, 0, 1⟩)) 1 (some ⟨1, none, 0, 1⟩)) 0 (some ⟨0, some 1, 0, 1⟩)), (upd (upd (fun _ => false) 0 true) 1 true), (upd (upd (fun _ => none) 0 (some 0)) 0 none), (upd (fun _ => none) 1 (some 0)), 2, at2 (.mg1 ⟨0, false⟩ (.grow 0 0 1)) (.mg4 ⟨1, false⟩ .help 0 0 1), .migrating 0 0 1⟩, eff o _ false (.mg3 ⟨1, false⟩ .help 0 0) (.mg4 ⟨1, false⟩ .help 0 0 1)⟩ :=
    go r34 false (Step.mgNext (t := false) rfl rfl rfl rfl) rfl rfl rfl rfl rfl
  have r36 : HReach o 0 1 ⟨⟨.mark 0, 0, (upd (upd (upd (upd (fun _ => none) 0 (some ⟨0, none, 0, 1⟩)) 1 (some ⟨1, none, 0, 1⟩)) 0 (some ⟨0, some 1, 0, 1⟩)) 0 (some ⟨0, some 1, 1, 1⟩)), (upd (upd (fun _ => false) 0 true) 1 true), (upd (upd (fun _ => none) 0 (some 0)) 0 none), (upd (fun _ => none) 1 (some 0)), 2, at2 (.mg1 ⟨0, false⟩ (.grow 0 0 1)) (.mg5 ⟨1, false⟩ .help 0 0 1 0), .migrating 0 0 1⟩, eff o _ false (.mg4 ⟨1, false⟩ .help 0 0 1) (.mg5 ⟨1, false⟩ .help 0 0 1 0)⟩ :=
    go r35 false (Step.mgClaim (t := false) rfl rfl rfl (Nat.lt_succ_self 0)) rfl rfl rfl rfl rfl
  have r37 : HReach o 0 1 ⟨⟨.mark 0, 0, (upd (upd (upd (upd (fun _ => none) 0 (some ⟨0, none, 0, 1⟩)) 1 (some ⟨1, none, 0, 1⟩)) 0 (some ⟨0, some 1, 0, 1⟩)) 0 (some ⟨0, some 1, 1, 1⟩)), (upd (upd (fun _ => false) 0 true) 1 true), (upd (upd (fun _ => none) 0 (some 0)) 0 none), (upd (fun _ => none) 1 (some 0)), 2, at2 (.mg2 ⟨0, false⟩ (.grow 0 0 1) 0 0) (.mg5 ⟨1, false⟩ .help 0 0 1 0), .migrating 0 0 1⟩, eff o _ true (.mg1 ⟨0, false⟩ (.grow 0 0 1)) (.mg2 ⟨0, false⟩ (.grow 0 0 1) 0 0)⟩ :=
    go r36 true (Step.mgLoad (t := true) rfl rfl rfl) rfl rfl rfl rfl rfl
  have r38 : HReach o 0 1 ⟨⟨.mark 0, 0, (upd (upd (upd (upd (fun _ => none) 0 (some ⟨0, none, 0, 1⟩)) 1 (some ⟨1, none, 0, 1⟩)) 0 (some ⟨0, some 1, 0, 1⟩)) 0 (some ⟨0, some 1, 1, 1⟩)), (upd (upd (fun _ => false) 0 true) 1 true), (upd (upd (fun _ => none) 0 (some 0)) 0 none), (upd (upd (fun _ => none) 1 (some 0)) 0 (some 0)), 2, at2 (.mg3 ⟨0, false⟩ (.grow 0 0 1) 0 0) (.mg5 ⟨1, false⟩ .help 0 0 1 0), .migrating 0 0 1⟩, eff o _ true (.mg2 ⟨0, false⟩ (.grow 0 0 1) 0 0) (.mg3 ⟨0, false⟩ (.grow 0 0 1) 0 0)⟩ :=
    go r37 true (Step.mgStore (t := true) rfl) rfl rfl rfl rfl rfl
  have r39 : HReach o 0 1 ⟨⟨.mark 0, 0, (upd (upd (upd (upd (fun _ => none) 0 (some ⟨0, none, 0, 1⟩)) 1 (some ⟨1, none, 0, 1⟩)) 0 (some ⟨0, some 1, 0, 1⟩)) 0 (some ⟨0, some 1, 1, 1⟩)), (upd (upd (fun _ => false) 0 true) 1 true), (upd (upd (fun _ => none) 0 (some 0)) 0 none), (upd (upd (fun _ => none) 1 (some 0)) 0 (some 0)), 2, at2 (.mg4 ⟨0, false⟩ (.grow 0 0 1) 0 0 1) (.mg5 ⟨1, false⟩ .help 0 0 1 0), .migrating 0 0 1⟩, eff o _ true (.mg3 ⟨0, false⟩ (.grow 0 0 1) 0 0) (.mg4 ⟨0, false⟩ (.grow 0 0 1) 0 0 1)⟩ :=
    go r38 true (Step.mgNext (t := true) rfl rfl rfl rfl) rfl rfl rfl rfl rfl
  have r40 : HReach o 0 1 ⟨⟨.mark 0, 0, (upd (upd (upd (upd (upd (fun _ => none) 0 (some ⟨0, none, 0, 1⟩)) 1 (some ⟨1, none, 0, 1⟩)) 0 (some ⟨0, some 1, 0, 1⟩)) 0 (some ⟨0, some 1, 1, 1⟩)) 0 (some ⟨0, some 1, 2, 1⟩)), (upd (upd (fun _ => false) 0 true) 1 true), (upd (upd (fun _ => none) 0 (some 0)) 0 none), (upd (upd (fun _ => none) 1 (some 0)) 0 (some 0)), 2, at2 (.mg6 ⟨0, false⟩ (.grow 0 0 1) 0 0 1) (.mg5 ⟨1, false⟩ .help 0 0 1 0), .migrating 0 0 1⟩, eff o _ true (.mg4 ⟨0, false⟩ (.grow 0 0 1) 0 0 1) (.mg6 ⟨0, false⟩ (.grow 0 0 1) 0 0 1)⟩ :=
    go r39 true (Step.mgLeave (t := true) rfl rfl rfl (show ¬ 1 < 1 by decide)) rfl rfl rfl rfl rfl
  have r41 : HReach o 0 1 ⟨⟨.mark 0, 0, (upd (upd (upd (upd (upd (fun _ => none) 0 (some ⟨0, none, 0, 1⟩)) 1 (some ⟨1, none, 0, 1⟩)) 0 (some ⟨0, some 1, 0, 1⟩)) 0 (some ⟨0, some 1, 1, 1⟩)) 0 (some ⟨0, some 1, 2, 1⟩)), (upd (upd (fun _ => false) 0 true) 1 true), (upd (upd (fun _ => none) 0 (some 0)) 0 none), (upd (upd (upd (fun _ => none) 1 (some 0)) 0 (some 0)) 0 none), 2, at2 (.gr10 ⟨0, false⟩ 0 0 1) (.mg5 ⟨1, false⟩ .help 0 0 1 0), .drained 0 0 1⟩, eff o _ true (.mg6 ⟨0, false⟩ (.grow 0 0 1) 0 0 1) (.gr10 ⟨0, false⟩ 0 0 1)⟩ :=
    go r40 true (Step.mgEnd (t := true) rfl rfl rfl) rfl rfl rfl rfl rfl
  have r42 : HReach o 0 1 ⟨⟨.mark 0, 0, (upd (upd (upd (upd (upd (fun _ => none) 0 (some ⟨0, none, 0, 1⟩)) 1 (some ⟨1, none, 0, 1⟩)) 0 (some ⟨0, some 1, 0, 1⟩)) 0 (some ⟨0, some 1, 1, 1⟩)) 0 (some ⟨0, some 1, 2, 1⟩)), (upd (upd (fun _ => false) 0 true) 1 true), (upd (upd (fun _ => none) 0 (some 0)) 0 none), (upd (upd (upd (fun _ => none) 1 (some 0)) 0 (some 0)) 0 none), 2, at2 (.gr10 ⟨0, false⟩ 0 0 1) (.mg4 ⟨1, false⟩ .help 0 0 1), .drained 0 0 1⟩, eff o _ false (.mg5 ⟨1, false⟩ .help 0 0 1 0) (.mg4 ⟨1, false⟩ .help 0 0 1)⟩ :=
    go r41 false (Step.mgDone (t := false) rfl) rfl rfl rfl rfl rfl
  have r43 : HReach o 0 1 ⟨⟨.mark 0, 0, (upd (upd (upd (upd (upd (upd (fun _ => none) 0 (some ⟨0, none, 0, 1⟩)) 1 (some ⟨1, none, 0, 1⟩)) 0 (some ⟨0, some 1, 0, 1⟩)) 0 (some ⟨0, some 1, 1, 1⟩)) 0 (some ⟨0, some 1, 2, 1⟩)) 0 (some ⟨0, some 1, 3, 1⟩)), (upd (upd (fun _ => false) 0 true) 1 true), (upd (upd (fun _ => none) 0 (some 0)) 0 none), (upd (upd (upd (fun _ => none) 1 (some 0)) 0 (some 0)) 0 none), 2, at2 (.gr10 ⟨0, false⟩ 0 0 1) (.mg6 ⟨1, false⟩ .help 0 0 1), .drained 0 0 1⟩, eff o _ false (.mg4 ⟨1, false⟩ .help 0 0 1) (.mg6 ⟨1, false⟩ .help 0 0 1)⟩ :=
    go r42 false (Step.mgLeave (t := false) rfl rfl rfl (show ¬ 2 < 1 by decide)) rfl rfl rfl rfl rfl
  have r44 : HReach o 0 1 ⟨⟨.mark 0, 0, (upd (upd (upd (upd (upd (upd (fun _ => none) 0 (some ⟨0, none, 0, 1⟩)) 1 (some ⟨1, none, 0, 1⟩)) 0 (some ⟨0, some 1, 0, 1⟩)) 0 (some ⟨0, some 1, 1, 1⟩)) 0 (some ⟨0, some 1, 2, 1⟩)) 0 (some ⟨0, some 1, 3, 1⟩)), (upd (upd (fun _ => false) 0 true) 1 true), (upd (upd (fun _ => none) 0 (some 0)) 0 none), (upd (upd (upd (upd (fun _ => none) 1 (some 0)) 0 (some 0)) 0 none) 1 none), 2, at2 (.gr10 ⟨0, false⟩ 0 0 1) (.hg ⟨1, false⟩), .drained 0 0 1⟩, eff o _ false (.mg6 ⟨1, false⟩ .help 0 0 1) (.hg ⟨1, false⟩)⟩ :=
    go r43 false (Step.mgEnd (t := false) rfl rfl rfl) rfl rfl rfl rfl rfl
  have r45 : HReach o 0 1 ⟨⟨.null, 0, (upd (upd (upd (upd (upd (upd (fun _ => none) 0 (some ⟨0, none, 0, 1⟩)) 1 (some ⟨1, none, 0, 1⟩)) 0 (some ⟨0, some 1, 0, 1⟩)) 0 (some ⟨0, some 1, 1, 1⟩)) 0 (some ⟨0, some 1, 2, 1⟩)) 0 (some ⟨0, some 1, 3, 1⟩)), (upd (upd (fun _ => false) 0 true) 1 true), (upd (upd (fun _ => none) 0 (some 0)) 0 none), (upd (upd (upd (upd (fun _ => none) 1 (some 0)) 0 (some 0)) 0 none) 1 none), 2, at2 (.gr11 ⟨0, false⟩ 0 0 1) (.hg ⟨1, false⟩), .nulled 0 0 1⟩, eff o _ true (.gr10 ⟨0, false⟩ 0 0 1) (.gr11 ⟨0, false⟩ 0 0 1)⟩ :=
    go r44 true (Step.grNull (t := true) rfl) rfl rfl rfl rfl rfl
  have r46 : HReach o 0 1 ⟨⟨.null, 0, (upd (upd (upd (upd (upd (upd (fun _ => none) 0 (some ⟨0, none, 0, 1⟩)) 1 (some ⟨1, none, 0, 1⟩)) 0 (some ⟨0, some 1, 0, 1⟩)) 0 (some ⟨0, some 1, 1, 1⟩)) 0 (some ⟨0, some 1, 2, 1⟩)) 0 (some ⟨0, some 1, 3, 1⟩)), (upd (upd (fun _ => false) 0 true) 1 true), (upd (upd (fun _ => none) 0 (some 0)) 0 none), (upd (upd (upd (upd (fun _ => none) 1 (some 0)) 0 (some 0)) 0 none) 1 none), 2, at2 (.gr12 ⟨0, false⟩ 0 0 1 2 0) (.hg ⟨1, false⟩), .waitMig 0 0 1 2 0⟩, eff o _ true (.gr11 ⟨0, false⟩ 0 0 1) (.gr12 ⟨0, false⟩ 0 0 1 2 0)⟩ :=
    go r45 true (Step.grMig (t := true) rfl) rfl rfl rfl rfl rfl
  have r47 : HReach o 0 1 ⟨⟨.null, 0, (upd (upd (upd (upd (upd (upd (fun _ => none) 0 (some ⟨0, none, 0, 1⟩)) 1 (some ⟨1, none, 0, 1⟩)) 0 (some ⟨0, some 1, 0, 1⟩)) 0 (some ⟨0, some 1, 1, 1⟩)) 0 (some ⟨0, some 1, 2, 1⟩)) 0 (some ⟨0, some 1, 3, 1⟩)), (upd (upd (fun _ => false) 0 true) 1 true), (upd (upd (fun _ => none) 0 (some 0)) 0 none), (upd (upd (upd (upd (fun _ => none) 1 (some 0)) 0 (some 0)) 0 none) 1 none), 2, at2 (.gr12 ⟨0, false⟩ 0 0 1 2 1) (.hg ⟨1, false⟩), .waitMig 0 0 1 2 1⟩, eff o _ true (.gr12 ⟨0, false⟩ 0 0 1 2 0) (.gr12 ⟨0, false⟩ 0 0 1 2 1)⟩ :=
    go r46 true (Step.grMigNext (t := true) rfl (show 0 < 2 by decide) rfl) rfl rfl rfl rfl rfl
  have r48 : HReach o 0 1 ⟨⟨.null, 0, (upd (upd (upd (upd (upd (upd (fun _ => none) 0 (some ⟨0, none, 0, 1⟩)) 1 (some ⟨1, none, 0, 1⟩)) 0 (some ⟨0, some 1, 0, 1⟩)) 0 (some ⟨0, some 1, 1, 1⟩)) 0 (some ⟨0, some 1, 2, 1⟩)) 0 (some ⟨0, some 1, 3, 1⟩)), (upd (upd (fun _ => false) 0 true) 1 true), (upd (upd (fun _ => none) 0 (some 0)) 0 none), (upd (upd (upd (upd (fun _ => none) 1 (some 0)) 0 (some 0)) 0 none) 1 none), 2, at2 (.gr12 ⟨0, false⟩ 0 0 1 2 2) (.hg ⟨1, false⟩), .waitMig 0 0 1 2 2⟩, eff o _ true (.gr12 ⟨0, false⟩ 0 0 1 2 1) (.gr12 ⟨0, false⟩ 0 0 1 2 2)⟩ :=
    go r47 true (Step.grMigNext (t := true) rfl (show 1 < 2 by decide) rfl) rfl rfl rfl rfl rfl
  have r49 : HReach o 0 1 ⟨⟨.null, 0, (upd (upd (upd (upd (upd (upd (fun _ => none) 0 (some ⟨0, none, 0, 1⟩)) 1 (some ⟨1, none, 0, 1⟩)) 0 (some ⟨0, some 1, 0, 1⟩)) 0 (some ⟨0, some 1, 1, 1⟩)) 0 (some ⟨0, some 1, 2, 1⟩)) 0 (some ⟨0, some 1, 3, 1⟩)), (upd (upd (fun _ => false) 0 true) 1 true), (upd (upd (fun _ => none) 0 (some 0)) 0 none), (upd (upd (upd (upd (fun _ => none) 1 (some 0)) 0 (some 0)) 0 none) 1 none), 2, at2 (.gr13 ⟨0, false⟩ 0 0 1) (.hg ⟨1, false⟩), .empty 0 0 1⟩, eff o _ true (.gr12 ⟨0, false⟩ 0 0 1 2 2) (.gr13 ⟨0, false⟩ 0 0 1)⟩ :=
    go r48 true (Step.grMigEnd (t := true) rfl (Nat.lt_irrefl 2)) rfl rfl rfl rfl rfl
  have r50 : HReach o 0 1 ⟨⟨.clear 1, 0, (upd (upd (upd (upd (upd (upd (fun _ => none) 0 (some ⟨0, none, 0, 1⟩)) 1 (some ⟨1, none, 0, 1⟩)) 0 (some ⟨0, some 1, 0, 1⟩)) 0 (some ⟨0, some 1, 1, 1⟩)) 0 (some ⟨0, some 1, 2, 1⟩)) 0 (some ⟨0, some 1, 3, 1⟩)), (upd (upd (fun _ => false) 0 true) 1 true), (upd (upd (fun _ => none) 0 (some 0)) 0 none), (upd (upd (upd (upd (fun _ => none) 1 (some 0)) 0 (some 0)) 0 none) 1 none), 2, at2 (.gr14 ⟨0, false⟩ 0 0) (.hg ⟨1, false⟩), .quiet⟩, eff o _ true (.gr13 ⟨0, false⟩ 0 0 1) (.gr14 ⟨0, false⟩ 0 0)⟩ :=
    go r49 true (Step.grPublish (t := true) rfl) rfl rfl rfl rfl rfl
  refine ⟨_, r50, rfl, rfl, ?_, ?_⟩
  · rintro (rfl | rfl) <;> decide
  · rintro rfl; decide

/-- An execution in which thread `true` grows the table alone and thread `false` then uses the new one. -/
theorem ex_tab (o : Orders) : ∃ x : HSt Bool Nat, HReach o 0 1 x ∧ x.s.pc false = .op ⟨1, false⟩ 1 1 ∧
    x.b.done (.made 1) = true ∧
    (o = { codeOrders with tabX := false } ∨ o = { codeOrders with tabLd := false } →
      x.b.know false (.made 1) = false) ∧
    (o = codeOrders → x.b.know false (.made 1) = true) := by
  have r0 : HReach (T := Bool) o (0 : Nat) 1 ⟨⟨.clear 0, -1, (upd (fun _ => none) 0 (some ⟨0, none, 0, 1⟩)), (fun _ => false), (fun _ => none), (fun _ => none), 0, at2 (.out) (.out), .quiet⟩, HB.init⟩ := by
    have := HReach.init (T := Bool) (o := o) (a := (0 : Nat)) (n := 1)
    have e : (St.init 0 1 : St Bool Nat) = ⟨.clear 0, -1, (upd (fun _ => none) 0 (some ⟨0, none, 0, 1⟩)), (fun _ => false), (fun _ => none), (fun _ => none), 0, at2 (.out) (.out), .quiet⟩ := by
      have : at2 .out .out = fun _ => PC.out (A := Nat) := by funext t; cases t <;> rfl
      rw [this]; rfl
    rw [← e]; exact this
  have r1 : HReach o 0 1 ⟨⟨.clear 0, -1, (upd (fun _ => none) 0 (some ⟨0, none, 0, 1⟩)), (fun _ => false), (fun _ => none), (fun _ => none), 0, at2 (.reg 0) (.out), .quiet⟩, eff o _ true (.out) (.reg 0)⟩ :=
    go r0 true (Step.create (t := true) rfl) rfl rfl rfl rfl rfl
  have r2 : HReach o 0 1 ⟨⟨.clear 0, -1, (upd (fun _ => none) 0 (some ⟨0, none, 0, 1⟩)), (fun _ => false), (fun _ => none), (fun _ => none), 0, at2 (.regTry 0) (.out), .quiet⟩, eff o _ true (.reg 0) (.regTry 0)⟩ :=
    go r1 true (Step.regFree (t := true) rfl (show 0 < maxHandles by decide) rfl) rfl rfl rfl rfl rfl
  have r3 : HReach o 0 1 ⟨⟨.clear 0, -1, (upd (fun _ => none) 0 (some ⟨0, none, 0, 1⟩)), (upd (fun _ => false) 0 true), (fun _ => none), (fun _ => none), 0, at2 (.regLast 0) (.out), .quiet⟩, eff o _ true (.regTry 0) (.regLast 0)⟩ :=
    go r2 true (Step.reserve (t := true) rfl rfl) rfl rfl rfl rfl rfl
  have r4 : HReach o 0 1 ⟨⟨.clear 0, -1, (upd (fun _ => none) 0 (some ⟨0, none, 0, 1⟩)), (upd (fun _ => false) 0 true), (fun _ => none), (fun _ => none), 0, at2 (.regCas 0 0) (.out), .quiet⟩, eff o _ true (.regLast 0) (.regCas 0 0)⟩ :=
    go r3 true (Step.regLoad (t := true) rfl) rfl rfl rfl rfl rfl
  have r5 : HReach o 0 1 ⟨⟨.clear 0, -1, (upd (fun _ => none) 0 (some ⟨0, none, 0, 1⟩)), (upd (fun _ => false) 0 true), (fun _ => none), (fun _ => none), 1, at2 (.regCas 0 0) (.out), .quiet⟩, eff o _ true (.regCas 0 0) (.regCas 0 0)⟩ :=
    go r4 true (Step.regCas (t := true) rfl (Nat.le_refl 0) rfl) rfl rfl rfl rfl rfl
  have r6 : HReach o 0 1 ⟨⟨.clear 0, -1, (upd (fun _ => none) 0 (some ⟨0, none, 0, 1⟩)), (upd (fun _ => false) 0 true), (fun _ => none), (fun _ => none), 1, at2 (.regCas 0 1) (.out), .quiet⟩, eff o _ true (.regCas 0 0) (.regCas 0 1)⟩ :=
    go r5 true (Step.regCasFail (t := true) rfl (Nat.le_refl 0)) rfl rfl rfl rfl rfl
  have r7 : HReach o 0 1 ⟨⟨.clear 0, -1, (upd (fun _ => none) 0 (some ⟨0, none, 0, 1⟩)), (upd (fun _ => false) 0 true), (fun _ => none), (fun _ => none), 1, at2 (.idle ⟨0, false⟩) (.out), .quiet⟩, eff o _ true (.regCas 0 1) (.idle ⟨0, false⟩)⟩ :=
    go r6 true (Step.regEnd (t := true) rfl (Nat.not_succ_le_self 0)) rfl rfl rfl rfl rfl
  have r8 : HReach o 0 1 ⟨⟨.clear 0, -1, (upd (fun _ => none) 0 (some ⟨0, none, 0, 1⟩)), (upd (fun _ => false) 0 true), (fun _ => none), (fun _ => none), 1, at2 (.idle ⟨0, false⟩) (.reg 0), .quiet⟩, eff o _ false (.out) (.reg 0)⟩ :=
    go r7 false (Step.create (t := false) rfl) rfl rfl rfl rfl rfl
  have r9 : HReach o 0 1 ⟨⟨.clear 0, -1, (upd (fun _ => none) 0 (some ⟨0, none, 0, 1⟩)), (upd (fun _ => false) 0 true), (fun _ => none), (fun _ => none), 1, at2 (.idle ⟨0, false⟩) (.reg 1), .quiet⟩, eff o _ false (.reg 0) (.reg 1)⟩ :=
    go r8 false (Step.regUsed (t := false) rfl (show 0 < maxHandles by decide) rfl) rfl rfl rfl rfl rfl
  have r10 : HReach o 0 1 ⟨⟨.clear 0, -1, (upd (fun _ => none) 0 (some ⟨0, none, 0, 1⟩)), (upd (fun _ => false) 0 true), (fun _ => none), (fun _ => none), 1, at2 (.idle ⟨0, false⟩) (.regTry 1), .quiet⟩, eff o _ false (.reg 1) (.regTry 1)⟩ :=
    go r9 false (Step.regFree (t := false) rfl (show 1 < maxHandles by decide) rfl) rfl rfl rfl rfl rfl
  have r11 : HReach o 0 1 ⟨⟨.clear 0, -1, (upd (fun _ => none) 0 (some ⟨0, none, 0, 1⟩)), (upd (upd (fun _ => false) 0 true) 1 true), (fun _ => none), (fun _ => none), 1, at2 (.idle ⟨0, false⟩) (.regLast 1), .quiet⟩, eff o _ false (.regTry 1) (.regLast 1)⟩ :=
    go r10 false (Step.reserve (t := false) rfl rfl) rfl rfl rfl rfl rfl
  have r12 : HReach o 0 1 ⟨⟨.clear 0, -1, (upd (fun _ => none) 0 (some ⟨0, none, 0, 1⟩)), (upd (upd (fun _ => false) 0 true) 1 true), (fun _ => none), (fun _ => none), 1, at2 (.idle ⟨0, false⟩) (.regCas 1 1), .quiet⟩, eff o _ false (.regLast 1) (.regCas 1 1)⟩ :=
    go r11 false (Step.regLoad (t := false) rfl) rfl rfl rfl rfl rfl
  have r13 : HReach o 0 1 ⟨⟨.clear 0, -1, (upd (fun _ => none) 0 (some ⟨0, none, 0, 1⟩)), (upd (upd (fun _ => false) 0 true) 1 true), (fun _ => none), (fun _ => none), 2, at2 (.idle ⟨0, false⟩) (.regCas 1 1), .quiet⟩, eff o _ false (.regCas 1 1) (.regCas 1 1)⟩ :=
    go r12 false (Step.regCas (t := false) rfl (Nat.le_refl 1) rfl) rfl rfl rfl rfl rfl
  have r14 : HReach o 0 1 ⟨⟨.clear 0, -1, (upd (fun _ => none) 0 (some ⟨0, none, 0, 1⟩)), (upd (upd (fun _ => false) 0 true) 1 true), (fun _ => none), (fun _ => none), 2, at2 (.idle ⟨0, false⟩) (.regCas 1 2), .quiet⟩, eff o _ false (.regCas 1 1) (.regCas 1 2)⟩ :=
    go r13 false (Step.regCasFail (t := false) rfl (Nat.le_refl 1)) rfl rfl rfl rfl rfl
  have r15 : HReach o 0 1 ⟨⟨.clear 0, -1, (upd (fun _ => none) 0 (some ⟨0, none, 0, 1⟩)), (upd (upd (fun _ => false) 0 true) 1 true), (fun _ => none), (fun _ => none), 2, at2 (.idle ⟨0, false⟩) (.idle ⟨1, false⟩), .quiet⟩, eff o _ false (.regCas 1 2) (.idle ⟨1, false⟩)⟩ :=
    go r14 false (Step.regEnd (t := false) rfl (Nat.not_succ_le_self 1)) rfl rfl rfl rfl rfl
  have r16 : HReach o 0 1 ⟨⟨.clear 0, -1, (upd (fun _ => none) 0 (some ⟨0, none, 0, 1⟩)), (upd (upd (fun _ => false) 0 true) 1 true), (fun _ => none), (fun _ => none), 2, at2 (.gt1 ⟨0, false⟩) (.idle ⟨1, false⟩), .quiet⟩, eff o _ true (.idle ⟨0, false⟩) (.gt1 ⟨0, false⟩)⟩ :=
    go r15 true (Step.call (t := true) rfl) rfl rfl rfl rfl rfl
  have r17 : HReach o 0 1 ⟨⟨.clear 0, -1, (upd (fun _ => none) 0 (some ⟨0, none, 0, 1⟩)), (upd (upd (fun _ => false) 0 true) 1 true), (fun _ => none), (fun _ => none), 2, at2 (.gt2 ⟨0, false⟩ 0) (.idle ⟨1, false⟩), .quiet⟩, eff o _ true (.gt1 ⟨0, false⟩) (.gt2 ⟨0, false⟩ 0)⟩ :=
    go r16 true (Step.gtLoad (t := true) rfl rfl) rfl rfl rfl rfl rfl
  have r18 : HReach o 0 1 ⟨⟨.clear 0, -1, (upd (fun _ => none) 0 (some ⟨0, none, 0, 1⟩)), (upd (upd (fun _ => false) 0 true) 1 true), (upd (fun _ => none) 0 (some 0)), (fun _ => none), 2, at2 (.gt3 ⟨0, false⟩ 0) (.idle ⟨1, false⟩), .quiet⟩, eff o _ true (.gt2 ⟨0, false⟩ 0) (.gt3 ⟨0, false⟩ 0)⟩ :=
    go r17 true (Step.gtStore (t := true) rfl) rfl rfl rfl rfl rfl
  have r19 : HReach o 0 1 ⟨⟨.clear 0, -1, (upd (fun _ => none) 0 (some ⟨0, none, 0, 1⟩)), (upd (upd (fun _ => false) 0 true) 1 true), (upd (fun _ => none) 0 (some 0)), (fun _ => none), 2, at2 (.op ⟨0, false⟩ 0 0) (.idle ⟨1, false⟩), .quiet⟩, eff o _ true (.gt3 ⟨0, false⟩ 0) (.op ⟨0, false⟩ 0 0)⟩ :=
    go r18 true (Step.gtSame (t := true) rfl rfl rfl) rfl rfl rfl rfl rfl
  have r20 : HReach o 0 1 ⟨⟨.clear 0, -1, (upd (fun _ => none) 0 (some ⟨0, none, 0, 1⟩)), (upd (upd (fun _ => false) 0 true) 1 true), (upd (upd (fun _ => none) 0 (some 0)) 0 none), (fun _ => none), 2, at2 (.gr1 ⟨0, false⟩ 0) (.idle ⟨1, false⟩), .quiet⟩, eff o _ true (.op ⟨0, false⟩ 0 0) (.gr1 ⟨0, false⟩ 0)⟩ :=
    go r19 true (Step.opEnd (t := true) (h := ⟨0, false⟩) (a := 0) (v := 0) rfl .grow) rfl rfl rfl rfl rfl
  have r21 : HReach o 0 1 ⟨⟨.clear 0, -1, (upd (fun _ => none) 0 (some ⟨0, none, 0, 1⟩)), (upd (upd (fun _ => false) 0 true) 1 true), (upd (upd (fun _ => none) 0 (some 0)) 0 none), (fun _ => none), 2, at2 (.gr2 ⟨0, false⟩ 0 (-1)) (.idle ⟨1, false⟩), .quiet⟩, eff o _ true (.gr1 ⟨0, false⟩ 0) (.gr2 ⟨0, false⟩ 0 (-1))⟩ :=
    go r20 true (Step.grEpoch (t := true) rfl) rfl rfl rfl rfl rfl
  have r22 : HReach o 0 1 ⟨⟨.clear 0, 0, (upd (fun _ => none) 0 (some ⟨0, none, 0, 1⟩)), (upd (upd (fun _ => false) 0 true) 1 true), (upd (upd (fun _ => none) 0 (some 0)) 0 none), (fun _ => none), 2, at2 (.gr3 ⟨0, false⟩) (.idle ⟨1, false⟩), .begun⟩, eff o _ true (.gr2 ⟨0, false⟩ 0 (-1)) (.gr3 ⟨0, false⟩)⟩ :=
    go r21 true (Step.grCas (t := true) rfl (show (-1 : Int) < 0 by decide) rfl) rfl rfl rfl rfl rfl
  have r23 : HReach o 0 1 ⟨⟨.clear 0, 0, (upd (fun _ => none) 0 (some ⟨0, none, 0, 1⟩)), (upd (upd (fun _ => false) 0 true) 1 true), (upd (upd (fun _ => none) 0 (some 0)) 0 none), (fun _ => none), 2, at2 (.gr4 ⟨0, false⟩ 0 0) (.idle ⟨1, false⟩), .begun⟩, eff o _ true (.gr3 ⟨0, false⟩) (.gr4 ⟨0, false⟩ 0 0)⟩ :=
    go r22 true (Step.grLoad (t := true) rfl rfl rfl) rfl rfl rfl rfl rfl
  have r24 : HReach o 0 1 ⟨⟨.mark 0, 0, (upd (fun _ => none) 0 (some ⟨0, none, 0, 1⟩)), (upd (upd (fun _ => false) 0 true) 1 true), (upd (upd (fun _ => none) 0 (some 0)) 0 none), (fun _ => none), 2, at2 (.gr5 ⟨0, false⟩ 0 0) (.idle ⟨1, false⟩), .marked 0 0⟩, eff o _ true (.gr4 ⟨0, false⟩ 0 0) (.gr5 ⟨0, false⟩ 0 0)⟩ :=
    go r23 true (Step.grMark (t := true) rfl rfl) rfl rfl rfl rfl rfl
  have r25 : HReach o 0 1 ⟨⟨.mark 0, 0, (upd (upd (fun _ => none) 0 (some ⟨0, none, 0, 1⟩)) 1 (some ⟨1, none, 0, 1⟩)), (upd (upd (fun _ => false) 0 true) 1 true), (upd (upd (fun _ => none) 0 (some 0)) 0 none), (fun _ => none), 2, at2 (.gr6 ⟨0, false⟩ 0 0 1) (.idle ⟨1, false⟩), .made 0 0 1⟩, eff o _ true (.gr5 ⟨0, false⟩ 0 0) (.gr6 ⟨0, false⟩ 0 0 1)⟩ :=
    go r24 true (Step.grMake (t := true) (b := 1) 1 rfl rfl rfl) rfl rfl rfl rfl rfl
  have r26 : HReach o 0 1 ⟨⟨.mark 0, 0, (upd (upd (fun _ => none) 0 (some ⟨0, none, 0, 1⟩)) 1 (some ⟨1, none, 0, 1⟩)), (upd (upd (fun _ => false) 0 true) 1 true), (upd (upd (fun _ => none) 0 (some 0)) 0 none), (fun _ => none), 2, at2 (.gr7 ⟨0, false⟩ 0 0 1 2 0) (.idle ⟨1, false⟩), .waitOps 0 0 1 2 0⟩, eff o _ true (.gr6 ⟨0, false⟩ 0 0 1) (.gr7 ⟨0, false⟩ 0 0 1 2 0)⟩ :=
    go r25 true (Step.grOps (t := true) rfl) rfl rfl rfl rfl rfl
  have r27 : HReach o 0 1 ⟨⟨.mark 0, 0, (upd (upd (fun _ => none) 0 (some ⟨0, none, 0, 1⟩)) 1 (some ⟨1, none, 0, 1⟩)), (upd (upd (fun _ => false) 0 true) 1 true), (upd (upd (fun _ => none) 0 (some 0)) 0 none), (fun _ => none), 2, at2 (.gr7 ⟨0, false⟩ 0 0 1 2 1) (.idle ⟨1, false⟩), .waitOps 0 0 1 2 1⟩, eff o _ true (.gr7 ⟨0, false⟩ 0 0 1 2 0) (.gr7 ⟨0, false⟩ 0 0 1 2 1)⟩ :=
    go r26 true (Step.grOpsNext (t := true) rfl (show 0 < 2 by decide) (show (none : Option Nat) ≠ some 0 from nofun)) rfl rfl rfl rfl rfl
  have r28 : HReach o 0 1 ⟨⟨.mark 0, 0, (upd (upd (fun _ => none) 0 (some ⟨0, none, 0, 1⟩)) 1 (some ⟨1, none, 0, 1⟩)), (upd (upd (fun _ => false) 0 true) 1 true), (upd (upd (fun _ => none) 0 (some 0)) 0 none), (fun _ => none), 2, at2 (.gr7 ⟨0, false⟩ 0 0 1 2 2) (.idle ⟨1, false⟩), .waitOps 0 0 1 2 2⟩, eff o _ true (.gr7 ⟨0, false⟩ 0 0 1 2 1) (.gr7 ⟨0, false⟩ 0 0 1 2 2)⟩ :=
    go r27 true (Step.grOpsNext (t := true) rfl (show 1 < 2 by decide) (show (none : Option Nat) ≠ some 0 from nofun)) rfl rfl rfl rfl rfl
  have r29 : HReach o 0 1 ⟨⟨.mark 0, 0, (upd (upd (fun _ => none) 0 (some ⟨0, none, 0, 1⟩)) 1 (some ⟨1, none, 0, 1⟩)), (upd (upd (fun _ => false) 0 true) 1 true), (upd (upd (fun _ => none) 0 (some 0)) 0 none), (fun _ => none), 2, at2 (.gr8 ⟨0, false⟩ 0 0 1) (.idle ⟨1, false⟩), .ready 0 0 1⟩, eff o _ true (.gr7 ⟨0, false⟩ 0 0 1 2 2) (.gr8 ⟨0, false⟩ 0 0 1)⟩ :=
    go r28 true (Step.grOpsEnd (t := true) rfl (Nat.lt_irrefl 2)) rfl rfl rfl rfl rfl
  have r30 : HReach o 0 1 ⟨⟨.mark 0, 0, (upd (upd (upd (fun _ => none) 0 (some ⟨0, none, 0, 1⟩)) 1 (some ⟨1, none, 0, 1⟩)) 0 (some ⟨0, some 1, 0, 1⟩)), (upd (upd (fun _ => false) 0 true) 1 true), (upd (upd (fun _ => none) 0 (some 0)) 0 none), (fun _ => none), 2, at2 (.mg1 ⟨0, false⟩ (.grow 0 0 1)) (.idle ⟨1, false⟩), .migrating 0 0 1⟩, eff o _ true (.gr8 ⟨0, false⟩ 0 0 1) (.mg1 ⟨0, false⟩ (.grow 0 0 1))⟩ :=
    go r29 true (Step.grNext (t := true) rfl rfl) rfl rfl rfl rfl rfl
  have r31 : HReach o 0 1 ⟨⟨.mark 0, 0, (upd (upd (upd (fun _ => none) 0 (some ⟨0, none, 0, 1⟩)) 1 (some ⟨1, none, 0, 1⟩)) 0 (some ⟨0, some 1, 0, 1⟩)), (upd (upd (fun _ => false) 0 true) 1 true), (upd (upd (fun _ => none) 0 (some 0)) 0 none), (fun _ => none), 2, at2 (.mg2 ⟨0, false⟩ (.grow 0 0 1) 0 0) (.idle ⟨1, false⟩), .migrating 0 0 1⟩, eff o _ true (.mg1 ⟨0, false⟩ (.grow 0 0 1)) (.mg2 ⟨0, false⟩ (.grow 0 0 1) 0 0)⟩ :=
    go r30 true (Step.mgLoad (t := true) rfl rfl rfl) rfl rfl rfl rfl rfl
  have r32 : HReach o 0 1 ⟨⟨.mark 0, 0, (upd (upd (upd (fun _ => none) 0 (some ⟨0, none, 0, 1⟩)) 1 (some ⟨1, none, 0, 1⟩)) 0 (some ⟨0, some 1, 0, 1⟩)), (upd (upd (fun _ => false) 0 true) 1 true), (upd (upd (fun _ => none) 0 (some 0)) 0 none), (upd (fun _ => none) 0 (some 0)), 2, at2 (.mg3 ⟨0, false⟩ (.grow 0 0 1) 0 0) (.idle ⟨1, false⟩), .migrating 0 0 1⟩, eff o _ true (.mg2 ⟨0, false⟩ (.grow 0 0 1) 0 0) (.mg3 ⟨0, false⟩ (.grow 0 0 1) 0 0)⟩ :=
    go r31 true (Step.mgStore (t := true) rfl) rfl rfl rfl rfl rfl
  have r33 : HReach o 0 1 ⟨⟨.mark 0, 0, (upd (upd (upd (fun _ => none) 0 (some ⟨0, none, 0, 1⟩)) 1 (some ⟨1, none, 0, 1⟩)) 0 (some ⟨0, some 1, 0, 1⟩)), (upd (upd (fun _ => false) 0 true) 1 true), (upd (upd (fun _ => none) 0 (some 0)) 0 none), (upd (fun _ => none) 0 (some 0)), 2, at2 (.mg4 ⟨0, false⟩ (.grow 0 0 1) 0 0 1) (.idle ⟨1, false⟩), .migrating 0 0 1⟩, eff o _ true (.mg3 ⟨0, false⟩ (.grow 0 0 1) 0 0) (.mg4 ⟨0, false⟩ (.grow 0 0 1) 0 0 1)⟩ :=
    go r32 true (Step.mgNext (t := true) rfl rfl rfl rfl) rfl rfl rfl rfl rfl
  have r34 : HReach o 0 1 ⟨⟨.mark 0, 0, (upd (upd (upd (upd (fun _ => none) 0 (some ⟨0, none, 0, 1⟩)) 1 (some ⟨1, none, 0, 1⟩)) 0 (some ⟨0, some 1, 0, 1⟩)) 0 (some ⟨0, some 1, 1, 1⟩)), (upd (upd (fun _ => false) 0 true) 1 true), (upd (upd (fun _ => none) 0 (some 0)) 0 none), (upd (fun _ => none) 0 (some 0)), 2, at2 (.mg5 ⟨0, false⟩ (.grow 0 0 1) 0 0 1 0) (.idle ⟨1, false⟩), .migrating 0 0 1⟩, eff o _ true (.mg4 ⟨0, false⟩ (.grow 0 0 1) 0 0 1) (.mg5 ⟨0, false⟩ (.grow 0 0 1) 0 0 1 0)⟩ :=
    go r33 true (Step.mgClaim (t := true) rfl rfl rfl (Nat.lt_succ_self 0)) rfl rfl rfl rfl rfl
  have r35 : HReach o 0 1 ⟨⟨.mark 0, 0, (upd (upd (upd (upd (fun _ => none) 0 (some ⟨0, none, 0, 1⟩)) 1 (some ⟨1, none, 0, 1⟩)) 0 (some ⟨0, some 1, 0, 1⟩)) 0 (some ⟨0, some 1, 1, 1⟩)), (upd (upd (fun _ => false) 0 true) 1 true), (upd (upd (fun _ => none) 0 (some 0)) 0 none), (upd (fun _ => none) 0 (some 0)), 2, at2 (.mg4 ⟨0, false⟩ (.grow 0 0 1) 0 0 1) (.idle ⟨1, false⟩), .migrating 0 0 1⟩, eff o _ true (.mg5 ⟨0, false⟩ (.grow 0 0 1) 0 0 1 0) (.mg4 ⟨0, false⟩ (.grow 0 0 1) 0 0 1)⟩ :=
    go r34 true (Step.mgDone (t := true) rfl) rfl rfl rfl rfl rfl
  have r36 : HReach o 0 1 ⟨⟨.mark 0, 0, (upd (upd (upd (upd (upd (fun _ => none) 0 (some ⟨0, none, 0, 1⟩)) 1 (some ⟨1, none, 0, 1⟩)) 0 (some ⟨0, some 1, 0, 1⟩)) 0 (some ⟨0, some 1, 1, 1⟩)) 0 (some ⟨0, some 1, 2, 1⟩)), (upd (upd (fun _ => false) 0 true) 1 true), (upd (upd (fun _ => none) 0 (some 0)) 0 none), (upd (fun _ => none) 0 (some 0)), 2, at2 (.mg6 ⟨0, false⟩ (.grow 0 0 1) 0 0 1) (.idle ⟨1, false⟩), .migrating 0 0 1⟩, eff o _ true (.mg4 ⟨0, false⟩ (.grow 0 0 1) 0 0 1) (.mg6 ⟨0, false⟩ (.grow 0 0 1) 0 0 1)⟩ :=
    go r35 true (Step.mgLeave (t := true) rfl rfl rfl (show ¬ 1 < 1 by decide)) rfl rfl rfl rfl rfl
  have r37 : HReach o 0 1 ⟨⟨.mark 0, 0, (upd (upd (upd (upd (upd (fun _ => none) 0 (some ⟨0, none, 0, 1⟩)) 1 (some ⟨1, none, 0, 1⟩)) 0 (some ⟨0, some 1, 0, 1⟩)) 0 (some ⟨0, some 1, 1, 1⟩)) 0 (some ⟨0, some 1, 2, 1⟩)), (upd (upd (fun _ => false) 0 true) 1 true), (upd (upd (fun _ => none) 0 (some 0)) 0 none), (upd (upd (fun _ => none) 0 (some 0)) 0 none), 2, at2 (.gr10 ⟨0, false⟩ 0 0 1) (.idle ⟨1, false⟩), .drained 0 0 1⟩, eff o _ true (.mg6 ⟨0, false⟩ (.grow 0 0 1) 0 0 1) (.gr10 ⟨0, false⟩ 0 0 1)⟩ :=
    go r36 true (Step.mgEnd (t := true) rfl rfl rfl) rfl rfl rfl rfl rfl
  have r38 : HReach o 0 1 ⟨⟨.null, 0, (upd (upd (upd (upd (upd (fun _ => none) 0 (some ⟨0, none, 0, 1⟩)) 1 (some ⟨1, none, 0, 1⟩)) 0 (some ⟨0, some 1, 0, 1⟩)) 0 (some ⟨0, some 1, 1, 1⟩)) 0 (some ⟨0, some 1, 2, 1⟩)), (upd (upd (fun _ => false) 0 true) 1 true), (upd (upd (fun _ => none) 0 (some 0)) 0 none), (upd (upd (fun _ => none) 0 (some 0)) 0 none), 2, at2 (.gr11 ⟨0, false⟩ 0 0 1) (.idle ⟨1, false⟩), .nulled 0 0 1⟩, eff o _ true (.gr10 ⟨0, false⟩ 0 0 1) (.gr11 ⟨0, false⟩ 0 0 1)⟩ :=
    go r37 true (Step.grNull (t := true) rfl) rfl rfl rfl rfl rfl
  have r39 : HReach o 0 1 ⟨⟨.null, 0, (upd (upd (upd (upd (upd (fun _ => none) 0 (some ⟨0, none, 0, 1⟩)) 1 (some ⟨1, none, 0, 1⟩)) 0 (some ⟨0, some 1, 0, 1⟩)) 0 (some ⟨0, some 1, 1, 1⟩)) 0 (some ⟨0, some 1, 2, 1⟩)), (upd (upd (fun _ => false) 0 true) 1 true), (upd (upd (fun _ => none) 0 (some 0)) 0 none), (upd (upd (fun _ => none) 0 (some 0)) 0 none), 2, at2 (.gr12 ⟨0, false⟩ 0 0 1 2 0) (.idle ⟨1, false⟩), .waitMig 0 0 1 2 0⟩, eff o _ true (.gr11 ⟨0, false⟩ 0 0 1) (.gr12 ⟨0, false⟩ 0 0 1 2 0)⟩ :=
    go r38 true (Step.grMig (t := true) rfl) rfl rfl rfl rfl rfl
  have r40 : HReach o 0 1 ⟨⟨.null, 0, (upd (upd (upd (upd (upd (fun _ => none) 0 (some ⟨0, none, 0, 1⟩)) 1 (some ⟨1, none, 0, 1⟩)) 0 (some ⟨0, some 1, 0, 1⟩)) 0 (some ⟨0, some 1, 1, 1⟩)) 0 (some ⟨0, some 1, 2, 1⟩)), (upd (upd (fun _ => false) 0 true) 1 true), (upd (upd (fun _ => none) 0 (some 0)) 0 none), (upd (upd (fun _ => none) 0 (some 0)) 0 none), 2, at2 (.gr12 ⟨0, false⟩ 0 0 1 2 1) (.idle ⟨1, false⟩), .waitMig 0 0 1 2 1⟩, eff o _ true (.gr12 ⟨0, false⟩ 0 0 1 2 0) (.gr12 ⟨0, false⟩ 0 0 1 2 1)⟩ :=
    go r39 true (Step.grMigNext (t := true) rfl (show 0 < 2 by decide) rfl) rfl rfl rfl rfl rfl
  have r41 : HReach o 0 1 ⟨⟨.null, 0, (upd (upd (upd (upd (upd (fun _ => none) 0 (some ⟨0, none, 0, 1⟩)) 1 (some ⟨1, none, 0, 1⟩)) 0 (some ⟨0, some 1, 0, 1⟩)) 0 (some ⟨0, some 1, 1, 1⟩)) 0 (some ⟨0, some 1, 2, 1⟩)), (upd (upd (fun _ => false) 0 true) 1 true), (upd (upd (fun _ => none) 0 (some 0)) 0 none), (upd (upd (fun _ => none) 0 (some 0)) 0 none), 2, at2 (.gr12 ⟨0, false⟩ 0 0 1 2 2) (.idle ⟨1, false⟩), .waitMig 0 0 1 2 2⟩, eff o _ true (.gr12 ⟨0, false⟩ 0 0 1 2 1) (.gr12 ⟨0, false⟩ 0 0 1 2 2)⟩ :=
    go r40 true (Step.grMigNext (t := true) rfl (show 1 < 2 by decide) rfl) rfl rfl rfl rfl rfl
  have r42 : HReach o 0 1 ⟨⟨.null, 0, (upd (upd (upd (upd (upd (fun _ => none) 0 (some ⟨0, none, 0, 1⟩)) 1 (some ⟨1, none, 0, 1⟩)) 0 (some ⟨0, some 1, 0, 1⟩)) 0 (some ⟨0, some 1, 1, 1⟩)) 0 (some ⟨0, some 1, 2, 1⟩)), (upd (upd (fun _ => false) 0 true) 1 true), (upd (upd (fun _ => none) 0 (some 0)) 0 none), (upd (upd (fun _ => none) 0 (some 0)) 0 none), 2, at2 (.gr13 ⟨0, false⟩ 0 0 1) (.idle ⟨1, false⟩), .empty 0 0 1⟩, eff o _ true (.gr12 ⟨0, false⟩ 0 0 1 2 2) (.gr13 ⟨0, false⟩ 0 0 1)⟩ :=
    go r41 true (Step.grMigEnd (t := true) rfl (Nat.lt_irrefl 2)) rfl rfl rfl rfl rfl
  have r43 : HReach o 0 1 ⟨⟨.clear 1, 0, (upd (upd (upd (upd (upd (fun _ => none) 0 (some ⟨0, none, 0, 1⟩)) 1 (some ⟨1, none, 0, 1⟩)) 0 (some ⟨0, some 1, 0, 1⟩)) 0 (some ⟨0, some 1, 1, 1⟩)) 0 (some ⟨0, some 1, 2, 1⟩)), (upd (upd (fun _ => false) 0 true) 1 true), (upd (upd (fun _ => none) 0 (some 0)) 0 none), (upd (upd (fun _ => none) 0 (some 0)) 0 none), 2, at2 (.gr14 ⟨0, false⟩ 0 0) (.idle ⟨1, false⟩), .quiet⟩, eff o _ true (.gr13 ⟨0, false⟩ 0 0 1) (.gr14 ⟨0, false⟩ 0 0)⟩ :=
    go r42 true (Step.grPublish (t := true) rfl) rfl rfl rfl rfl rfl
  have r44 : HReach o 0 1 ⟨⟨.clear 1, 0, (upd (upd (upd (upd (upd (fun _ => none) 0 (some ⟨0, none, 0, 1⟩)) 1 (some ⟨1, none, 0, 1⟩)) 0 (some ⟨0, some 1, 0, 1⟩)) 0 (some ⟨0, some 1, 1, 1⟩)) 0 (some ⟨0, some 1, 2, 1⟩)), (upd (upd (fun _ => false) 0 true) 1 true), (upd (upd (fun _ => none) 0 (some 0)) 0 none), (upd (upd (fun _ => none) 0 (some 0)) 0 none), 2, at2 (.gr14 ⟨0, false⟩ 0 0) (.gt1 ⟨1, false⟩), .quiet⟩, eff o _ false (.idle ⟨1, false⟩) (.gt1 ⟨1, false⟩)⟩ :=
    go r43 false (Step.call (t := false) rfl) rfl rfl rfl rfl rfl
  have r45 : HReach o 0 1 ⟨⟨.clear 1, 0, (upd (upd (upd (upd (upd (fun _ => none) 0 (some ⟨0, none, 0, 1⟩)) 1 (some ⟨1, none, 0, 1⟩)) 0 (some ⟨0, some 1, 0, 1⟩)) 0 (some ⟨0, some 1, 1, 1⟩)) 0 (some ⟨0, some 1, 2, 1⟩)), (upd (upd (fun _ => false) 0 true) 1 true), (upd (upd (fun _ => none) 0 (some 0)) 0 none), (upd (upd (fun _ => none) 0 (some 0)) 0 none), 2, at2 (.gr14 ⟨0, false⟩ 0 0) (.gt2 ⟨1, false⟩ 1), .quiet⟩, eff o _ false (.gt1 ⟨1, false⟩) (.gt2 ⟨1, false⟩ 1)⟩ :=
    go r44 false (Step.gtLoad (t := false) rfl rfl) rfl rfl rfl rfl rfl
  have r46 : HReach o 0 1 ⟨⟨.clear 1, 0, (upd (upd (upd (upd (upd (fun _ => none) 0 (some ⟨0, none, 0, 1⟩)) 1 (some ⟨1, none, 0, 1⟩)) 0 (some ⟨0, some 1, 0, 1⟩)) 0 (some ⟨0, some 1, 1, 1⟩)) 0 (some ⟨0, some 1, 2, 1⟩)), (upd (upd (fun _ => false) 0 true) 1 true), (upd (upd (upd (fun _ => none) 0 (some 0)) 0 none) 1 (some 1)), (upd (upd (fun _ => none) 0 (some 0)) 0 none), 2, at2 (.gr14 ⟨0, false⟩ 0 0) (.gt3 ⟨1, false⟩ 1), .quiet⟩, eff o _ false (.gt2 ⟨1, false⟩ 1) (.gt3 ⟨1, false⟩ 1)⟩ :=
    go r45 false (Step.gtStore (t := false) rfl) rfl rfl rfl rfl rfl
  have r47 : HReach o 0 1 ⟨⟨.clear 1, 0, (upd (upd (upd (upd (upd (fun _ => none) 0 (some ⟨0, none, 0, 1⟩)) 1 (some ⟨1, none, 0, 1⟩)) 0 (some ⟨0, some 1, 0, 1⟩)) 0 (some ⟨0, some 1, 1, 1⟩)) 0 (some ⟨0, some 1, 2, 1⟩)), (upd (upd (fun _ => false) 0 true) 1 true), (upd (upd (upd (fun _ => none) 0 (some 0)) 0 none) 1 (some 1)), (upd (upd (fun _ => none) 0 (some 0)) 0 none), 2, at2 (.gr14 ⟨0, false⟩ 0 0) (.op ⟨1, false⟩ 1 1), .quiet⟩, eff o _ false (.gt3 ⟨1, false⟩ 1) (.op ⟨1, false⟩ 1 1)⟩ :=
    go r46 false (Step.gtSame (t := false) rfl rfl rfl) rfl rfl rfl rfl rfl
  refine ⟨_, r47, rfl, rfl, ?_, ?_⟩
  · rintro (rfl | rfl) <;> decide
  · rintro rfl; decide

/-- An execution in which thread `false` performs an operation and destroys its handle, and thread `true` gets
the same flags and grows the table. -/
theorem ex_used (o : Orders) : ∃ x : HSt Bool Nat, HReach o 0 1 x ∧ x.s.pc true = .mg5 ⟨0, false⟩ (.grow 0 0 1) 0 0 1 0 ∧
    x.b.done (.op 0 0 0) = true ∧
    (o = { codeOrders with usedSt := false } ∨ o = { codeOrders with usedX := false } →
      x.b.know true (.op 0 0 0) = false) ∧
    (o = codeOrders → x.b.know true (.op 0 0 0) = true) := by
  have r0 : HReach (T := Bool) o (0 : Nat) 1 ⟨⟨.clear 0, -1, (upd (fun _ => none) 0 (some ⟨0, none, 0, 1⟩)), (fun _ => false), (fun _ => none), (fun _ => none), 0, at2 (.out) (.out), .quiet⟩, HB.init⟩ := by
    have := HReach.init (T := Bool) (o := o) (a := (0 : Nat)) (n := 1)
    have e : (St.init 0 1 : St Bool Nat) = ⟨.clear 0, -1, (upd (fun _ => none) 0 (some ⟨0, none, 0, 1⟩)), (fun _ => false), (fun _ => none), (fun _ => none), 0, at2 (.out) (.out), .quiet⟩ := by
      have : at2 .out .out = fun _ => PC.out (A := Nat) := by funext t; cases t <;> rfl
      rw [this]; rfl
    rw [← e]; exact this
  have r1 : HReach o 0 1 ⟨⟨.clear 0, -1, (upd (fun _ => none) 0 (some ⟨0, none, 0, 1⟩)), (fun _ => false), (fun _ => none), (fun _ => none), 0, at2 (.reg 0) (.out), .quiet⟩, eff o _ true (.out) (.reg 0)⟩ :=
    go r0 true (Step.create (t := true) rfl) rfl rfl rfl rfl rfl
  have r2 : HReach o 0 1 ⟨⟨.clear 0, -1, (upd (fun _ => none) 0 (some ⟨0, none, 0, 1⟩)), (fun _ => false), (fun _ => none), (fun _ => none), 0, at2 (.regTry 0) (.out), .quiet⟩, eff o _ true (.reg 0) (.regTry 0)⟩ :=
    go r1 true (Step.regFree (t := true) rfl (show 0 < maxHandles by decide) rfl) rfl rfl rfl rfl rfl
  have r3 : HReach o 0 1 ⟨⟨.clear 0, -1, (upd (fun _ => none) 0 (some ⟨0, none, 0, 1⟩)), (fun _ => false), (fun _ => none), (fun _ => none), 0, at2 (.regTry 0) (.reg 0), .quiet⟩, eff o _ false (.out) (.reg 0)⟩ :=
    go r2 false (Step.create (t := false) rfl) rfl rfl rfl rfl rfl
  have r4 : HReach o 0 1 ⟨⟨.clear 0, -1, (upd (fun _ => none) 0 (some ⟨0, none, 0, 1⟩)), (fun _ => false), (fun _ => none), (fun _ => none), 0, at2 (.regTry 0) (.regTry 0), .quiet⟩, eff o _ false (.reg 0) (.regTry 0)⟩ :=
    go r3 false (Step.regFree (t := false) rfl (show 0 < maxHandles by decide) rfl) rfl rfl rfl rfl rfl
  have r5 : HReach o 0 1 ⟨⟨.clear 0, -1, (upd (fun _ => none) 0 (some ⟨0, none, 0, 1⟩)), (upd (fun _ => false) 0 true), (fun _ => none), (fun _ => none), 0, at2 (.regTry 0) (.regLast 0), .quiet⟩, eff o _ false (.regTry 0) (.regLast 0)⟩ :=
    go r4 false (Step.reserve (t := false) rfl rfl) rfl rfl rfl rfl rfl
  have r6 : HReach o 0 1 ⟨⟨.clear 0, -1, (upd (fun _ => none) 0 (some ⟨0, none, 0, 1⟩)), (upd (fun _ => false) 0 true), (fun _ => none), (fun _ => none), 0, at2 (.regTry 0) (.regCas 0 0), .quiet⟩, eff o _ false (.regLast 0) (.regCas 0 0)⟩ :=
    go r5 false (Step.regLoad (t := false) rfl) rfl rfl rfl rfl rfl
  have r7 : HReach o 0 1 ⟨⟨.clear 0, -1, (upd (fun _ => none) 0 (some ⟨0, none, 0, 1⟩)), (upd (fun _ => false) 0 true), (fun _ => none), (fun _ => none), 1, at2 (.regTry 0) (.regCas 0 0), .quiet⟩, eff o _ false (.regCas 0 0) (.regCas 0 0)⟩ :=
    go r6 false (Step.regCas (t := false) rfl (Nat.le_refl 0) rfl) rfl rfl rfl rfl rfl
  have r8 : HReach o 0 1 ⟨⟨.clear 0, -1, (upd (fun _ => none) 0 (some ⟨0, none, 0, 1⟩)), (upd (fun _ => false) 0 true), (fun _ => none), (fun _ => none), 1, at2 (.regTry 0) (.regCas 0 1), .quiet⟩, eff o _ false (.regCas 0 0) (.regCas 0 1)⟩ :=
    go r7 false (Step.regCasFail (t := false) rfl (Nat.le_refl 0)) rfl rfl rfl rfl rfl
  have r9 : HReach o 0 1 ⟨⟨.clear 0, -1, (upd (fun _ => none) 0 (some ⟨0, none, 0, 1⟩)), (upd (fun _ => false) 0 true), (fun _ => none), (fun _ => none), 1, at2 (.regTry 0) (.idle ⟨0, false⟩), .quiet⟩, eff o _ false (.regCas 0 1) (.idle ⟨0, false⟩)⟩ :=
    go r8 false (Step.regEnd (t := false) rfl (Nat.not_succ_le_self 0)) rfl rfl rfl rfl rfl
  have r10 : HReach o 0 1 ⟨⟨.clear 0, -1, (upd (fun _ => none) 0 (some ⟨0, none, 0, 1⟩)), (upd (fun _ => false) 0 true), (fun _ => none), (fun _ => none), 1, at2 (.regTry 0) (.gt1 ⟨0, false⟩), .quiet⟩, eff o _ false (.idle ⟨0, false⟩) (.gt1 ⟨0, false⟩)⟩ :=
    go r9 false (Step.call (t := false) rfl) rfl rfl rfl rfl rfl
  have r11 : HReach o 0 1 ⟨⟨.clear 0, -1, (upd (fun _ => none) 0 (some ⟨0, none, 0, 1⟩)), (upd (fun _ => false) 0 true), (fun _ => none), (fun _ => none), 1, at2 (.regTry 0) (.gt2 ⟨0, false⟩ 0), .quiet⟩, eff o _ false (.gt1 ⟨0, false⟩) (.gt2 ⟨0, false⟩ 0)⟩ :=
    go r10 false (Step.gtLoad (t := false) rfl rfl) rfl rfl rfl rfl rfl
  have r12 : HReach o 0 1 ⟨⟨.clear 0, -1, (upd (fun _ => none) 0 (some ⟨0, none, 0, 1⟩)), (upd (fun _ => false) 0 true), (upd (fun _ => none) 0 (some 0)), (fun _ => none), 1, at2 (.regTry 0) (.gt3 ⟨0, false⟩ 0), .quiet⟩, eff o _ false (.gt2 ⟨0, false⟩ 0) (.gt3 ⟨0, false⟩ 0)⟩ :=
    go r11 false (Step.gtStore (t := false) rfl) rfl rfl rfl rfl rfl
  have r13 : HReach o 0 1 ⟨⟨.clear 0, -1, (upd (fun _ => none) 0 (some ⟨0, none, 0, 1⟩)), (upd (fun _ => false) 0 true), (upd (fun _ => none) 0 (some 0)), (fun _ => none), 1, at2 (.regTry 0) (.op ⟨0, false⟩ 0 0), .quiet⟩, eff o _ false (.gt3 ⟨0, false⟩ 0) (.op ⟨0, false⟩ 0 0)⟩ :=
    go r12 false (Step.gtSame (t := false) rfl rfl rfl) rfl rfl rfl rfl rfl
  have r14 : HReach o 0 1 ⟨⟨.clear 0, -1, (upd (fun _ => none) 0 (some ⟨0, none, 0, 1⟩)), (upd (fun _ => false) 0 true), (upd (upd (fun _ => none) 0 (some 0)) 0 none), (fun _ => none), 1, at2 (.regTry 0) (.idle ⟨0, false⟩), .quiet⟩, eff o _ false (.op ⟨0, false⟩ 0 0) (.idle ⟨0, false⟩)⟩ :=
    go r13 false (Step.opEnd (t := false) (h := ⟨0, false⟩) (a := 0) (v := 0) rfl .plain) rfl rfl rfl rfl rfl
  have r15 : HReach o 0 1 ⟨⟨.clear 0, -1, (upd (fun _ => none) 0 (some ⟨0, none, 0, 1⟩)), (upd (upd (fun _ => false) 0 true) 0 false), (upd (upd (fun _ => none) 0 (some 0)) 0 none), (fun _ => none), 1, at2 (.regTry 0) (.out), .quiet⟩, eff o _ false (.idle ⟨0, false⟩) (.out)⟩ :=
    go r14 false (Step.destroy (t := false) rfl rfl) rfl rfl rfl rfl rfl
  have r16 : HReach o 0 1 ⟨⟨.clear 0, -1, (upd (fun _ => none) 0 (some ⟨0, none, 0, 1⟩)), (upd (upd (upd (fun _ => false) 0 true) 0 false) 0 true), (upd (upd (fun _ => none) 0 (some 0)) 0 none), (fun _ => none), 1, at2 (.regLast 0) (.out), .quiet⟩, eff o _ true (.regTry 0) (.regLast 0)⟩ :=
    go r15 true (Step.reserve (t := true) rfl rfl) rfl rfl rfl rfl rfl
  have r17 : HReach o 0 1 ⟨⟨.clear 0, -1, (upd (fun _ => none) 0 (some ⟨0, none, 0, 1⟩)), (upd (upd (upd (fun _ => false) 0 true) 0 false) 0 true), (upd (upd (fun _ => none) 0 (some 0)) 0 none), (fun _ => none), 1, at2 (.regCas 0 1) (.out), .quiet⟩, eff o _ true (.regLast 0) (.regCas 0 1)⟩ :=
    go r16 true (Step.regLoad (t := true) rfl) rfl rfl rfl rfl rfl
  have r18 : HReach o 0 1 ⟨⟨.clear 0, -1, (upd (fun _ => none) 0 (some ⟨0, none, 0, 1⟩)), (upd (upd (upd (fun _ => false) 0 true) 0 false) 0 true), (upd (upd (fun _ => none) 0 (some 0)) 0 none), (fun _ => none), 1, at2 (.idle ⟨0, false⟩) (.out), .quiet⟩, eff o _ true (.regCas 0 1) (.idle ⟨0, false⟩)⟩ :=
    go r17 true (Step.regEnd (t := true) rfl (Nat.not_succ_le_self 0)) rfl rfl rfl rfl rfl
  have r19 : HReach o 0 1 ⟨⟨.clear 0, -1, (upd (fun _ => none) 0 (some ⟨0, none, 0, 1⟩)), (upd (upd (upd (fun _ => false) 0 true) 0 false) 0 true), (upd (upd (fun _ => none) 0 (some 0)) 0 none), (fun _ => none), 1, at2 (.gt1 ⟨0, false⟩) (.out), .quiet⟩, eff o _ true (.idle ⟨0, false⟩) (.gt1 ⟨0, false⟩)⟩ :=
    go r18 true (Step.call (t := true) rfl) rfl rfl rfl rfl rfl
  have r20 : HReach o 0 1 ⟨⟨.clear 0, -1, (upd (fun _ => none) 0 (some ⟨0, none, 0, 1⟩)), (upd (upd (upd (fun _ => false) 0 true) 0 false) 0 true), (upd (upd (fun _ => none) 0 (some 0)) 0 none), (fun _ => none), 1, at2 (.gt2 ⟨0, false⟩ 0) (.out), .quiet⟩, eff o _ true (.gt1 ⟨0, false⟩) (.gt2 ⟨0, false⟩ 0)⟩ :=
    go r19 true (Step.gtLoad (t := true) rfl rfl) rfl rfl rfl rfl rfl
  have r21 : HReach o 0 1 ⟨⟨.clear 0, -1, (upd (fun _ => none) 0 (some ⟨0, none, 0, 1⟩)), (upd (upd (upd (fun _ => false) 0 true) 0 false) 0 true), (upd (upd (upd (fun _ => none) 0 (some 0)) 0 none) 0 (some 0)), (fun _ => none), 1, at2 (.gt3 ⟨0, false⟩ 0) (.out), .quiet⟩, eff o _ true (.gt2 ⟨0, false⟩ 0) (.gt3 ⟨0, false⟩ 0)⟩ :=
    go r20 true (Step.gtStore (t := true) rfl) rfl rfl rfl rfl rfl
  have r22 : HReach o 0 1 ⟨⟨.clear 0, -1, (upd (fun _ => none) 0 (some ⟨0, none, 0, 1⟩)), (upd (upd (upd (fun _ => false) 0 true) 0 false) 0 true), (upd (upd (upd (fun _ => none) 0 (some 0)) 0 none) 0 (some 0)), (fun _ => none), 1, at2 (.op ⟨0, false⟩ 0 0) (.out), .quiet⟩, eff o _ true (.gt3 ⟨0, false⟩ 0) (.op ⟨0, false⟩ 0 0)⟩ :=
    go r21 true (Step.gtSame (t := true) rfl rfl rfl) rfl rfl rfl rfl rfl
  have r23 : HReach o 0 1 ⟨⟨.clear 0, -1, (upd (fun _ => none) 0 (some ⟨0, none, 0, 1⟩)), (upd (upd (upd (fun _ => false) 0 true) 0 false) 0 true), (upd (upd (upd (upd (fun _ => none) 0 (some 0)) 0 none) 0 (some 0)) 0 none), (fun _ => none), 1, at2 (.gr1 ⟨0, false⟩ 0) (.out), .quiet⟩, eff o _ true (.op ⟨0, false⟩ 0 0) (.gr1 ⟨0, false⟩ 0)⟩ :=
    go r22 true (Step.opEnd (t := true) (h := ⟨0, false⟩) (a := 0) (v := 0) rfl .grow) rfl rfl rfl rfl rfl
  have r24 : HReach o 0 1 ⟨⟨.clear 0, -1, (upd (fun _ => none) 0 (some ⟨0, none, 0, 1⟩)), (upd (upd (upd (fun _ => false) 0 true) 0 false) 0 true), (upd (upd (upd (upd (fun _ => none) 0 (some 0)) 0 none) 0 (some 0)) 0 none), (fun _ => none), 1, at2 (.gr2 ⟨0, false⟩ 0 (-1)) (.out), .quiet⟩, eff o _ true (.gr1 ⟨0, false⟩ 0) (.gr2 ⟨0, false⟩ 0 (-1))⟩ :=
    go r23 true (Step.grEpoch (t := true) rfl) rfl rfl rfl rfl rfl
  have r25 : HReach o 0 1 ⟨⟨.clear 0, 0, (upd (fun _ => none) 0 (some ⟨0, none, 0, 1⟩)), (upd (upd (upd (fun _ => false) 0 true) 0 false) 0 true), (upd (upd (upd (upd (fun _ => none) 0 (some 0)) 0 none) 0 (some 0)) 0 none), (fun _ => none), 1, at2 (.gr3 ⟨0, false⟩) (.out), .begun⟩, eff o _ true (.gr2 ⟨0, false⟩ 0 (-1)) (.gr3 ⟨0, false⟩)⟩ :=
    go r24 true (Step.grCas (t := true) rfl (show (-1 : Int) < 0 by decide) rfl) rfl rfl rfl rfl rfl
  have r26 : HReach o 0 1 ⟨⟨.clear 0, 0, (upd (fun _ => none) 0 (some ⟨0, none, 0, 1⟩)), (upd (upd (upd (fun _ => false) 0 true) 0 false) 0 true), (upd (upd (upd (upd (fun _ => none) 0 (some 0)) 0 none) 0 (some 0)) 0 none), (fun _ => none), 1, at2 (.gr4 ⟨0, false⟩ 0 0) (.out), .begun⟩, eff o _ true (.gr3 ⟨0, false⟩) (.gr4 ⟨0, false⟩ 0 0)⟩ :=
    go r25 true (Step.grLoad (t := true) rfl rfl rfl) rfl rfl rfl rfl rfl
  have r27 : HReach o 0 1 ⟨⟨.mark 0, 0, (upd (fun _ => none) 0 (some ⟨0, none, 0, 1⟩)), (upd (upd (upd (fun _ => false) 0 true) 0 false) 0 true), (upd (upd (upd (upd (fun _ => none) 0 (some 0)) 0 none) 0 (some 0)) 0 none), (fun _ => none), 1, at2 (.gr5 ⟨0, false⟩ 0 0) (.out), .marked 0 0⟩, eff o _ true (.gr4 ⟨0, false⟩ 0 0) (.gr5 ⟨0, false⟩ 0 0)⟩ :=
    go r26 true (Step.grMark (t := true) rfl rfl) rfl rfl rfl rfl rfl
  have r28 : HReach o 0 1 ⟨⟨.mark 0, 0, (upd (upd (fun _ => none) 0 (some ⟨0, none, 0, 1⟩)) 1 (some ⟨1, none, 0, 1⟩)), (upd (upd (upd (fun _ => false) 0 true) 0 false) 0 true), (upd (upd (upd (upd (fun _ => none) 0 (some 0)) 0 none) 0 (some 0)) 0 none), (fun _ => none), 1, at2 (.gr6 ⟨0, false⟩ 0 0 1) (.out), .made 0 0 1⟩, eff o _ true (.gr5 ⟨0, false⟩ 0 0) (.gr6 ⟨0, false⟩ 0 0 1)⟩ :=
    go r27 true (Step.grMake (t := true) (b := 1) 1 rfl rfl rfl) rfl rfl rfl rfl rfl
  have r29 : HReach o 0 1 ⟨⟨.mark 0, 0, (upd (upd (fun _ => none) 0 (some ⟨0, none, 0, 1⟩)) 1 (some ⟨1, none, 0, 1⟩)), (upd (upd (upd (fun _ => false) 0 true) 0 false) 0 true), (upd (upd (upd (upd (fun _ => none) 0 (some 0)) 0 none) 0 (some 0)) 0 none), (fun _ => none), 1, at2 (.gr7 ⟨0, false⟩ 0 0 1 1 0) (.out), .waitOps 0 0 1 1 0⟩, eff o _ true (.gr6 ⟨0, false⟩ 0 0 1) (.gr7 ⟨0, false⟩ 0 0 1 1 0)⟩ :=
    go r28 true (Step.grOps (t := true) rfl) rfl rfl rfl rfl rfl
  have r30 : HReach o 0 1 ⟨⟨.mark 0, 0, (upd (upd (fun _ => none) 0 (some ⟨0, none, 0, 1⟩)) 1 (some ⟨1, none, 0, 1⟩)), (upd (upd (upd (fun _ => false) 0 true) 0 false) 0 true), (upd (upd (upd (upd (fun _ => none) 0 (some 0)) 0 none) 0 (some 0)) 0 none), (fun _ => none), 1, at2 (.gr7 ⟨0, false⟩ 0 0 1 1 1) (.out), .waitOps 0 0 1 1 1⟩, eff o _ true (.gr7 ⟨0, false⟩ 0 0 1 1 0) (.gr7 ⟨0, false⟩ 0 0 1 1 1)⟩ :=
    go r29 true (Step.grOpsNext (t := true) rfl (show 0 < 1 by decide) (show (none : Option Nat) ≠ some 0 from nofun)) rfl rfl rfl rfl rfl
  have r31 : HReach o 0 1 ⟨⟨.mark 0, 0, (upd (upd (fun _ => none) 0 (some ⟨0, none, 0, 1⟩)) 1 (some ⟨1, none, 0, 1⟩)), (upd (upd (upd (fun _ => false) 0 true) 0 false) 0 true), (upd (upd (upd (upd (fun _ => none) 0 (some 0)) 0 none) 0 (some 0)) 0 none), (fun _ => none), 1, at2 (.gr8 ⟨0, false⟩ 0 0 1) (.out), .ready 0 0 1⟩, eff o _ true (.gr7 ⟨0, false⟩ 0 0 1 1 1) (.gr8 ⟨0, false⟩ 0 0 1)⟩ :=
    go r30 true (Step.grOpsEnd (t := true) rfl (Nat.lt_irrefl 1)) rfl rfl rfl rfl rfl
  have r32 : HReach o 0 1 ⟨⟨.mark 0, 0, (upd (upd (upd (fun _ => none) 0 (some ⟨0, none, 0, 1⟩)) 1 (some ⟨1, none, 0, 1⟩)) 0 (some ⟨0, some 1, 0, 1⟩)), (upd (upd (upd (fun _ => false) 0 true) 0 false) 0 true), (upd (upd (upd (upd (fun _ => none) 0 (some 0)) 0 none) 0 (some 0)) 0 none), (fun _ => none), 1, at2 (.mg1 ⟨0, false⟩ (.grow 0 0 1)) (.out), .migrating 0 0 1⟩, eff o _ true (.gr8 ⟨0, false⟩ 0 0 1) (.mg1 ⟨0, false⟩ (.grow 0 0 1))⟩ :=
    go r31 true (Step.grNext (t := true) rfl rfl) rfl rfl rfl rfl rfl
  have r33 : HReach o 0 1 ⟨⟨.mark 0, 0, (upd (upd (upd (fun _ => none) 0 (some ⟨0, none, 0, 1⟩)) 1 (some ⟨1, none, 0, 1⟩)) 0 (some ⟨0, some 1, 0, 1⟩)), (upd (upd (upd (fun _ => false) 0 true) 0 false) 0 true), (upd (upd (upd (upd (fun _ => none) 0 (some 0)) 0 none) 0 (some 0)) 0 none), (fun _ => none), 1, at2 (.mg2 ⟨0, false⟩ (.grow 0 0 1) 0 0) (.out), .migrating 0 0 1⟩, eff o _ true (.mg1 ⟨0, false⟩ (.grow 0 0 1)) (.mg2 ⟨0, false⟩ (.grow 0 0 1) 0 0)⟩ :=
    go r32 true (Step.mgLoad (t := true) rfl rfl rfl) rfl rfl rfl rfl rfl
  have r34 : HReach o 0 1 ⟨⟨.mark 0, 0, (upd (upd (upd (fun _ => none) 0 (some ⟨0, none, 0, 1⟩)) 1 (some ⟨1, none, 0, 1⟩)) 0 (some ⟨0, some 1, 0, 1⟩)), (upd (upd (upd (fun _ => false) 0 true) 0 false) 0 true), (upd (upd (upd (upd (fun _ => none) 0 (some 0)) 0 none) 0 (some 0)) 0 none), (upd (fun _ => none) 0 (some 0)), 1, at2 (.mg3 ⟨0, false⟩ (.grow 0 0 1) 0 0) (.out), .migrating 0 0 1⟩, eff o _ true (.mg2 ⟨0, false⟩ (.grow 0 0 1) 0 0) (.mg3 ⟨0, false⟩ (.grow 0 0 1) 0 0)⟩ :=
    go r33 true (Step.mgStore (t := true) rfl) rfl rfl rfl rfl rfl
  have r35 : HReach o 0 1 ⟨⟨.mark 0, 0, (upd (upd (upd (fun _ => none) 0 (some ⟨0, none, 0, 1⟩)) 1 (some ⟨1, none, 0, 1⟩)) 0 (some ⟨0, some 1, 0, 1⟩)), (upd (upd (upd (fun _ => false) 0 true) 0 false) 0 true), (upd (upd (upd (upd (fun _ => none) 0 (some 0)) 0 none) 0 (some 0)) 0 none), (upd (fun _ => none) 0 (some 0)), 1, at2 (.mg4 ⟨0, false⟩ (.grow 0 0 1) 0 0 1) (.out), .migrating 0 0 1⟩, eff o _ true (.mg3 ⟨0, false⟩ (.grow 0 0 1) 0 0) (.mg4 ⟨0, false⟩ (.grow 0 0 1) 0 0 1)⟩ :=
    go r34 true (Step.mgNext (t := true) rfl rfl rfl rfl) rfl rfl rfl rfl rfl
  have r36 : HReach o 0 1 ⟨⟨.mark 0, 0, (upd (upd (upd (upd (fun _ => none) 0 (some ⟨0, none, 0, 1⟩)) 1 (some ⟨1, none, 0, 1⟩)) 0 (some ⟨0, some 1, 0, 1⟩)) 0 (some ⟨0, some 1, 1, 1⟩)), (upd (upd (upd (fun _ => false) 0 true) 0 false) 0 true), (upd (upd (upd (upd (fun _ => none) 0 (some 0)) 0 none) 0 (some 0)) 0 none), (upd (fun _ => none) 0 (some 0)), 1, at2 (.mg5 ⟨0, false⟩ (.grow 0 0 1) 0 0 1 0) (.out), .migrating 0 0 1⟩, eff o _ true (.mg4 ⟨0, false⟩ (.grow 0 0 1) 0 0 1) (.mg5 ⟨0, false⟩ (.grow 0 0 1) 0 0 1 0)⟩ :=
    go r35 true (Step.mgClaim (t := true) rfl rfl rfl (Nat.lt_succ_self 0)) rfl rfl rfl rfl rfl
  refine ⟨_, r36, rfl, rfl, ?_, ?_⟩
  · rintro (rfl | rfl) <;> decide
  · rintro rfl; decide

/-- **C69, these orders and no others are needed**: whatever the orders are, all executions are free of these data
races exactly if the loads of `_table` acquire and its exchanges release, the stores to `ops_protect`,
`mig_protect` and `used` release and the loads of the first two and the exchange of the third acquire, the exchange
of `_next_table` releases and its loads acquire. -/
theorem C69_sync_orders_needed_partial (o : Orders) : (∀ x : HSt Bool Nat, HReach o 0 1 x → x.Safe) ↔ o.Ok := by
  refine ⟨fun h => ?_, fun ho x h => C69_sync_accesses_ordered_partial ho h⟩
  constructor
  · cases e : o.tabLd with
    | true => rfl
    | false =>
      obtain ⟨x, hr, hp, hd, hk, -⟩ := ex_tab { codeOrders with tabLd := false }
      obtain ⟨b, hr', hb⟩ := hr.weaken (o := o) (by
        constructor <;> first
          | exact fun _ => rfl
          | exact fun h => (by rw [e] at h; cases h))
      have := hb.know _ _ ((h _ hr').1 _ _ _ _ hp (.made 1) (by rw [← hd]; exact congrFun hb.done _)
        (by intro w e; cases e <;> decide) (by intro w i c e; cases e <;> decide) (by intro w i c e; cases e <;> decide))
      rw [hk (.inr rfl)] at this; cases this
  · cases e : o.tabX with
    | true => rfl
    | false =>
      obtain ⟨x, hr, hp, hd, hk, -⟩ := ex_tab { codeOrders with tabX := false }
      obtain ⟨b, hr', hb⟩ := hr.weaken (o := o) (by
        constructor <;> first
          | exact fun _ => rfl
          | exact fun h => (by rw [e] at h; cases h))
      have := hb.know _ _ ((h _ hr').1 _ _ _ _ hp (.made 1) (by rw [← hd]; exact congrFun hb.done _)
        (by intro w e; cases e <;> decide) (by intro w i c e; cases e <;> decide) (by intro w i c e; cases e <;> decide))
      rw [hk (.inl rfl)] at this; cases this
  · cases e : o.opsSt with
    | true => rfl
    | false =>
      obtain ⟨x, hr, hp, hd, hk, -⟩ := ex_ops { codeOrders with opsSt := false }
      obtain ⟨b, hr', hb⟩ := hr.weaken (o := o) (by
        constructor <;> first
          | exact fun _ => rfl
          | exact fun h => (by rw [e] at h; cases h))
      have := hb.know _ _ ((h _ hr').2.1 _ _ _ _ _ _ _ hp (.op 0 1 0) (by rw [← hd]; exact congrFun hb.done _)
        (by intro w e; cases e <;> decide) (by intro w i c e; cases e <;> decide) (by intro w i c e; cases e <;> decide))
      rw [hk (.inl rfl)] at this; cases this
  · cases e : o.opsLd with
    | true => rfl
    | false =>
      obtain ⟨x, hr, hp, hd, hk, -⟩ := ex_ops { codeOrders with opsLd := false }
      obtain ⟨b, hr', hb⟩ := hr.weaken (o := o) (by
        constructor <;> first
          | exact fun _ => rfl
          | exact fun h => (by rw [e] at h; cases h))
      have := hb.know _ _ ((h _ hr').2.1 _ _ _ _ _ _ _ hp (.op 0 1 0) (by rw [← hd]; exact congrFun hb.done _)
        (by intro w e; cases e <;> decide) (by intro w i c e; cases e <;> decide) (by intro w i c e; cases e <;> decide))
      rw [hk (.inr rfl)] at this; cases this
  · cases e : o.migSt with
    | true => rfl
    | false =>
      obtain ⟨x, hr, hp, hd, hk, -⟩ := ex_mig { codeOrders with migSt := false }
      obtain ⟨b, hr', hb⟩ := hr.weaken (o := o) (by
        constructor <;> first
          | exact fun _ => rfl
          | exact fun h => (by rw [e] at h; cases h))
      have := hb.know _ _ ((h _ hr').2.2 _ _ _ _ hp (.blk 0 0 1) (by rw [← hd]; exact congrFun hb.done _)
        (by intro w e; cases e <;> decide) (by intro w i c e; cases e <;> decide) (by intro w i c e; cases e <;> decide))
      rw [hk (.inl rfl)] at this; cases this
  · cases e : o.migLd with
    | true => rfl
    | false =>
      obtain ⟨x, hr, hp, hd, hk, -⟩ := ex_mig { codeOrders with migLd := false }
      obtain ⟨b, hr', hb⟩ := hr.weaken (o := o) (by
        constructor <;> first
          | exact fun _ => rfl
          | exact fun h => (by rw [e] at h; cases h))
      have := hb.know _ _ ((h _ hr').2.2 _ _ _ _ hp (.blk 0 0 1) (by rw [← hd]; exact congrFun hb.done _)
        (by intro w e; cases e <;> decide) (by intro w i c e; cases e <;> decide) (by intro w i c e; cases e <;> decide))
      rw [hk (.inr rfl)] at this; cases this
  · cases e : o.nextX with
    | true => rfl
    | false =>
      obtain ⟨x, hr, hp, hd, hk, -⟩ := ex_next { codeOrders with nextX := false }
      obtain ⟨b, hr', hb⟩ := hr.weaken (o := o) (by
        constructor <;> first
          | exact fun _ => rfl
          | exact fun h => (by rw [e] at h; cases h))
      have := hb.know _ _ ((h _ hr').2.1 _ _ _ _ _ _ _ hp (.made 1) (by rw [← hd]; exact congrFun hb.done _)
        (by intro w e; cases e <;> decide) (by intro w i c e; cases e <;> decide) (by intro w i c e; cases e <;> decide))
      rw [hk (.inl rfl)] at this; cases this
  · cases e : o.nextLd with
    | true => rfl
    | false =>
      obtain ⟨x, hr, hp, hd, hk, -⟩ := ex_next { codeOrders with nextLd := false }
      obtain ⟨b, hr', hb⟩ := hr.weaken (o := o) (by
        constructor <;> first
          | exact fun _ => rfl
          | exact fun h => (by rw [e] at h; cases h))
      have := hb.know _ _ ((h _ hr').2.1 _ _ _ _ _ _ _ hp (.made 1) (by rw [← hd]; exact congrFun hb.done _)
        (by intro w e; cases e <;> decide) (by intro w i c e; cases e <;> decide) (by intro w i c e; cases e <;> decide))
      rw [hk (.inr rfl)] at this; cases this
  · cases e : o.usedSt with
    | true => rfl
    | false =>
      obtain ⟨x, hr, hp, hd, hk, -⟩ := ex_used { codeOrders with usedSt := false }
      obtain ⟨b, hr', hb⟩ := hr.weaken (o := o) (by
        constructor <;> first
          | exact fun _ => rfl
          | exact fun h => (by rw [e] at h; cases h))
      have := hb.know _ _ ((h _ hr').2.1 _ _ _ _ _ _ _ hp (.op 0 0 0) (by rw [← hd]; exact congrFun hb.done _)
        (by intro w e; cases e <;> decide) (by intro w i c e; cases e <;> decide) (by intro w i c e; cases e <;> decide))
      rw [hk (.inl rfl)] at this; cases this
  · cases e : o.usedX with
    | true => rfl
    | false =>
      obtain ⟨x, hr, hp, hd, hk, -⟩ := ex_used { codeOrders with usedX := false }
      obtain ⟨b, hr', hb⟩ := hr.weaken (o := o) (by
        constructor <;> first
          | exact fun _ => rfl
          | exact fun h => (by rw [e] at h; cases h))
      have := hb.know _ _ ((h _ hr').2.1 _ _ _ _ _ _ _ hp (.op 0 0 0) (by rw [← hd]; exact congrFun hb.done _)
        (by intro w e; cases e <;> decide) (by intro w i c e; cases e <;> decide) (by intro w i c e; cases e <;> decide))
      rw [hk (.inr rfl)] at this; cases this

/-- **C69 for the orders in the code**: every execution of the protocol carries a happens-before relation, and in
none of them is there a data race of this kind. -/
theorem C69_sync_code_partial [Inhabited T] {a : A} {n : Nat} {s : St T A} (h : Reach false a n s) :
    (∃ b, HReach codeOrders a n ⟨s, b⟩) ∧ ∀ b, HReach codeOrders a n ⟨s, b⟩ → HSt.Safe ⟨s, b⟩ :=
  ⟨HReach.lift codeOrders h,
    fun _ h => C69_sync_accesses_ordered_partial ⟨rfl, rfl, rfl, rfl, rfl, rfl, rfl, rfl, rfl, rfl⟩ h⟩

/-- **C69, not vacuous**: with the orders in the code there are executions in which a thread migrates a block after
an operation of another thread, a thread uses a table that another one has made, and a thread is about to delete
a table from which another one has migrated a block; each of them knows the access of the other thread. -/
theorem C69_sync_not_vacuous :
    (∃ x : HSt Bool Nat, HReach codeOrders 0 1 x ∧ x.s.pc true = .mg5 ⟨0, false⟩ (.grow 0 0 1) 0 0 1 0 ∧
      x.b.done (.op 0 1 0) = true ∧ x.b.know true (.op 0 1 0) = true) ∧
    (∃ x : HSt Bool Nat, HReach codeOrders 0 1 x ∧ x.s.pc false = .op ⟨1, false⟩ 1 1 ∧
      x.b.done (.made 1) = true ∧ x.b.know false (.made 1) = true) ∧
    ∃ x : HSt Bool Nat, HReach codeOrders 0 1 x ∧ x.s.pc true = .gr14 ⟨0, false⟩ 0 0 ∧
      x.b.done (.blk 0 0 1) = true ∧ x.b.know true (.blk 0 0 1) = true := by
  obtain ⟨x, h1, h2, h3, -, h4⟩ := ex_ops codeOrders
  obtain ⟨y, i1, i2, i3, -, i4⟩ := ex_tab codeOrders
  obtain ⟨z, j1, j2, j3, -, j4⟩ := ex_mig codeOrders
  exact ⟨⟨x, h1, h2, h3, h4 rfl⟩, ⟨y, i1, i2, i3, i4 rfl⟩, ⟨z, j1, j2, j3, j4 rfl⟩⟩

end
end Sync
end Growt
