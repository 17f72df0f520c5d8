import Verif.Moves

/-!
# C57: handles may be moved

A handle may be moved (the move constructor is public), and its source destroyed: afterwards every operation of
the new handle, and its thread in the pool, access only objects that exist and are initialised.
-/

namespace Growt
namespace Moves

theorem set_same {X : Type} (f : Nat → X) (i : Nat) (x : X) : set f i x i = x := by simp [set]

theorem set_ne {X : Type} (f : Nat → X) {i j : Nat} (x : X) (h : j ≠ i) : set f i x j = f j := by simp [set, h]

/-- An action that the partial theorem allows: handles that have been moved from are not destroyed.
(specification, no code) -/
def Act.harmless (s : St) : Act → Prop
  | .destroy i => ∀ h, s.hdl i = .alive h → h.moved = false
  | _ => True

/-- Executions in which no handle is destroyed that has been moved from. (specification, no code) -/
inductive Exec (pool typo : Bool) : St → Prop where
  | init : Exec pool typo .init
  | step {s s' : St} {a : Act} (h : Exec pool typo s) (ha : a.harmless s) (hs : step pool typo s a = .ok s') :
      Exec pool typo s'

/-- Who refers to whom. (specification, no code) -/
structure Inv (s : St) : Prop where
  ref : ∀ i h, s.hdl i = .alive h → ∃ h', s.hdl h.ref = .alive h' ∧ (h.ref = i ∨ h'.moved = true)
  fin : ∀ i h, s.hdl i = .alive h → h.moved = false → h.fin = h.thread
  thread : ∀ i h p, s.hdl i = .alive h → h.thread = some p →
    (∃ w, s.thr p = .alive w ∧ w.flag = p) ∧ s.flag p = .alive ()
  own : ∀ i j h h' p, s.hdl i = .alive h → s.hdl j = .alive h' → h.thread = some p → h'.thread = some p → i = j
  born : ∀ p, s.hdl p = .unborn → s.thr p = .unborn ∧ s.flag p = .unborn ∧
    ∀ i h, s.hdl i = .alive h → h.thread ≠ some p
  estrat : ∀ p w, s.thr p = .alive w → w.flag = p ∧ s.flag p = .alive () ∧
    ∃ h', s.hdl w.estrat = .alive h' ∧ (h'.moved = true ∨ h'.thread = some p)
  left : ∀ i h, s.hdl i = .alive h → h.moved = true → h.thread = none ∧ h.fin = none

theorem Inv.init : Inv .init := by
  constructor <;> intros <;> first
    | (rename_i h; cases h; done)
    | (rename_i h _; cases h; done)
    | (rename_i h _ _ _; cases h; done)
    | exact ⟨rfl, rfl, fun _ _ h => by cases h⟩

theorem Inv.create {pool : Bool} {s s' : St} {i : Nat} (I : Inv s) (hs : create pool s i = .ok s') : Inv s' := by
  unfold Moves.create at hs
  split at hs
  case h_2 => cases hs
  rename_i hi
  obtain ⟨bt, bf, bo⟩ := I.born i hi
  cases pool
  · simp only [Bool.false_eq_true, if_false] at hs
    cases hs
    have old : ∀ {j h}, set s.hdl i (.alive ⟨i, none, none, false⟩) j = .alive h →
        j = i ∧ h = ⟨i, none, none, false⟩ ∨ j ≠ i ∧ s.hdl j = .alive h := by
      intro j h hj
      by_cases e : j = i
      · subst e; rw [set_same] at hj; cases hj; exact .inl ⟨rfl, rfl⟩
      · rw [set_ne _ _ e] at hj; exact .inr ⟨e, hj⟩
    have keep : ∀ {j h}, s.hdl j = .alive h → set s.hdl i (.alive ⟨i, none, none, false⟩) j = .alive h := by
      intro j h hj
      rw [set_ne]
      · exact hj
      · intro e; subst e; rw [hi] at hj; cases hj
    refine ⟨fun j h hj => ?_, fun j h hj hm => ?_, fun j h p hj hp => ?_, fun j k h h' p hj hk hp hp' => ?_,
      fun p hp => ?_, fun p w hw => ?_, fun j h hj hm => ?_⟩
    · rcases old hj with ⟨e, rfl⟩ | ⟨e, hj⟩
      · exact ⟨_, set_same _ _ _, .inl e.symm⟩
      · obtain ⟨h', h1, h2⟩ := I.ref j h hj
        exact ⟨h', keep h1, h2⟩
    · rcases old hj with ⟨e, rfl⟩ | ⟨e, hj⟩
      · rfl
      · exact I.fin j h hj hm
    · rcases old hj with ⟨e, rfl⟩ | ⟨e, hj⟩
      · cases hp
      · exact I.thread j h p hj hp
    · rcases old hj with ⟨e, rfl⟩ | ⟨e, hj⟩
      · cases hp
      · rcases old hk with ⟨e, rfl⟩ | ⟨e, hk⟩
        · cases hp'
        · exact I.own j k h h' p hj hk hp hp'
    · have hne : p ≠ i := by
        intro e; subst e
        have hp : set s.hdl p _ p = .unborn := hp
        rw [set_same] at hp; cases hp
      have hp' : s.hdl p = .unborn := by
        have hp : set s.hdl i _ p = .unborn := hp
        rw [set_ne _ _ hne] at hp; exact hp
      obtain ⟨h1, h2, h3⟩ := I.born p hp'
      refine ⟨h1, h2, fun j h hj => ?_⟩
      rcases old hj with ⟨e, rfl⟩ | ⟨e, hj⟩
      · nofun
      · exact h3 j h hj
    · obtain ⟨h1, h2, h', h3, h4⟩ := I.estrat p w hw
      exact ⟨h1, h2, h', keep h3, h4⟩
    · rcases old hj with ⟨e, rfl⟩ | ⟨e, hj⟩
      · cases hm
      · exact I.left j h hj hm
  · simp only [if_true] at hs
    cases hs
    have old : ∀ {j h}, set s.hdl i (.alive ⟨i, some i, some i, false⟩) j = .alive h →
        j = i ∧ h = ⟨i, some i, some i, false⟩ ∨ j ≠ i ∧ s.hdl j = .alive h := by
      intro j h hj
      by_cases e : j = i
      · subst e; rw [set_same] at hj; cases hj; exact .inl ⟨rfl, rfl⟩
      · rw [set_ne _ _ e] at hj; exact .inr ⟨e, hj⟩
    have keep : ∀ {j h}, s.hdl j = .alive h → set s.hdl i (.alive ⟨i, some i, some i, false⟩) j = .alive h := by
      intro j h hj
      rw [set_ne]
      · exact hj
      · intro e; subst e; rw [hi] at hj; cases hj
    have fl : ∀ {p}, s.flag p = .alive () → set s.flag i (.alive ()) p = .alive () := by
      intro p hp
      rw [set_ne]
      · exact hp
      · intro e; subst e; rw [bf] at hp; cases hp
    refine ⟨fun j h hj => ?_, fun j h hj hm => ?_, fun j h p hj hp => ?_, fun j k h h' p hj hk hp hp' => ?_,
      fun p hp => ?_, fun p w hw => ?_, fun j h hj hm => ?_⟩
    · rcases old hj with ⟨e, rfl⟩ | ⟨e, hj⟩
      · exact ⟨_, set_same _ _ _, .inl e.symm⟩
      · obtain ⟨h', h1, h2⟩ := I.ref j h hj
        exact ⟨h', keep h1, h2⟩
    · rcases old hj with ⟨e, rfl⟩ | ⟨e, hj⟩
      · rfl
      · exact I.fin j h hj hm
    · rcases old hj with ⟨e, rfl⟩ | ⟨e, hj⟩
      · cases hp
        exact ⟨⟨_, set_same _ _ _, rfl⟩, set_same _ _ _⟩
      · obtain ⟨⟨w, h1, h2⟩, h3⟩ := I.thread j h p hj hp
        refine ⟨⟨w, ?_, h2⟩, fl h3⟩
        show set s.thr i _ p = _
        rw [set_ne]
        · exact h1
        · intro e; subst e; rw [bt] at h1; cases h1
    · rcases old hj with ⟨e, rfl⟩ | ⟨e, hj⟩
      · cases hp
        rcases old hk with ⟨e', rfl⟩ | ⟨e', hk⟩
        · rw [e, e']
        · exact absurd hp' (bo k h' hk)
      · rcases old hk with ⟨e', rfl⟩ | ⟨e', hk⟩
        · cases hp'
          exact absurd hp (bo j h hj)
        · exact I.own j k h h' p hj hk hp hp'
    · have hne : p ≠ i := by
        intro e; subst e
        have hp : set s.hdl p _ p = .unborn := hp
        rw [set_same] at hp; cases hp
      have hp' : s.hdl p = .unborn := by
        have hp : set s.hdl i _ p = .unborn := hp
        rw [set_ne _ _ hne] at hp; exact hp
      obtain ⟨h1, h2, h3⟩ := I.born p hp'
      refine ⟨?_, ?_, fun j h hj => ?_⟩
      · show set s.thr i _ p = _
        rw [set_ne _ _ hne]; exact h1
      · show set s.flag i _ p = _
        rw [set_ne _ _ hne]; exact h2
      · rcases old hj with ⟨e, rfl⟩ | ⟨e, hj⟩
        · intro e; cases e; exact hne rfl
        · exact h3 j h hj
    · have hw : set s.thr i _ p = .alive w := hw
      by_cases e : p = i
      · subst e
        rw [set_same] at hw; cases hw
        exact ⟨rfl, set_same _ _ _, _, set_same _ _ _, .inr rfl⟩
      · rw [set_ne _ _ e] at hw
        obtain ⟨h1, h2, h', h3, h4⟩ := I.estrat p w hw
        exact ⟨h1, fl h2, h', keep h3, h4⟩
    · rcases old hj with ⟨e, rfl⟩ | ⟨e, hj⟩
      · cases hm
      · exact I.left j h hj hm

theorem Inv.move {pool typo : Bool} {s s' : St} {i k : Nat} (I : Inv s) (hs : move pool typo s i k = .ok s') :
    Inv s' := by
  unfold Moves.move at hs
  split at hs
  case h_2 => cases hs
  rename_i h hi hk
  split at hs
  · cases hs
  rename_i hmv
  split at hs
  · cases hs
  cases hs
  simp only [Bool.or_eq_true, beq_iff_eq, not_or, Bool.not_eq_true] at hmv
  obtain ⟨hm, hik⟩ := hmv
  have hki : k ≠ i := fun e => hik e.symm
  have old : ∀ {j x}, set (set s.hdl i (.alive ⟨h.ref, none, none, true⟩)) k
        (.alive ⟨h.ref, h.thread, h.fin, false⟩) j = .alive x →
      j = k ∧ x = ⟨h.ref, h.thread, h.fin, false⟩ ∨ j = i ∧ x = ⟨h.ref, none, none, true⟩ ∨
        j ≠ k ∧ j ≠ i ∧ s.hdl j = .alive x := by
    intro j x hj
    by_cases e : j = k
    · subst e; rw [set_same] at hj; cases hj; exact .inl ⟨rfl, rfl⟩
    · rw [set_ne _ _ e] at hj
      by_cases e' : j = i
      · subst e'; rw [set_same] at hj; cases hj; exact .inr (.inl ⟨rfl, rfl⟩)
      · rw [set_ne _ _ e'] at hj; exact .inr (.inr ⟨e, e', hj⟩)
  have keep : ∀ {j x}, s.hdl j = .alive x → ∃ x', set (set s.hdl i (.alive ⟨h.ref, none, none, true⟩)) k
        (.alive ⟨h.ref, h.thread, h.fin, false⟩) j = .alive x' ∧ (x' = x ∧ j ≠ i ∨ j = i ∧ x'.moved = true) := by
    intro j x hj
    have e : j ≠ k := by intro e; subst e; rw [hk] at hj; cases hj
    rw [set_ne _ _ e]
    by_cases e' : j = i
    · subst e'; exact ⟨_, set_same _ _ _, .inr ⟨rfl, rfl⟩⟩
    · rw [set_ne _ _ e']; exact ⟨x, hj, .inl ⟨rfl, e'⟩⟩
  refine ⟨fun j x hj => ?_, fun j x hj hm' => ?_, fun j x p hj hp => ?_, fun j j' x x' p hj hj' hp hp' => ?_,
    fun p hp => ?_, fun p w hw => ?_, fun j x hj hm' => ?_⟩
  · obtain ⟨y, h1, h2⟩ := I.ref i h hi
    obtain ⟨y', h3, h4⟩ := keep h1
    have hy : y'.moved = true := by
      rcases h4 with ⟨e, e'⟩ | ⟨e, e'⟩
      · rcases h2 with h2 | h2
        · exact absurd h2 e'
        · rw [e]; exact h2
      · exact e'
    rcases old hj with ⟨e, rfl⟩ | ⟨e, rfl⟩ | ⟨e, e', hj⟩
    · exact ⟨y', h3, .inr hy⟩
    · exact ⟨y', h3, .inr hy⟩
    · obtain ⟨z, h5, h6⟩ := I.ref j x hj
      obtain ⟨z', h7, h8⟩ := keep h5
      refine ⟨z', h7, ?_⟩
      rcases h8 with ⟨e1, -⟩ | ⟨-, e2⟩
      · rw [e1]; exact h6
      · exact .inr e2
  · rcases old hj with ⟨e, rfl⟩ | ⟨e, rfl⟩ | ⟨e, e', hj⟩
    · exact I.fin i h hi hm
    · cases hm'
    · exact I.fin j x hj hm'
  · rcases old hj with ⟨e, rfl⟩ | ⟨e, rfl⟩ | ⟨e, e', hj⟩
    · exact I.thread i h p hi hp
    · cases hp
    · exact I.thread j x p hj hp
  · rcases old hj with ⟨e, rfl⟩ | ⟨e, rfl⟩ | ⟨e, e', hj⟩
    · rcases old hj' with ⟨f, rfl⟩ | ⟨f, rfl⟩ | ⟨f, f', hj'⟩
      · rw [e, f]
      · cases hp'
      · exact absurd (I.own _ _ _ _ p hi hj' hp hp') (fun e => f' e.symm)
    · cases hp
    · rcases old hj' with ⟨f, rfl⟩ | ⟨f, rfl⟩ | ⟨f, f', hj'⟩
      · exact absurd (I.own _ _ _ _ p hj hi hp hp') e'
      · cases hp'
      · exact I.own _ _ _ _ p hj hj' hp hp'
  · have hp : set (set s.hdl i _) k _ p = .unborn := hp
    have e1 : p ≠ k := by intro e; subst e; rw [set_same] at hp; cases hp
    rw [set_ne _ _ e1] at hp
    have e2 : p ≠ i := by intro e; subst e; rw [set_same] at hp; cases hp
    rw [set_ne _ _ e2] at hp
    obtain ⟨h1, h2, h3⟩ := I.born p hp
    refine ⟨h1, h2, fun j x hj => ?_⟩
    rcases old hj with ⟨e, rfl⟩ | ⟨e, rfl⟩ | ⟨e, e', hj⟩
    · exact h3 i h hi
    · nofun
    · exact h3 j x hj
  · obtain ⟨h1, h2, y, h3, h4⟩ := I.estrat p w hw
    obtain ⟨y', h5, h6⟩ := keep h3
    refine ⟨h1, h2, y', h5, ?_⟩
    rcases h6 with ⟨e1, -⟩ | ⟨-, e2⟩
    · rw [e1]; exact h4
    · exact .inl e2
  · rcases old hj with ⟨e, rfl⟩ | ⟨e, rfl⟩ | ⟨e, e', hj⟩
    · cases hm'
    · exact ⟨rfl, rfl⟩
    · exact I.left j x hj hm'

theorem Inv.destroy {s s' : St} {i : Nat} (I : Inv s) (ha : ∀ h, s.hdl i = .alive h → h.moved = false)
    (hs : destroy s i = .ok s') : Inv s' := by
  unfold Moves.destroy at hs
  split at hs
  case h_2 => cases hs
  rename_i h hi
  have hm := ha h hi
  have hfin := I.fin i h hi hm
  have old : ∀ {j x}, set s.hdl i .dead j = .alive x → j ≠ i ∧ s.hdl j = .alive x := by
    intro j x hj
    by_cases e : j = i
    · subst e; rw [set_same] at hj; cases hj
    · rw [set_ne _ _ e] at hj; exact ⟨e, hj⟩
  have unb : ∀ {p}, set s.hdl i .dead p = .unborn → s.hdl p = .unborn := by
    intro p hp
    by_cases e : p = i
    · subst e; rw [set_same] at hp; cases hp
    · rw [set_ne _ _ e] at hp; exact hp
  have ref : ∀ j x, set s.hdl i .dead j = .alive x →
      ∃ x', set s.hdl i .dead x.ref = .alive x' ∧ (x.ref = j ∨ x'.moved = true) := by
    intro j x hj
    obtain ⟨e, hj⟩ := old hj
    obtain ⟨x', h1, h2⟩ := I.ref j x hj
    refine ⟨x', ?_, h2⟩
    rw [set_ne]
    · exact h1
    · intro e'
      rcases h2 with h2 | h2
      · exact e (h2.symm.trans e')
      · rw [e', hi] at h1; cases h1
        rw [hm] at h2; cases h2
  split at hs
  · rename_i hth
    rw [hfin, hth] at hs
    cases hs
    refine ⟨ref, fun j x hj => I.fin j x (old hj).2, fun j x p hj => I.thread j x p (old hj).2,
      fun j k x x' p hj hk => I.own j k x x' p (old hj).2 (old hk).2, fun p hp => ?_, fun p w hw => ?_,
      fun j x hj => I.left j x (old hj).2⟩
    · obtain ⟨h1, h2, h3⟩ := I.born p (unb hp)
      exact ⟨h1, h2, fun j x hj => h3 j x (old hj).2⟩
    · obtain ⟨h1, h2, y, h3, h4⟩ := I.estrat p w hw
      refine ⟨h1, h2, y, ?_, h4⟩
      show set s.hdl i .dead w.estrat = _
      rw [set_ne]
      · exact h3
      · intro e
        rw [e, hi] at h3; cases h3
        rcases h4 with h4 | h4
        · rw [hm] at h4; cases h4
        · rw [hth] at h4; cases h4
  · rename_i p hth
    rw [hfin, hth] at hs
    split at hs
    case h_2 => cases hs
    rename_i f w hf hw
    cases hf
    split at hs
    case isFalse => cases hs
    cases hs
    have noth : ∀ {j x q}, j ≠ i → s.hdl j = .alive x → x.thread = some q → q ≠ p := by
      intro j x q e hj hq e'
      subst e'
      exact e (I.own _ _ _ _ q hj hi hq hth)
    refine ⟨ref, fun j x hj => I.fin j x (old hj).2, fun j x q hj hq => ?_,
      fun j k x x' p hj hk => I.own j k x x' p (old hj).2 (old hk).2, fun q hq => ?_, fun q w' hw' => ?_,
      fun j x hj => I.left j x (old hj).2⟩
    · obtain ⟨e, hj⟩ := old hj
      obtain ⟨⟨w', h1, h2⟩, h3⟩ := I.thread j x q hj hq
      have hne := noth e hj hq
      refine ⟨⟨w', ?_, h2⟩, ?_⟩
      · show set s.thr p .dead q = _
        rw [set_ne _ _ hne]; exact h1
      · show set s.flag p .dead q = _
        rw [set_ne _ _ hne]; exact h3
    · obtain ⟨h1, h2, h3⟩ := I.born q (unb hq)
      have hne : q ≠ p := by intro e; subst e; exact h3 i h hi hth
      refine ⟨?_, ?_, fun j x hj => h3 j x (old hj).2⟩
      · show set s.thr p .dead q = _
        rw [set_ne _ _ hne]; exact h1
      · show set s.flag p .dead q = _
        rw [set_ne _ _ hne]; exact h2
    · have hw' : set s.thr p .dead q = .alive w' := hw'
      have hne : q ≠ p := by intro e; subst e; rw [set_same] at hw'; cases hw'
      rw [set_ne _ _ hne] at hw'
      obtain ⟨h1, h2, y, h3, h4⟩ := I.estrat q w' hw'
      refine ⟨h1, ?_, y, ?_, h4⟩
      · show set s.flag p .dead q = _
        rw [set_ne _ _ hne]; exact h2
      · show set s.hdl i .dead w'.estrat = _
        rw [set_ne]
        · exact h3
        · intro e
          rw [e, hi] at h3; cases h3
          rcases h4 with h4 | h4
          · rw [hm] at h4; cases h4
          · rw [hth] at h4; cases h4; exact hne rfl

theorem Inv.grow {s s' : St} {i : Nat} (I : Inv s) (hs : grow s i = .ok s') : Inv s' := by
  unfold Moves.grow at hs
  split at hs
  · split at hs
    · cases hs
    · split at hs
      · cases hs; exact I
      · cases hs
  · cases hs

theorem Inv.work {s s' : St} {p : Nat} (I : Inv s) (hs : work s p = .ok s') : Inv s' := by
  unfold Moves.work at hs
  split at hs
  · split at hs
    · cases hs; exact I
    · cases hs
  · cases hs

theorem Exec.inv {pool typo : Bool} {s : St} (h : Exec pool typo s) : Inv s := by
  induction h with
  | init => exact Inv.init
  | @step s s' a _ ha hs ih =>
    cases a with
    | create i => exact ih.create hs
    | move i j => exact ih.move hs
    | destroy i => exact ih.destroy ha hs
    | grow i => exact ih.grow hs
    | work p => exact ih.work hs

/-- Only a part: no undefined behaviour, if no handle is destroyed that has been moved from, and with the pool no
handle is moved at all (or the constructor that moves `_finished` is repaired). -/
theorem C57_no_dangling_partial {pool typo : Bool} {s : St} (h : Exec pool typo s) {a : Act} (ha : a.harmless s)
    (hm : pool = true → typo = true → ∀ i j, a ≠ .move i j) : step pool typo s a ≠ .ub := by
  have I := h.inv
  cases a with
  | create i =>
    show create pool s i ≠ .ub
    unfold create
    split
    · split <;> nofun
    · nofun
  | move i j =>
    show move pool typo s i j ≠ .ub
    unfold move
    split
    · split
      · nofun
      · split
        · rename_i hpt
          rw [Bool.and_eq_true] at hpt
          exact absurd rfl (hm hpt.1 hpt.2 i j)
        · nofun
    · nofun
  | destroy i =>
    show destroy s i ≠ .ub
    unfold destroy
    split
    · rename_i hd hi
      have hmv := ha hd hi
      have hfin := I.fin i hd hi hmv
      split
      · nofun
      · rename_i p hth
        obtain ⟨⟨w, h1, h2⟩, h3⟩ := I.thread i hd p hi hth
        rw [hfin, hth, h1]
        simp only [h2, h3, and_self, if_true]
        nofun
    · nofun
  | grow i =>
    show grow s i ≠ .ub
    unfold grow
    split
    · rename_i hd hi
      obtain ⟨h', h1, -⟩ := I.ref i hd hi
      rw [h1]
      split <;> nofun
    · nofun
  | work p =>
    show work s p ≠ .ub
    unfold work
    split
    · rename_i w hw
      obtain ⟨h1, h2, h', h3, -⟩ := I.estrat p w hw
      rw [h1, h2, h3]
      nofun
    · nofun

/-- The claim is false without the pool: a handle is moved and its source destroyed, then the new handle grows the
table through a worker that does not exist any more. -/
theorem C57_moved_handle_grows : run false true .init [.create 0, .move 0 1, .destroy 0, .grow 1] = .ub := rfl

/-- … for every handle in every state in which the move is possible. -/
theorem C57_moved_handle_always {s s1 s2 : St} {i j : Nat} {h : Hdl} (hi : s.hdl i = .alive h) (href : h.ref = i)
    (h1 : step false true s (.move i j) = .ok s1) (h2 : step false true s1 (.destroy i) = .ok s2) :
    step false true s2 (.grow j) = .ub := by
  have h1 : move false true s i j = .ok s1 := h1
  unfold move at h1
  rw [hi] at h1
  split at h1
  case h_2 => cases h1
  rename_i h' hj hh hu
  cases hh
  split at h1
  · cases h1
  rename_i hmv
  simp only [Bool.or_eq_true, beq_iff_eq, not_or] at hmv
  have hij : i ≠ j := hmv.2
  simp only [Bool.false_and, Bool.false_eq_true, if_false] at h1
  cases h1
  have hd : destroy _ i = .ok s2 := h2
  unfold destroy at hd
  simp only [set_ne _ _ hij, set_same] at hd
  cases hd
  show grow _ j = .ub
  unfold grow
  simp only [set_ne _ _ (fun e => hij e.symm : j ≠ i), set_same, href]
  rfl

/-- With the pool the move itself reads a pointer that is not initialised. -/
theorem C57_pool_move_reads_itself : run true true .init [.create 0, .move 0 1] = .ub := rfl

/-- And if that is repaired, the thread of the pool still works for the handle that has been destroyed. -/
theorem C57_pool_thread_of_destroyed_handle :
    run true false .init [.create 0, .move 0 1, .destroy 0, .work 0] = .ub ∧
    run true false .init [.create 0, .move 0 1, .destroy 0, .grow 1] = .ub := ⟨rfl, rfl⟩

/-- Two handles come and go, with their threads; and a handle is moved twice while the others stay alive. -/
theorem C57_not_vacuous :
    (∃ s, run true true .init [.create 0, .create 1, .grow 0, .work 0, .work 1, .destroy 0, .grow 1, .work 1,
      .destroy 1] = .ok s) ∧
    ∃ s, run false true .init [.create 0, .move 0 1, .grow 1, .move 1 2, .grow 2, .destroy 2] = .ok s ∧
      Exec false true s := by
  refine ⟨⟨_, rfl⟩, _, rfl, ?_⟩
  have e0 : Exec false true .init := .init
  have e1 := e0.step (a := .create 0) trivial rfl
  have e2 := e1.step (a := .move 0 1) trivial rfl
  have e3 := e2.step (a := .grow 1) trivial rfl
  have e4 := e3.step (a := .move 1 2) trivial rfl
  have e5 := e4.step (a := .grow 2) trivial rfl
  exact e5.step (a := .destroy 2) (fun h hh => by cases hh; rfl) rfl

end Moves
end Growt
