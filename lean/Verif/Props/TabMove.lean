import Verif.TabMove

/-!
# C64: table objects may be moved
-/

set_option linter.unusedSectionVars false

namespace Growt
namespace TabMove

/-- **C64** (partial).  For every program that constructs, fills, moves and destroys table objects: unless
it ends the life of a moved-from object whose destructor reads slots, or swaps arrays into a table object
that still has one, no step is undefined, every object has exactly the elements it should have, and the
memory consists of the arrays of the objects and (for heap slots) of one block for each of their elements.

Missing: the excluded programs, see `C64_moved_from_destructor_reads_null` and
`C64_transactional_assignment_wrong_size`. -/
theorem C64_tables_move_partial (c : Cfg) (l : List Act) (w : World)
    (hl : specRun (fun _ => none) l = some w) (ha : AllAllowed c (fun _ => none) l) :
    run c St.init l ≠ .bad ∧
    ∀ s, run c St.init l = .ok s →
      (∀ i, view s i = w i) ∧
      (∀ a, (s.arrs a).isSome ↔ ∃ i o, s.objs i = some o ∧ o.table = some a) ∧
      (c.clean = true → ∀ b, s.blocks b = true ↔ ∃ i n sl p, w i = some (some (n, sl)) ∧ sl p = some b) := by
  rcases (Good.init c).run hl ha with e | ⟨s, e, g⟩
  · exact ⟨(by rw [e]; intro h; cases h), fun s h => by rw [e] at h; cases h⟩
  · refine ⟨(by rw [e]; intro h; cases h), fun s' h => ?_⟩
    rw [e] at h
    cases h
    refine ⟨fun i => congrFun g.view i, fun a => ⟨fun h => ?_, ?_⟩, fun hc b => ⟨fun h => ?_, ?_⟩⟩
    · obtain ⟨A, hA⟩ := Option.isSome_iff_exists.mp h
      exact g.own.all a A hA
    · rintro ⟨i, o, hi, ht⟩
      obtain ⟨A, hA, _⟩ := g.own.have_ i o a hi ht
      exact Option.isSome_iff_exists.mpr ⟨A, hA⟩
    · obtain ⟨a, A, p, hA, hp⟩ := (g.blk hc).all b h
      obtain ⟨i, o, hi, ht⟩ := g.own.all a A hA
      exact ⟨i, o.total, A.slots, p, by rw [← g.view]; exact view_has hi ht hA, hp⟩
    · rintro ⟨i, n, sl, p, hw, hp⟩
      rw [← g.view] at hw
      cases hi : s.objs i with
      | none => rw [view_none.mpr hi] at hw; cases hw
      | some o =>
        cases ht : o.table with
        | none => rw [(view_moved g.own hi).mpr ht] at hw; cases hw
        | some a =>
          obtain ⟨A, hA, _⟩ := g.own.have_ i o a hi ht
          rw [view_has hi ht hA] at hw
          cases hw
          exact ((g.blk hc).have_ a A p b hA hp).2

/-- Tables for which every program is allowed. -/
theorem allowed_all {c : Cfg} (hs : c.swaps = false) (hc : c.clean = false ∨ c.rest = 0) :
    ∀ (l : List Act) (w : World), AllAllowed c w l
  | [], _ => trivial
  | x :: l, w => ⟨by cases x <;> simp [Allowed, hs, hc], fun w' _ => allowed_all hs hc l w'⟩

/-- **C64** for tables with a buffer behind the addressable slots (`base_linear.hpp:1335-1341` without
`cyclic_probing`) or without heap slots: all programs. -/
theorem C64_linear_probing_moves (cm cp clean : Bool) (g : Nat) (h : cp = false ∨ clean = false)
    (l : List Act) (w : World) (hl : specRun (fun _ => none) l = some w) :
    run (base cm cp clean g) St.init l ≠ .bad ∧
    ∀ s, run (base cm cp clean g) St.init l = .ok s →
      (∀ i, view s i = w i) ∧
      (∀ a, (s.arrs a).isSome ↔ ∃ i o, s.objs i = some o ∧ o.table = some a) ∧
      (clean = true → ∀ b, s.blocks b = true ↔ ∃ i n sl p, w i = some (some (n, sl)) ∧ sl p = some b) :=
  C64_tables_move_partial (base cm cp clean g) l w hl (allowed_all rfl (by
    cases h with
    | inl h => subst h; exact Or.inr rfl
    | inr h => exact Or.inl h) l _)

/-- **C64**: nothing remains when all objects have been destroyed. -/
theorem C64_nothing_remains (c : Cfg) (l : List Act) (hl : specRun (fun _ => none) l = some (fun _ => none))
    (ha : AllAllowed c (fun _ => none) l) (s : St) (hr : run c St.init l = .ok s) :
    (∀ a, s.arrs a = none) ∧ (c.clean = true → ∀ b, s.blocks b = false) := by
  obtain ⟨hv, hA, hB⟩ := (C64_tables_move_partial c l _ hl ha).2 s hr
  refine ⟨fun a => ?_, fun hc b => ?_⟩
  · cases h : s.arrs a with
    | none => rfl
    | some A =>
      obtain ⟨i, o, hi, _⟩ := (hA a).mp (by rw [h]; rfl)
      rw [view_none.mp (hv i)] at hi
      cases hi
  · cases h : s.blocks b with
    | false => rfl
    | true =>
      obtain ⟨i, n, sl, p, hw, _⟩ := (hB hc b).mp h
      cases hw

/-- **C64**, negative: a table with circular probing and heap slots (also `seq_linear` with such slots)
must not be moved: the moved-from object believes to have one slot, and its destructor reads it through
the null pointer.  Any sizes, any elements inserted before. -/
theorem C64_moved_from_destructor_reads_null (cm : Bool) (g : Nat) (s : St) (i j : Nat) (o : Obj)
    (hi : s.objs i = some o) (hj : s.objs j = none) :
    run (base cm true true g) s [.construct i j, .destroy i] = .bad := by
  simp [run, step, hi, hj, set_same, dtor, base, left, slotCleanup, defaultMapper, Mapper.total]

/-- **C64**, negative: the same when something is assigned to the moved-from object. -/
theorem C64_moved_from_assignment_reads_null (cm : Bool) (g : Nat) (s : St) (i j : Nat) (o : Obj)
    (hi : s.objs i = some o) (hj : s.objs j = none) :
    run (base cm true true g) s [.construct i j, .assign j i] = .bad := by
  have hij : j ≠ i := by rintro rfl; rw [hi] at hj; cases hj
  simp [run, step, hi, hj, set_same, set_other _ _ hij, hij, moveAssign, dtor, base, left, slotCleanup,
    defaultMapper, Mapper.total]

/-- **C64**, negative: move assignment of the transactional table gives the array of the target to the
source, with the size 0; it is released with this size. -/
theorem C64_transactional_assignment_wrong_size (s : St) (i j a : Nat) (o q : Obj) (A : Arr) (hij : i ≠ j)
    (hi : s.objs i = some o) (hj : s.objs j = some q) (ht : q.table = some a) (hA : s.arrs a = some A)
    (hn : A.size ≠ 0) : run tsx s [.assign i j, .destroy i] = .bad := by
  simp [run, step, hi, hj, hij, set_same, moveAssign, dtor, tsx, ht, hA, hn]

/-- **C64**, negative: assigning a transactional table to itself loses its size (and with it its
elements). -/
theorem C64_transactional_self_assignment (s : St) (i a : Nat) (o : Obj) (A : Arr)
    (hi : s.objs i = some o) (ht : o.table = some a) (hA : s.arrs a = some A) (hn : A.size ≠ 0) :
    (∃ s', run tsx s [.assign i i] = .ok s' ∧ view s' i = some (some (0, A.slots))) ∧
    run tsx s [.assign i i, .destroy i] = .bad := by
  constructor
  · refine ⟨{ s with objs := set s.objs i (some ⟨o.table, 0, o.version⟩) }, ?_, ?_⟩
    · simp [run, step, hi, moveAssign, tsx]
    · exact view_has (s := { s with objs := set s.objs i (some ⟨o.table, 0, o.version⟩) }) (set_same s.objs i _) ht hA
  · simp [run, step, hi, set_same, moveAssign, dtor, tsx, ht, hA, hn]

/-- A program: two tables, an element in each, moves in both ways, all destroyed. (example, no code) -/
def demo : List Act :=
  [.make 0 8 10, .put 0 3 100, .make 1 16 11, .put 1 9 101, .construct 0 2, .assign 2 1, .put 1 4 102,
    .assign 1 1]

/-- Not vacuous: the program `demo` runs on a table with heap slots and linear probing; in the end object 1
has the elements that were inserted into object 0, and the element of its old table is gone. -/
theorem C64_not_vacuous :
    (∃ w, specRun (fun _ => none) demo = some w ∧
      ∃ sl, w 1 = some (some (8, sl)) ∧ sl 3 = some 100 ∧ sl 4 = some 102 ∧ sl 9 = none ∧ w 0 = some none) ∧
    (∃ s, run (base true false true 0) St.init demo = .ok s ∧
      s.blocks 100 = true ∧ s.blocks 101 = false ∧ s.blocks 102 = true ∧ (s.arrs 11).isNone) ∧
    (specRun (fun _ => none) (demo ++ [.destroy 0, .destroy 1, .destroy 2]) ≠ none ∧
      ∃ s, run (base true false true 0) St.init (demo ++ [.destroy 0, .destroy 1, .destroy 2]) = .ok s) := by
  refine ⟨⟨_, rfl, _, rfl, rfl, rfl, rfl, rfl⟩, ⟨_, rfl, rfl, rfl, rfl, rfl⟩, ?_, ⟨_, rfl⟩⟩
  intro h
  cases h

/-- Not vacuous: a transactional table that is only moved into new or moved-from objects. -/
theorem C64_not_vacuous_transactional :
    AllAllowed tsx (fun _ => none) [.make 0 512 10, .put 0 3 100, .construct 0 1, .assign 1 0, .destroy 1, .destroy 0] ∧
    ∃ s, run tsx St.init [.make 0 512 10, .put 0 3 100, .construct 0 1, .assign 1 0, .destroy 1, .destroy 0] = .ok s := by
  refine ⟨⟨trivial, fun w hw => ⟨trivial, fun w₁ h₁ => ⟨trivial, fun w₂ h₂ => ⟨?_, fun w₃ h₃ =>
    ⟨fun _ => Or.inl rfl, fun w₄ h₄ => ⟨fun _ => Or.inl rfl, fun _ _ => trivial⟩⟩⟩⟩⟩⟩, ⟨_, rfl⟩⟩
  cases hw
  cases h₁
  cases h₂
  exact ⟨rfl, rfl⟩

end TabMove
end Growt
