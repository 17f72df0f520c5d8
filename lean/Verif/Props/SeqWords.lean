import Verif.SeqWords
import Verif.Props.SeqLin

/-!
# C66: key space of the sequential table
-/

set_option linter.unusedSectionVars false

namespace Growt
namespace SeqWords
section
variable {V : Type} [DecidableEq V] [Inhabited V]

/-- **C66.**  The sequential table with slots of two words: every sequence of find, insert, update and
insert_or_update calls with any keys but 0 - also the keys that are reserved in the concurrent tables -
returns exactly what an ideal map returns, for every hash function and initial size, across growth; the
table then holds exactly the elements of that map. -/
theorem C66_all_keys_but_zero (cm : Bool) {h : Nat → Nat} (hh : ∀ x, h x < 2 ^ 64) {k : Nat}
    (hk : 9 ≤ k) (hk' : k ≤ 63) (ops : List (SeqTable.Op Nat V)) (hno : ∀ op ∈ ops, op.noErase = true)
    (hz : ∀ op ∈ ops, opKey op ≠ 0) (hfew : ops.length < 2 ^ 40) {f : Nat} (hf : 2 ^ k + 4 * ops.length + 2 ≤ f) :
    ∃ s', execAll f (St.new cm true h k) ops =
        .ok (s', (SOp.semAll (ops.map SeqTable.Op.toSpec) fun _ => none).2) ∧
      ∀ x v, x ≠ 0 → ((SOp.semAll (ops.map SeqTable.Op.toSpec) fun _ => none).1 x = some v ↔
        ∃ p, p < s'.E.M.total ∧ s'.t p = ⟨x, v⟩) := by
  obtain ⟨a, h1, h2⟩ := C45_sequential_table_is_map cm hh hk hk' ops hno hfew hf
  have h3 := execAll_dec f ops (St.new cm true h k) hz
  rw [new_dec, h1] at h3
  cases he : execAll f (St.new cm true h k) ops with
  | oob => rw [he] at h3; cases h3
  | timeout => rw [he] at h3; cases h3
  | ok y =>
    obtain ⟨s', l⟩ := y
    rw [he] at h3
    injection h3 with h3
    injection h3 with e1 e2
    subst e1
    refine ⟨s', by rw [e2], fun x v hx => ?_⟩
    rw [h2 x v]
    have key : ∀ p, (s'.dec.t p).c = .live x v ↔ s'.t p = ⟨x, v⟩ := by
      intro p
      show (dec (s'.t p)).c = _ ↔ _
      cases hw : s'.t p with
      | mk key data =>
        by_cases h0 : key = 0
        · subst h0
          simp only [dec, if_true, Cell.emptyCell]
          constructor
          · intro h; cases h
          · intro h; injection h with h _; exact absurd h.symm hx
        · simp [dec, h0, Cell.liveCell]
    constructor
    · rintro ⟨p, hp, h⟩; exact ⟨p, hp, (key p).mp h⟩
    · rintro ⟨p, hp, h⟩; exact ⟨p, hp, (key p).mpr h⟩

/-- **C66, the key 0.**  In no state does `find(0)` report that the key is absent, `insert(0, d)` store
anything, or `erase(0)` report that there was nothing to erase. -/
theorem C66_key_zero_always_present (f : Nat) (s : St V) (d : V) :
    (∀ s' r, find f s 0 = .ok (s', r) → r.ok = true) ∧
    (∀ s' r, insert f s 0 d = .ok (s', r) → r.ok = false ∧ s' = s) ∧
    (∀ s' r, erase f s 0 = .ok (s', r) → r.ok = true) := by
  refine ⟨fun s' r h => ?_, fun s' r h => ?_, fun s' r h => ?_⟩
  · simp only [find] at h
    split at h
    · cases h; rfl
    · rename_i hp; exact absurd hp (probe_zero _ _ _ _ _)
    · cases h
    · cases h
  · cases f with
    | zero => cases h
    | succ f =>
      simp only [insert] at h
      split at h
      · cases h; exact ⟨rfl, rfl⟩
      · rename_i hp; exact absurd hp (probe_zero _ _ _ _ _)
      · cases h
      · cases h
  · simp only [erase] at h
    split at h
    · split at h
      · cases h; rfl
      · cases h
      · cases h
    · rename_i hp; exact absurd hp (probe_zero _ _ _ _ _)
    · cases h
    · cases h

/-- Not vacuous: calls with the keys that the concurrent tables reserve; their results. -/
theorem C66_not_vacuous :
    let ops : List (SeqTable.Op Nat Nat) :=
      [.insert (2 ^ 63 - 1) 5, .insert (2 ^ 63) 6, .find (2 ^ 63 - 1), .insert (2 ^ 63) 7, .find 1]
    (∀ op ∈ ops, op.noErase = true ∧ opKey op ≠ 0) ∧
    (SOp.semAll (ops.map SeqTable.Op.toSpec) fun _ => none).2 =
      [⟨true, some 5⟩, ⟨true, some 6⟩, ⟨true, some 5⟩, ⟨false, some 6⟩, ⟨false, none⟩] := by
  refine ⟨fun op h => ?_, ?_⟩
  · simp only [List.mem_cons, List.not_mem_nil, or_false] at h
    rcases h with rfl | rfl | rfl | rfl | rfl <;> exact ⟨rfl, by decide⟩
  · decide +kernel

/-- Not vacuous: on a new table `find(0)` ends and shows an element, `insert(0, 5)` ends and stores
nothing. -/
theorem C66_zero_not_vacuous :
    find 1 (St.new true true (fun x => x % 2 ^ 64) 9 : St Nat) 0 =
      .ok (St.new true true (fun x => x % 2 ^ 64) 9, ⟨true, some 0⟩) ∧
    insert 1 (St.new true true (fun x => x % 2 ^ 64) 9 : St Nat) 0 5 =
      .ok (St.new true true (fun x => x % 2 ^ 64) 9, ⟨false, some 0⟩) := by
  constructor <;> simp [find, insert, probe, St.new, Mapper.mk', Mapper.map, Mapper.remap, Mapper.total, cmp, emptySlot]

end
end SeqWords
end Growt
