import Verif.HeapSlot
import Verif.Props.Conc

/-!
# Properties of heap allocated slots (C36, C37)
-/

set_option linter.unusedSectionVars false

namespace Growt
namespace Heap

theorem pointer_mkSlotArgs {p : Nat} (hp : p < 2 ^ 48) : pointer (mkSlotArgs p) = p := by
  unfold pointer mkSlotArgs
  rw [get_set, Nat.mod_eq_of_lt hp]

theorem fpField_mkSlotArgs (m : Bool) (p : Nat) : fpField m (mkSlotArgs p) = 0 := by
  unfold fpField mkSlotArgs
  rw [get_set_below (by cases m <;> decide)]
  simp [getField]

theorem pointer_setFingerprint (m : Bool) (w hash : Nat) :
    pointer (setFingerprint m w hash) = pointer w := by
  unfold pointer setFingerprint
  exact get_set_above (by cases m <;> decide) _ _

theorem fpField_setFingerprint (m : Bool) (w hash : Nat) :
    fpField m (setFingerprint m w hash) = fingerprint m hash := by
  unfold fpField setFingerprint
  rw [get_set, fingerprint_eq, Nat.mod_mod]

theorem isMarked_setFingerprint (m : Bool) (w hash : Nat) :
    isMarked m (setFingerprint m w hash) = isMarked m w := by
  cases m
  · rfl
  · simp only [isMarked, if_true, setFingerprint]
    rw [get_set_below (by decide)]

theorem isMarked_mkSlotArgs (m : Bool) (p : Nat) : isMarked m (mkSlotArgs p) = false := by
  cases m
  · rfl
  · simp only [isMarked, if_true, mkSlotArgs]
    rw [get_set_below (by decide)]
    simp [getField]

theorem mkSlot_eq (m : Bool) (p hash : Nat) :
    mkSlot m p hash = setFingerprint m (mkSlotArgs p) hash := rfl

theorem pointer_marked (w : Nat) : pointer (marked w) = pointer w :=
  get_set_above (by decide) _ _

theorem fpField_marked (w : Nat) : fpField true (marked w) = fpField true w :=
  get_set_above (by decide) _ _

theorem isEmpty_of_pointer {m : Bool} {w : Nat} (h : pointer w ≠ 0) : isEmpty m w = false := by
  cases m
  · simp only [isEmpty, Bool.false_eq_true, if_false, beq_eq_false_iff_ne, ne_eq]
    intro h0; subst h0; exact h (by simp [pointer, getField])
  · simpa [isEmpty] using h

/-- **C36, packing.**  For every pointer below `2^48`, every hash and both layouts: the slot built
for them gives back the pointer and the hash's fingerprint and is unmarked; marking keeps
pointer and fingerprint, and sets the mark; storing a fingerprint later keeps pointer and mark.
Two slots with different pointers are different words (so a compare-and-swap distinguishes
them). -/
theorem C36_packing (m : Bool) (p hash : Nat) (hp : p < 2 ^ 48) :
    pointer (mkSlot m p hash) = p ∧
    fpField m (mkSlot m p hash) = hash % (if m then 2 ^ 15 else 2 ^ 16) ∧
    isMarked m (mkSlot m p hash) = false ∧
    pointer (marked (mkSlot true p hash)) = p ∧
    fpField true (marked (mkSlot true p hash)) = hash % 2 ^ 15 ∧
    isMarked true (marked (mkSlot true p hash)) = true ∧
    (∀ w h', pointer (setFingerprint m w h') = pointer w ∧
      isMarked m (setFingerprint m w h') = isMarked m w) ∧
    (∀ p' h', p' < 2 ^ 48 → p' ≠ p → mkSlot m p' h' ≠ mkSlot m p hash) := by
  have h1 : ∀ m h p, p < 2 ^ 48 → pointer (mkSlot m p h) = p := by
    intro m h p hp; rw [mkSlot_eq, pointer_setFingerprint, pointer_mkSlotArgs hp]
  have h2 : ∀ m, fpField m (mkSlot m p hash) = hash % (if m then 2 ^ 15 else 2 ^ 16) := by
    intro m
    rw [mkSlot_eq, fpField_setFingerprint, fingerprint_eq]; cases m <;> rfl
  refine ⟨h1 m hash p hp, h2 m, ?_, ?_, ?_, ?_, fun w h' => ⟨pointer_setFingerprint m w h',
    isMarked_setFingerprint m w h'⟩, ?_⟩
  · rw [mkSlot_eq, isMarked_setFingerprint, isMarked_mkSlotArgs]
  · rw [pointer_marked, h1 _ _ _ hp]
  · rw [fpField_marked, h2 true]; rfl
  · simp [isMarked, marked, get_set]
  · intro p' h' hp' hne he
    apply hne
    rw [← h1 m h' p' hp', he, h1 m hash p hp]

section
variable {K V : Type} [DecidableEq K] [DecidableEq V] [Inhabited V]

/-- The word `w` represents the abstract cell `x`: same mark; an element is reached through the
pointer and carries the fingerprint of its key's hash; an empty word is zero but for the mark.
(Heap slots have no tombstones: `allows_deletions = false`, `complex_slot.hpp:79`.) -/
def Represents (E : Env K) (mem : Mem K V) (w : Nat) (x : Cell K V) : Prop :=
  isMarked E.m w = x.marked ∧
  match x.c with
  | .empty => w = 0 ∨ (E.m = true ∧ w = 1)
  | .live k v => pointer w ≠ 0 ∧ mem (pointer w) = some (k, v) ∧ fpField E.m w = fingerprint E.m (E.h k)
  | .deleted _ => False

/-- Slots built by the constructors represent their element, also when marked later. -/
theorem mkSlot_represents (E : Env K) (mem : Mem K V) {p : Nat} (hp : p < 2 ^ 48) (hp0 : p ≠ 0)
    {k : K} {v : V} (hm : mem p = some (k, v)) :
    Represents E mem (mkSlot E.m p (E.h k)) (Cell.liveCell k v) ∧
    (E.m = true → Represents E mem (marked (mkSlot E.m p (E.h k))) (Cell.liveCell k v).mark) := by
  obtain ⟨h1, h2, h3, h4, h5, h6, -⟩ := C36_packing E.m p (E.h k) hp
  have hfp : fpField E.m (mkSlot E.m p (E.h k)) = fingerprint E.m (E.h k) := by
    rw [mkSlot_eq, fpField_setFingerprint]
  refine ⟨⟨h3, ?_⟩, fun hE => ⟨?_, ?_⟩⟩
  · simp only [Cell.liveCell]
    rw [h1]; exact ⟨hp0, hm, hfp⟩
  · rw [hE]; exact h6
  · simp only [Cell.liveCell, Cell.mark]
    rw [hE] at hfp ⊢
    rw [pointer_marked, fpField_marked]
    rw [hE] at h1
    rw [h1]
    exact ⟨hp0, hm, hfp⟩

/-- **C36, fingerprints.**  On representing words all decisions of the table code agree with the
abstract cell, for every key: in particular a fingerprint mismatch never hides a stored key,
and no invalid pointer is dereferenced. -/
theorem C36_predicates (E : Env K) (mem : Mem K V) {w : Nat} {x : Cell K V}
    (h : Represents E mem w x) :
    isEmpty E.m w = x.isEmpty ∧ isMarked E.m w = x.marked ∧
    (∀ k, compareKey E.m mem w k (E.h k) = some (x.hasKey k)) ∧
    (∀ k v, x.c = .live k v → getPair mem w = some (k, v)) := by
  obtain ⟨hm, hc⟩ := h
  cases hx : x.c with
  | empty =>
    rw [hx] at hc
    have hp : pointer w = 0 := by
      rcases hc with rfl | ⟨-, rfl⟩ <;> simp [pointer, getField]
    refine ⟨?_, hm, fun k => ?_, fun k v h => by cases h⟩
    · simp only [Cell.isEmpty, hx]
      rcases hc with rfl | ⟨he, rfl⟩
      · cases hE : E.m <;> simp [isEmpty, pointer, getField]
      · simp [isEmpty, he, pointer, getField]
    · simp only [compareKey, hp, Cell.hasKey, hx, if_true]
      split <;> rfl
  | live k v =>
    rw [hx] at hc
    obtain ⟨h0, h1, h2⟩ := hc
    refine ⟨?_, hm, fun k' => ?_, fun k' v' h => by cases h; exact h1⟩
    · rw [isEmpty_of_pointer h0]; simp [Cell.isEmpty, hx]
    · simp only [compareKey, Cell.hasKey, hx]
      by_cases hk : k = k'
      · subst hk
        simp [h2, h0, h1]
      · simp only [h0, if_false, h1, hk, decide_false]
        split <;> rfl
  | deleted v => rw [hx] at hc; exact hc.elim

/-- The answer of the abstract search, in terms of positions. (specification, no code) -/
def resOf : RunRes K V → FindRes
  | .done _ r => match r.it with | some p => .found p.1 | none => .notFound
  | .oob => .ub
  | .timeout => .timeout

/-- **C36**: searching a table of packed words gives the same answer as searching the abstract table
it represents, for every key, table and starting slot. -/
theorem C36_find_faithful (E : Env K) (mem : Mem K V) (tbl : Nat → Nat) (t : Tbl K V)
    (h : ∀ i, i < E.M.total → Represents E mem (tbl i) (t i)) (k : K) (fuel i att : Nat) :
    find E mem tbl k fuel i = resOf (run E (.find k) fuel (.load i att) t) := by
  induction fuel generalizing i with
  | zero => rfl
  | succ n ih =>
    unfold find run
    simp only [step]
    by_cases hlt : E.M.remap i < E.M.total
    · obtain ⟨h1, -, h3, -⟩ := C36_predicates E mem (h _ hlt)
      simp only [hlt, if_true, h1, h3, afterLoad]
      cases he : (t (E.M.remap i)).isEmpty
      · simp only [Bool.false_eq_true, if_false]
        cases hk : (t (E.M.remap i)).hasKey k
        · simp only [Bool.false_eq_true, if_false]
          exact ih (i + 1)
        · simp [resOf]
      · simp [resOf]
    · simp [hlt, resOf]

/-- **C37 (violated by the code).**  On a non-growing table, an element inserted by `emplace` whose
key's hash has a nonzero fingerprint is never found: whatever the rest of the table is, if all
slots that hold the key were filled by `emplace`, `find` does not find it. -/
theorem C37_emplaced_never_found (E : Env K) (mem : Mem K V) (tbl : Nat → Nat) (k : K)
    (hfp : fingerprint E.m (E.h k) ≠ 0)
    (hall : ∀ i v, i < E.M.total → mem (pointer (tbl i)) = some (k, v) →
      ∃ p, tbl i = emplaceWord p) :
    ∀ fuel i pos, find E mem tbl k fuel i ≠ .found pos := by
  intro fuel
  induction fuel with
  | zero => intro i pos h; cases h
  | succ n ih =>
    intro i pos
    unfold find
    simp only
    by_cases hlt : E.M.remap i < E.M.total
    · simp only [hlt, if_true]
      split
      · intro h; cases h
      · have hne : compareKey E.m mem (tbl (E.M.remap i)) k (E.h k) ≠ some true := by
          intro hc
          unfold compareKey at hc
          split at hc
          · cases hc
          · rename_i hf
            split at hc
            · cases hc
            · split at hc
              · cases hc
              · rename_i e he
                have hek : e.1 = k := by simpa using hc
                obtain ⟨p, hp⟩ := hall _ e.2 hlt (by rw [he, ← hek])
                apply hf
                rw [hp]
                simpa [emplaceWord, fpField_mkSlotArgs] using hfp
        split
        · intro h; cases h
        · rename_i h; exact absurd h hne
        · exact ih _ _
    · simp [hlt]

/-- **C37 (partial: slots that carry the fingerprint).**  After a successful insertion of a slot
that carries the fingerprint of its key - `insert` on all tables, `emplace` on growing
tables, see `emplaceWordGrowing`, and `emplace` on all tables if the fingerprint is 0 - `find` of the key finds it, in every table.
Missing: `emplace` on non-growing tables with heap slots and another fingerprint, where it is false. -/
theorem C37_insert_findable_partial (E : Env K) (mem : Mem K V) (tbl tbl' : Nat → Nat) (k : K)
    (v : V) (p : Nat) (hp : p < 2 ^ 48) (hp0 : p ≠ 0) (hm : mem p = some (k, v)) :
    emplaceWordGrowing E.m p (E.h k) = mkSlot E.m p (E.h k) ∧
    (fingerprint E.m (E.h k) = 0 → emplaceWord p = mkSlot E.m p (E.h k)) ∧
    ∀ fuel i pos, insert E mem tbl k (mkSlot E.m p (E.h k)) fuel i = .inserted tbl' pos →
      find E mem tbl' k fuel i = .found pos ∧ getPair mem (tbl' pos) = some (k, v) := by
  refine ⟨rfl, fun h0 => ?_, ?_⟩
  · have hz := fpField_mkSlotArgs E.m p
    unfold fpField at hz
    rw [mkSlot_eq, setFingerprint, h0, setField, hz]
    simp [emplaceWord]
  obtain ⟨hr, -⟩ := mkSlot_represents E mem hp hp0 hm
  obtain ⟨r1, -, r3, r4⟩ := C36_predicates E mem hr
  have hres : ∀ fuel i pos, insert E mem tbl k (mkSlot E.m p (E.h k)) fuel i = .inserted tbl' pos →
      isEmpty E.m (tbl pos) = true ∧
      tbl' = fun j => if j = pos then mkSlot E.m p (E.h k) else tbl j := by
    intro fuel
    induction fuel with
    | zero => intro i pos h; cases h
    | succ n ih =>
      intro i pos h
      unfold insert at h
      simp only at h
      split at h
      · split at h
        · cases h
        · split at h
          · split at h
            · cases h
            · rename_i he _
              cases h
              exact ⟨he, rfl⟩
          · split at h
            · cases h
            · cases h
            · exact ih _ _ h
      · cases h
  intro fuel
  induction fuel with
  | zero => intro i pos h; cases h
  | succ n ih =>
    intro i pos h
    obtain ⟨hempty, htbl⟩ := hres _ _ _ h
    have hval : getPair mem (tbl' pos) = some (k, v) := by
      rw [htbl]; simpa using r4 k v rfl
    refine ⟨?_, hval⟩
    unfold insert at h
    simp only at h
    unfold find
    simp only
    by_cases hlt : E.M.remap i < E.M.total
    · simp only [hlt, if_true] at h ⊢
      split at h
      · cases h
      · rename_i hmk
        split at h
        · split at h
          · cases h
          · cases h
            simp only [if_true, r1, r3]
            simp [Cell.isEmpty, Cell.hasKey, Cell.liveCell]
        · rename_i he
          have hne : E.M.remap i ≠ pos := by
            intro e; rw [e] at he; exact he hempty
          have hsame : tbl' (E.M.remap i) = tbl (E.M.remap i) := by
            rw [htbl]; simp [hne]
          rw [hsame]
          rw [if_neg he]
          split at h
          · cases h
          · cases h
          · exact (ih _ _ h).1
    · simp only [hlt, if_false] at h; cases h

end

/-- `exE` with a hash function whose low bits (the fingerprint) are not all zero. (example, no code) -/
def exF : Env Nat := { exE with h := fun k => k * 36028797018963969 % 2 ^ 64 }

/-- **C37 (violated by the code), concretely**: in an empty table, `emplace` of key 3 succeeds,
`find(3)` reports that there is no such element, and a second `emplace` of 3 succeeds again. -/
theorem C37_emplace_lost :
    let mem : Mem Nat Nat := fun p => if p = 4096 then some (3, 30) else none
    let mem2 : Mem Nat Nat := fun p => if p = 4096 then some (3, 30) else
      if p = 8192 then some (3, 31) else none
    ∃ tbl tbl2, insert exF mem (fun _ => 0) 3 (emplaceWord 4096) 10 (exF.M.map (exF.h 3))
        = .inserted tbl 3 ∧
      find exF mem tbl 3 10 (exF.M.map (exF.h 3)) = .notFound ∧
      insert exF mem2 tbl 3 (emplaceWord 8192) 10 (exF.M.map (exF.h 3)) = .inserted tbl2 4 := by
  refine ⟨fun j => if j = 3 then emplaceWord 4096 else 0,
    fun j => if j = 4 then emplaceWord 8192 else if j = 3 then emplaceWord 4096 else 0, ?_, ?_, ?_⟩
  · rfl
  · decide +kernel
  · rfl

/-- The hypotheses are met: a pointer, key and hash for both layouts, and a table with one element
represented by a word. -/
example : Represents exF (fun p => if p = 4096 then some (3, 30) else none)
    (mkSlot false 4096 (exF.h 3)) (Cell.liveCell 3 30) ∧ fingerprint false (exF.h 3) ≠ 0 := by
  refine ⟨(mkSlot_represents exF (fun p => if p = 4096 then some (3, 30) else none)
    (by decide) (by decide) (by decide)).1, by decide +kernel⟩

/-- C36: a table of words that represents a table with one element, which `find` finds. -/
example : let mem : Mem Nat Nat := fun p => if p = 4096 then some (3, 30) else none
    let tbl : Nat → Nat := fun i => if i = 3 then mkSlot false 4096 (exF.h 3) else 0
    let t : Tbl Nat Nat := fun i => if i = 3 then Cell.liveCell 3 30 else Cell.emptyCell
    (∀ i, i < exF.M.total → Represents exF mem (tbl i) (t i)) ∧
    find exF mem tbl 3 10 (exF.M.map (exF.h 3)) = .found 3 := by
  intro mem tbl t
  refine ⟨fun i _ => ?_, by decide +kernel⟩
  simp only [tbl, t]
  split
  · exact (mkSlot_represents exF mem (by decide) (by decide) (by decide)).1
  · exact ⟨by decide, .inl rfl⟩

/-- C37: an insertion takes place. -/
example : ∃ tbl', insert exF (fun p => if p = 4096 then some (3, 30) else none) (fun _ => 0) 3
    (mkSlot exF.m 4096 (exF.h 3)) 10 (exF.M.map (exF.h 3)) = .inserted tbl' 3 := ⟨_, rfl⟩

end Heap
end Growt
