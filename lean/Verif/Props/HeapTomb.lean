import Verif.Props.Heap

/-!
# C86: elements on the heap and the word of tombstones

The words of `complex_slot` need no tombstones, but `is_deleted` is asked for by iterators and by the migration.
-/

set_option linter.unusedSectionVars false

namespace Growt
namespace Heap
section
variable {K V : Type} [DecidableEq K] [DecidableEq V] [Inhabited V]

/-- Does the code treat a loaded word as an element?  Iteration: `base_linear.hpp:488, 507, 530, 544`,
`base_linear_iterator.hpp:238`; migration: `base_linear.hpp:1155-1163, 1183-1191`. -/
def kept (m : Bool) (w : Nat) : Bool := !isEmpty m w && !isDeleted w

/-- The words that an iteration shows and that the migration copies, of `n` slots from slot `i` on
(`base_linear.hpp:482-491` with `base_linear_iterator.hpp:231-243`; `base_linear.hpp:1147-1164`).  Without concurrent
access: no compare-and-swap of `atomic_mark` fails, and the marked word stays in the old table. -/
def keptFrom (m : Bool) (tbl : Nat → Nat) : Nat → Nat → List Nat
  | 0, _ => []
  | n + 1, i => if kept m (tbl i) then tbl i :: keptFrom m tbl n (i + 1) else keptFrom m tbl n (i + 1)

/-- A word represents a slot: that of an element or an empty one (`Represents`), or the tombstone of `get_deleted` for a
deleted one (`complex_slot.hpp:166-170, 335-339`).  Tables of heap slots offer no `erase` (line 79), but iteration and
migration test for tombstones all the same. -/
def Shows (E : Env K) (mem : Mem K V) (w : Nat) (x : Cell K V) : Prop :=
  Represents E mem w x ∨ (isDeleted w = true ∧ x.marked = false ∧ ∃ v, x.c = .deleted v)

/-- The element of a slot. (specification, no code) -/
def elem (x : Cell K V) : Option (K × V) := match x.c with | .live k v => some (k, v) | _ => none

theorem fp_lt (m : Bool) (hash : Nat) : fingerprint m hash < 2 ^ fpWidth m := by
  rw [fingerprint_eq]; exact Nat.mod_lt _ (Nat.two_pow_pos _)

/-- The word of an element, as a number. -/
theorem mkSlot_number (m : Bool) (p hash : Nat) (hp : p < 2 ^ 48) :
    mkSlot m p hash = p * 2 ^ 16 + fingerprint m hash * 2 ^ fpOff m := by
  have h0 : mkSlotArgs p = p * 2 ^ 16 := by
    simp [mkSlotArgs, setField, getField, Nat.mod_eq_of_lt hp]
  have hz := fpField_mkSlotArgs m p
  unfold fpField at hz
  rw [mkSlot_eq, setFingerprint, setField, hz, h0, Nat.mod_eq_of_lt (fp_lt m hash)]
  simp

/-- **C86.**  Exactly for the address `2^32` and the fingerprint 0 the word built for an element is the tombstone. -/
theorem C86_tombstone_iff (m : Bool) (p hash : Nat) (hp : p < 2 ^ 48) :
    isDeleted (mkSlot m p hash) = true ↔ p = 2 ^ 32 ∧ fingerprint m hash = 0 := by
  have hf := fp_lt m hash
  rw [mkSlot_number m p hash hp]
  simp only [isDeleted, beq_iff_eq]
  cases m <;> simp only [fpOff, fpWidth, if_true, Bool.false_eq_true, if_false] at hf ⊢ <;> omega

/-- A word is the tombstone only if its address is `2^32`, its fingerprint 0 and its mark not set. -/
theorem deleted_fields {m : Bool} {w : Nat} (h : isDeleted w = true) :
    pointer w = 2 ^ 32 ∧ fpField m w = 0 ∧ isMarked m w = false := by
  simp only [isDeleted, beq_iff_eq] at h
  subst h
  cases m <;> decide +kernel

/-- **C86 (partial: no element at the address `2^32` with fingerprint 0).**  A word that represents a slot is treated as
an element exactly if the slot holds one.  Missing: that address, where it is false (`C86_invisible`). -/
theorem C86_kept_partial (E : Env K) (mem : Mem K V) {w : Nat} {x : Cell K V} (h : Shows E mem w x)
    (hne : ∀ k v, mem (2 ^ 32) = some (k, v) → fingerprint E.m (E.h k) ≠ 0) :
    kept E.m w = (elem x).isSome := by
  rcases h.symm with ⟨h, -, v, hv⟩ | h
  · simp [kept, h, elem, hv]
  obtain ⟨h1, -⟩ := C36_predicates E mem h
  unfold kept
  rw [h1]
  obtain ⟨-, hc⟩ := h
  cases hx : x.c with
  | empty => simp [Cell.isEmpty, elem, hx]
  | deleted v => rw [hx] at hc; exact hc.elim
  | live k v =>
    rw [hx] at hc
    obtain ⟨-, hm, hf⟩ := hc
    have hd : isDeleted w = false := by
      cases hd : isDeleted w with
      | false => rfl
      | true =>
        obtain ⟨h2, h3, -⟩ := deleted_fields (m := E.m) hd
        rw [h2] at hm
        rw [h3] at hf
        exact absurd hf.symm (hne k v hm)
    simp [Cell.isEmpty, elem, hx, hd]

/-- **C86 (partial: no element at the address `2^32` with fingerprint 0).**  Iteration over any slots shows, and the
migration of these slots copies, exactly their elements, in order, each once. -/
theorem C86_elements_partial (E : Env K) (mem : Mem K V) {tbl : Nat → Nat} {t : Tbl K V}
    (hne : ∀ k v, mem (2 ^ 32) = some (k, v) → fingerprint E.m (E.h k) ≠ 0) :
    ∀ n i, (∀ j, i ≤ j → j < i + n → Shows E mem (tbl j) (t j)) →
      (keptFrom E.m tbl n i).map (getPair mem) =
        ((List.range' i n).filterMap fun j => elem (t j)).map some := by
  intro n
  induction n with
  | zero => intro i _; rfl
  | succ n ih =>
    intro i h
    have hi := h i (Nat.le_refl i) (by omega)
    have hr := ih (i + 1) fun j h1 h2 => h j (by omega) (by omega)
    have hk := C86_kept_partial E mem hi hne
    rw [List.range'_succ, List.filterMap_cons]
    unfold keptFrom
    rw [hk]
    rcases Option.eq_none_or_eq_some (elem (t i)) with he | ⟨e, he⟩
    · simp only [he, Option.isSome_none, Bool.false_eq_true, if_false]
      exact hr
    · simp only [he, Option.isSome_some, if_true, List.map_cons, hr, List.cons.injEq, and_true]
      have hl : (t i).c = .live e.1 e.2 := by
        unfold elem at he
        split at he
        · rename_i k v hx; cases he; exact hx
        · cases he
      rcases hi with hi | ⟨-, -, v, hv⟩
      · exact (C36_predicates E mem hi).2.2.2 _ _ hl
      · rw [hv] at hl; cases hl

/-- What is kept is no tombstone. -/
theorem keptFrom_not_deleted (m : Bool) (tbl : Nat → Nat) :
    ∀ n i, ∀ w ∈ keptFrom m tbl n i, isDeleted w = false := by
  intro n
  induction n with
  | zero => intro i w hw; simp [keptFrom] at hw
  | succ n ih =>
    intro i w hw
    unfold keptFrom at hw
    split at hw
    · rename_i hk
      rcases List.mem_cons.1 hw with rfl | hw'
      · simp only [kept, Bool.and_eq_true, Bool.not_eq_true'] at hk
        exact hk.2
      · exact ih _ _ hw'
    · exact ih _ _ hw

/-- A successful insertion stores the word. -/
theorem insert_word {E : Env K} {mem : Mem K V} {tbl tbl' : Nat → Nat} {k : K} {w pos : Nat} :
    ∀ {fuel i}, insert E mem tbl k w fuel i = .inserted tbl' pos → tbl' pos = w := by
  intro fuel
  induction fuel with
  | zero => intro i h; cases h
  | succ n ih =>
    intro i h
    unfold insert at h
    simp only at h
    split at h
    · split at h
      · cases h
      · split at h
        · split at h
          · cases h
          · cases h; simp
        · split at h
          · cases h
          · cases h
          · exact ih h
    · cases h

/-- **C86 (violated by the code).**  In every table, an element allocated at the address `2^32` whose key has the
fingerprint 0 is found after its insertion, but no iteration shows its slot and the migration does not copy it. -/
theorem C86_invisible (E : Env K) (mem : Mem K V) (tbl tbl' : Nat → Nat) (k : K) (v : V)
    (hm : mem (2 ^ 32) = some (k, v)) (hf : fingerprint E.m (E.h k) = 0) {fuel i pos : Nat}
    (hins : insert E mem tbl k (mkSlot E.m (2 ^ 32) (E.h k)) fuel i = .inserted tbl' pos) :
    find E mem tbl' k fuel i = .found pos ∧ getPair mem (tbl' pos) = some (k, v) ∧
      ∀ n j, tbl' pos ∉ keptFrom E.m tbl' n j := by
  obtain ⟨-, -, h⟩ := C37_insert_findable_partial E mem tbl tbl' k v (2 ^ 32) (by decide) (by decide) hm
  obtain ⟨h1, h2⟩ := h fuel i pos hins
  refine ⟨h1, h2, fun n j hw => ?_⟩
  have hd := keptFrom_not_deleted _ _ n j _ hw
  have hz : tbl' pos = mkSlot E.m (2 ^ 32) (E.h k) := insert_word hins
  rw [hz, (C86_tombstone_iff E.m (2 ^ 32) (E.h k) (by decide)).2 ⟨rfl, hf⟩] at hd
  cases hd

end

/-- **C86, concretely**: key 3 in the empty table, allocated at `2^32` or at 4096, is inserted; in the first case no
element is shown or copied, in the second one it is. -/
theorem C86_not_vacuous :
    let mem : Nat → Mem Nat Nat := fun a p => if p = a then some (3, 30) else none
    let w : Nat → Nat := fun a => mkSlot exE.m a (exE.h 3)
    let tbl : Nat → Nat → Nat := fun a j => if j = 3 then w a else 0
    fingerprint exE.m (exE.h 3) = 0 ∧
    (∀ a, insert exE (mem a) (fun _ => 0) 3 (w a) 10 (exE.M.map (exE.h 3)) = .inserted (tbl a) 3) ∧
    (∀ a, a < 2 ^ 48 → a ≠ 0 → ∀ j, ∃ x, Represents exE (mem a) (tbl a j) x) ∧
    Shows exE (mem 4096) (2 ^ 48) ⟨false, .deleted 30⟩ ∧
    keptFrom exE.m (tbl (2 ^ 32)) 1536 0 = [] ∧
    (keptFrom exE.m (tbl 4096) 1536 0).map (getPair (mem 4096)) = [some (3, 30)] := by
  refine ⟨by decide +kernel, fun a => rfl, fun a ha h0 j => ?_, .inr ⟨rfl, rfl, 30, rfl⟩,
    by decide +kernel, by decide +kernel⟩
  by_cases hj : j = 3
  · refine ⟨Cell.liveCell 3 30, ?_⟩
    simp only [hj, if_true]
    exact (mkSlot_represents exE (fun p => if p = a then some (3, 30) else none) ha h0 (by simp)).1
  · refine ⟨Cell.emptyCell, rfl, .inl ?_⟩
    simp [hj]

end Heap
end Growt
