import Verif.Cell

/-!
# Bit layout of the inline slots (`simple_slot`, `single_word_slot`)

The two layouts differ only in the position `b` of the mark bit in the key word: 63 for
`simple_slot` (`data-structures/element_types/simple_slot.hpp:35-36`), 31 for `single_word_slot`
(`single_word_slot.hpp:32-33`).  Key words are natural numbers below `2^(b+1)`.
-/

namespace Growt

/-- `slot_type`: key word and mapped value, `simple_slot.hpp:53-57`, `single_word_slot.hpp:49-54`. -/
structure WSlot (D : Type) where
  key : Nat
  data : D
  deriving DecidableEq

namespace WSlot
variable {D : Type}

/-- `is_empty`, `simple_slot.hpp:222-225`, `single_word_slot.hpp:221-225` (not conditional on
markability). -/
def isEmpty (b : Nat) (s : WSlot D) : Bool := s.key &&& (2 ^ b - 1) == 0

/-- `is_deleted`, `simple_slot.hpp:228-231`, `single_word_slot.hpp:228-231`; `delete_dummy` is
`2^b - 1` (`simple_slot.hpp:31`, `single_word_slot.hpp:27`). -/
def isDeleted (b : Nat) (s : WSlot D) : Bool := s.key == 2 ^ b - 1

/-- `is_marked`, `simple_slot.hpp:234-238`, `single_word_slot.hpp:234-238`. -/
def isMarked (m : Bool) (b : Nat) (s : WSlot D) : Bool := if m then s.key &&& 2 ^ b != 0 else false

/-- `compare_key`, `simple_slot.hpp:241-247`, `single_word_slot.hpp:241-247`. -/
def compareKey (m : Bool) (b : Nat) (s : WSlot D) (k : Nat) : Bool :=
  if m then s.key &&& (2 ^ b - 1) == k else s.key == k

/-- `get_key`, `simple_slot.hpp:189-193`, `single_word_slot.hpp:189-193`. -/
def getKey (m : Bool) (b : Nat) (s : WSlot D) : Nat := if m then s.key &&& (2 ^ b - 1) else s.key

/-- The word written by a successful `atomic_mark`, `simple_slot.hpp:355-362`,
`single_word_slot.hpp:352-359`. -/
def marked (b : Nat) (s : WSlot D) : WSlot D := { s with key := s.key ||| 2 ^ b }

/-- `get_empty`, `simple_slot.hpp:127-130`. -/
def empty [Inhabited D] : WSlot D := ⟨0, default⟩

/-- `get_deleted`, `simple_slot.hpp:131-134`. -/
def deleted [Inhabited D] (b : Nat) : WSlot D := ⟨2 ^ b - 1, default⟩

end WSlot

/-- Keys that the layout can represent: not 0, not the tombstone key, not the word of a lone mark
bit, and below the mark bit if marks are used. (specification, no code) -/
def LegalKey (m : Bool) (b k : Nat) : Prop :=
  k ≠ 0 ∧ k ≠ 2 ^ b - 1 ∧ k ≠ 2 ^ b ∧ k < 2 ^ (b + 1) ∧ (m = true → k < 2 ^ b)

/-- Cells over representable keys; marks occur only on markable slots. (specification, no code) -/
def LegalCell {D : Type} (m : Bool) (b : Nat) (x : Cell Nat D) : Prop :=
  (x.marked = true → m = true) ∧ ∀ k v, x.c = .live k v → LegalKey m b k

/-- The key word of a content, without mark. (`simple_slot.hpp:127-134`) -/
def contentKey {D : Type} (b : Nat) : Content Nat D → Nat
  | .empty => 0
  | .live k _ => k
  | .deleted _ => 2 ^ b - 1

/-- The layout of a cell. (`simple_slot.hpp:53-57, 127-134`) -/
def encode {D : Type} [Inhabited D] (b : Nat) (x : Cell Nat D) : WSlot D :=
  ⟨if x.marked then contentKey b x.c ||| 2 ^ b else contentKey b x.c, x.mapped⟩

theorem and_mask (b x : Nat) : x &&& (2 ^ b - 1) = x % 2 ^ b := Nat.and_two_pow_sub_one_eq_mod x b

theorem or_bit {b x : Nat} (h : x < 2 ^ b) : x ||| 2 ^ b = x + 2 ^ b := by
  have := Nat.two_pow_add_eq_or_of_lt h 1
  rw [Nat.mul_one] at this
  rw [Nat.or_comm, ← this, Nat.add_comm]

theorem and_bit (b x : Nat) : x &&& 2 ^ b = if x / 2 ^ b % 2 = 1 then 2 ^ b else 0 := by
  have hb : x.testBit b = decide (x / 2 ^ b % 2 = 1) := Nat.testBit_eq_decide_div_mod_eq
  apply Nat.eq_of_testBit_eq
  intro i
  rw [Nat.testBit_and, Nat.testBit_two_pow]
  by_cases hx : x / 2 ^ b % 2 = 1
  · rw [if_pos hx, Nat.testBit_two_pow]
    by_cases hi : b = i
    · subst hi; simp [hb, hx]
    · simp [hi]
  · rw [if_neg hx]
    by_cases hi : b = i
    · subst hi; simp [hb, hx]
    · simp [hi]

theorem or_bit_mod (b x : Nat) : (x ||| 2 ^ b) % 2 ^ b = x % 2 ^ b := by
  rw [Nat.or_mod_two_pow]
  simp

theorem or_bit_div (b x : Nat) : (x ||| 2 ^ b) / 2 ^ b % 2 = 1 := by
  have : (x ||| 2 ^ b).testBit b = true := by
    simp [Nat.testBit_or]
  rw [Nat.testBit_eq_decide_div_mod_eq] at this
  simpa using this

end Growt
