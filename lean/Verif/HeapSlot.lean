import Verif.SlotBits
import Verif.BaseOps

/-!
# The heap allocated slot (`complex_slot`): packed word and heap

The word is a natural number below `2^64`.  Bit fields are laid out from the least significant
bit upwards in declaration order (x86-64 System V ABI, what the `static_assert` at
`complex_slot.hpp:60-61` relies on).
-/

namespace Growt

/-- Read a bit field of width `n` at offset `o` (access to a C++ bit field). (`complex_slot.hpp:25-46`) -/
def getField (o n w : Nat) : Nat := w / 2 ^ o % 2 ^ n

/-- Write a bit field: the value is truncated to the width, the other bits stay (C++ bit field
assignment). (`complex_slot.hpp:25-46`) -/
def setField (o n w x : Nat) : Nat := w - getField o n w * 2 ^ o + (x % 2 ^ n) * 2 ^ o

namespace Heap

/-- Offset of `fingerprint` in `ptr_splitter`, `complex_slot.hpp:25-46`. -/
def fpOff (m : Bool) : Nat := if m then 1 else 0
/-- Width of `fingerprint` in `ptr_splitter`, `complex_slot.hpp:29, 42`. -/
def fpWidth (m : Bool) : Nat := if m then 15 else 16

/-- `split.pointer`, `complex_slot.hpp:30, 43`. -/
def pointer (w : Nat) : Nat := getField 16 48 w
/-- `split.fingerprint`, `complex_slot.hpp:29, 42`. -/
def fpField (m : Bool) (w : Nat) : Nat := getField (fpOff m) (fpWidth m) w

/-- `fingerprint(hash)`, `complex_slot.hpp:65-70`. -/
def fingerprint (m : Bool) (hash : Nat) : Nat :=
  hash &&& (if m then 2 ^ 15 - 1 else 2 ^ 16 - 1)

/-- The constructors that get the hash, `complex_slot.hpp:198-232, 251-259`; `ptr` is the address of
the new element. -/
def mkSlot (m : Bool) (ptr hash : Nat) : Nat :=
  setField (fpOff m) (fpWidth m) (setField 16 48 0 ptr) (fingerprint m hash)

/-- The variadic constructor used by `emplace`: no fingerprint, `complex_slot.hpp:234-248`. -/
def mkSlotArgs (ptr : Nat) : Nat := setField 16 48 0 ptr

/-- `set_fingerprint`, `complex_slot.hpp:321-325`. -/
def setFingerprint (m : Bool) (w hash : Nat) : Nat :=
  setField (fpOff m) (fpWidth m) w (fingerprint m hash)

/-- `is_empty`, `complex_slot.hpp:328-333`. -/
def isEmpty (m : Bool) (w : Nat) : Bool := if m then pointer w == 0 else w == 0

/-- `get_deleted` and `is_deleted`, `complex_slot.hpp:166-170, 335-339`. -/
def isDeleted (w : Nat) : Bool := w == 2 ^ 48

/-- `is_marked`, `complex_slot.hpp:341-346`. -/
def isMarked (m : Bool) (w : Nat) : Bool := if m then getField 0 1 w == 1 else false

/-- The word written by a successful `atomic_mark`, `complex_slot.hpp:498-507`. -/
def marked (w : Nat) : Nat := setField 0 1 w 1

/-- The heap: allocated elements by address. (`complex_slot.hpp:172-181`) -/
abbrev Mem (K V : Type) := Nat → Option (K × V)

/-- `compare_key`, `complex_slot.hpp:348-360`; `none` = dereference of an address without element
(undefined behaviour). -/
def compareKey {K V : Type} [DecidableEq K] (m : Bool) (mem : Mem K V) (w : Nat) (k : K)
    (hash : Nat) : Option Bool :=
  if fingerprint m hash ≠ fpField m w then some false
  else if pointer w = 0 then some false
  else match mem (pointer w) with
    | none => none
    | some e => some (decide (e.1 = k))

/-- `get_mapped` through the pointer, `complex_slot.hpp:292-302`; `none` for the null pointer or
an address without element. -/
def getPair {K V : Type} (mem : Mem K V) (w : Nat) : Option (K × V) := mem (pointer w)

/-- Outcome of a search on packed words. (`base_linear.hpp:887-899`) -/
inductive FindRes where
  | found (pos : Nat)
  | notFound
  | ub
  | timeout
  deriving DecidableEq

/-- `find` of `base_linear.hpp:887-899` on packed words (`tbl i` is the word in slot `i`). -/
def find {K V : Type} [DecidableEq K] (E : Env K) (mem : Mem K V) (tbl : Nat → Nat) (k : K) :
    Nat → Nat → FindRes
  | 0, _ => .timeout
  | fuel + 1, i =>
    let pos := E.M.remap i
    if pos < E.M.total then
      if isEmpty E.m (tbl pos) then .notFound
      else match compareKey E.m mem (tbl pos) k (E.h k) with
        | none => .ub
        | some true => .found pos
        | some false => find E mem tbl k fuel (i + 1)
    else .ub

/-- Outcome of an insertion on packed words: new table and position, or refusal.
(`base_linear.hpp:556-602`) -/
inductive InsRes where
  | inserted (tbl : Nat → Nat) (pos : Nat)
  | present (pos : Nat)
  | invalid
  | full
  | ub
  | timeout

/-- `insert_intern` of `base_linear.hpp:556-602` on packed words, without concurrent access (the
compare-and-swap on the empty slot succeeds): insert the word `w`, whose element has key `k`. -/
def insert {K V : Type} [DecidableEq K] (E : Env K) (mem : Mem K V) (tbl : Nat → Nat) (k : K)
    (w : Nat) : Nat → Nat → InsRes
  | 0, _ => .timeout
  | fuel + 1, i =>
    let pos := E.M.remap i
    if pos < E.M.total then
      if isMarked E.m (tbl pos) then .invalid
      else if isEmpty E.m (tbl pos) then
        if tooFar E pos then .full
        else .inserted (fun j => if j = pos then w else tbl j) pos
      else match compareKey E.m mem (tbl pos) k (E.h k) with
        | none => .ub
        | some true => .present pos
        | some false => insert E mem tbl k w fuel (i + 1)
    else .ub

/-- The word inserted by `emplace` of a non-growing table: `base_linear.hpp:947-960` (variadic
constructor, the fingerprint is never set). -/
def emplaceWord (ptr : Nat) : Nat := mkSlotArgs ptr

/-- The word inserted by `emplace` of a growing table: `migration_table.hpp:579-606` (variadic
constructor, then `set_fingerprint`). -/
def emplaceWordGrowing (m : Bool) (ptr hash : Nat) : Nat := setFingerprint m (mkSlotArgs ptr) hash

end Heap

/-! ## Bit field laws -/

theorem getField_lt (o n w : Nat) : getField o n w < 2 ^ n := Nat.mod_lt _ (Nat.two_pow_pos n)

/-- A word split at a field: low part, field, high part. -/
theorem field_split (o n w : Nat) :
    w = w % 2 ^ o + getField o n w * 2 ^ o + w / 2 ^ (o + n) * 2 ^ (o + n) := by
  have h1 := Nat.div_add_mod w (2 ^ o)
  have h2 := Nat.div_add_mod (w / 2 ^ o) (2 ^ n)
  have h3 : w / 2 ^ o / 2 ^ n = w / 2 ^ (o + n) := by rw [Nat.div_div_eq_div_mul, Nat.pow_add]
  rw [h3] at h2
  unfold getField
  have h4 : 2 ^ (o + n) = 2 ^ o * 2 ^ n := Nat.pow_add 2 o n
  calc w = 2 ^ o * (w / 2 ^ o) + w % 2 ^ o := h1.symm
    _ = 2 ^ o * (2 ^ n * (w / 2 ^ (o + n)) + w / 2 ^ o % 2 ^ n) + w % 2 ^ o := by rw [h2]
    _ = _ := by
      rw [h4, Nat.mul_add]
      have : 2 ^ o * (2 ^ n * (w / (2 ^ o * 2 ^ n))) = w / (2 ^ o * 2 ^ n) * (2 ^ o * 2 ^ n) := by
        rw [← Nat.mul_assoc, Nat.mul_comm]
      rw [this, Nat.mul_comm (2 ^ o) (w / 2 ^ o % 2 ^ n)]
      omega

theorem setField_split (o n w x : Nat) :
    setField o n w x = w % 2 ^ o + (x % 2 ^ n) * 2 ^ o + w / 2 ^ (o + n) * 2 ^ (o + n) := by
  have h := field_split o n w
  unfold setField
  omega

/-- Fields of a split word. -/
theorem getField_parts {o n a x c : Nat} (ha : a < 2 ^ o) (hx : x < 2 ^ n) :
    getField o n (a + x * 2 ^ o + c * 2 ^ (o + n)) = x := by
  unfold getField
  have h4 : 2 ^ (o + n) = 2 ^ n * 2 ^ o := by rw [Nat.pow_add, Nat.mul_comm]
  have : a + x * 2 ^ o + c * 2 ^ (o + n) = a + (x + c * 2 ^ n) * 2 ^ o := by
    rw [h4, Nat.add_mul, Nat.mul_assoc, Nat.add_assoc]
  rw [this, Nat.add_mul_div_right _ _ (Nat.two_pow_pos o), Nat.div_eq_of_lt ha, Nat.zero_add,
    Nat.add_mul_mod_self_right, Nat.mod_eq_of_lt hx]

theorem get_set (o n w x : Nat) : getField o n (setField o n w x) = x % 2 ^ n := by
  rw [setField_split]
  exact getField_parts (Nat.mod_lt _ (Nat.two_pow_pos o)) (Nat.mod_lt _ (Nat.two_pow_pos n))

/-- A field above is not affected. -/
theorem get_set_above {o n o' n' : Nat} (h : o + n ≤ o') (w x : Nat) :
    getField o' n' (setField o n w x) = getField o' n' w := by
  have key : ∀ y, y < 2 ^ (o + n) → (y + w / 2 ^ (o + n) * 2 ^ (o + n)) / 2 ^ o' = w / 2 ^ o' := by
    intro y hy
    obtain ⟨d, rfl⟩ := Nat.exists_eq_add_of_le h
    rw [Nat.pow_add 2 (o + n) d, ← Nat.div_div_eq_div_mul, ← Nat.div_div_eq_div_mul,
      Nat.add_mul_div_right _ _ (Nat.two_pow_pos _), Nat.div_eq_of_lt hy, Nat.zero_add]
  unfold getField
  rw [setField_split, key]
  have h1 : w % 2 ^ o < 2 ^ o := Nat.mod_lt _ (Nat.two_pow_pos o)
  have h2 : x % 2 ^ n + 1 ≤ 2 ^ n := Nat.mod_lt _ (Nat.two_pow_pos n)
  have h3 := Nat.mul_le_mul_right (2 ^ o) h2
  have h4 : 2 ^ (o + n) = 2 ^ n * 2 ^ o := by rw [Nat.pow_add, Nat.mul_comm]
  rw [Nat.add_mul] at h3
  omega

/-- A field below is not affected. -/
theorem get_set_below {o n o' n' : Nat} (h : o' + n' ≤ o) (w x : Nat) :
    getField o' n' (setField o n w x) = getField o' n' w := by
  have key : ∀ u v : Nat, u % 2 ^ o = v % 2 ^ o → getField o' n' u = getField o' n' v := by
    intro u v huv
    have e : ∀ z : Nat, getField o' n' z = z % 2 ^ o % 2 ^ (o' + n') / 2 ^ o' := by
      intro z
      unfold getField
      have h1 : z % 2 ^ o % 2 ^ (o' + n') = z % 2 ^ (o' + n') :=
        Nat.mod_mod_of_dvd _ (Nat.pow_dvd_pow 2 h)
      rw [h1, Nat.pow_add, Nat.mod_mul_right_div_self]
    rw [e u, e v, huv]
  apply key
  rw [setField_split]
  have h4 : 2 ^ (o + n) = 2 ^ n * 2 ^ o := by rw [Nat.pow_add, Nat.mul_comm]
  rw [h4, ← Nat.mul_assoc, Nat.add_mul_mod_self_right, Nat.add_mul_mod_self_right, Nat.mod_mod]

theorem Heap.fingerprint_eq (m : Bool) (hash : Nat) :
    fingerprint m hash = hash % 2 ^ fpWidth m := by
  cases m <;> simp only [fingerprint, fpWidth, if_true, Bool.false_eq_true, if_false]
  · exact and_mask 16 hash
  · exact and_mask 15 hash

end Growt
