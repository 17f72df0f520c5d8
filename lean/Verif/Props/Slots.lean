import Verif.SlotBits
import Verif.BaseStep
import Verif.Props.Conc

/-!
# Properties of the inline slot layouts (C34, C35)

`b = 63` is `simple_slot` (64 bit keys), `b = 31` is `single_word_slot` (32 bit keys).
-/

set_option linter.unusedSectionVars false

namespace Growt
section
variable {D : Type} [DecidableEq D] [Inhabited D]

theorem contentKey_lt {b : Nat} {x : Content Nat D} (hb : 1 ≤ b)
    (h : ∀ k v, x = .live k v → k < 2 ^ b) : contentKey b x < 2 ^ b := by
  have : 0 < 2 ^ b := Nat.two_pow_pos b
  cases x with
  | empty => exact this
  | live k v => exact h k v rfl
  | deleted v => simp only [contentKey]; omega

/-- Key word of a marked legal cell. -/
theorem encode_marked_key {m : Bool} {b : Nat} (hb : 1 ≤ b) {x : Cell Nat D}
    (hx : LegalCell m b x) (hm : x.marked = true) :
    (encode b x).key = contentKey b x.c + 2 ^ b ∧ contentKey b x.c < 2 ^ b := by
  have hlt : contentKey b x.c < 2 ^ b :=
    contentKey_lt hb fun k v h => (hx.2 k v h).2.2.2.2 (hx.1 hm)
  simp only [encode, hm, if_true, or_bit hlt]
  exact ⟨trivial, hlt⟩

/-- **Layout theorem**: on representable cells the bit level predicates are those of the abstract
cell, for every word size: emptiness, marks, tombstones (a marked tombstone is not
recognised), key comparison with every representable key, mapped value. -/
theorem layout_faithful {m : Bool} {b : Nat} (hb : 1 ≤ b) {x : Cell Nat D} (hx : LegalCell m b x) :
    (encode b x).isEmpty b = x.isEmpty ∧ (encode b x).isMarked m b = x.marked ∧
    (encode b x).isDeleted b = x.isDeleted ∧ (encode b x).data = x.mapped ∧
    (∀ k, LegalKey m b k → (encode b x).compareKey m b k = x.hasKey k) ∧
    (∀ k v, x.c = .live k v → (encode b x).getKey m b = k) := by
  have hpos : 0 < 2 ^ b := Nat.two_pow_pos b
  have hp1 : 2 ^ (b + 1) = 2 * 2 ^ b := by rw [Nat.pow_succ, Nat.mul_comm]
  have hge2 : 2 ≤ 2 ^ b := by
    have := Nat.pow_le_pow_right (n := 2) (by omega) hb
    simpa using this
  cases hmk : x.marked with
  | true =>
    obtain ⟨hk, hlt⟩ := encode_marked_key hb hx hmk
    have hm : m = true := hx.1 hmk
    have hmod : (encode b x).key % 2 ^ b = contentKey b x.c := by
      rw [hk, Nat.add_mod_right, Nat.mod_eq_of_lt hlt]
    have hdiv : (encode b x).key / 2 ^ b % 2 = 1 := by
      rw [hk, Nat.add_div_right _ hpos, Nat.div_eq_of_lt hlt]
    have hdel : ((encode b x).key == 2 ^ b - 1) = false := by
      simp only [beq_eq_false_iff_ne, ne_eq]; omega
    subst hm
    cases hc : x.c with
    | empty =>
      simp only [hc, contentKey] at hmod
      simp only [WSlot.isEmpty, WSlot.isMarked, WSlot.isDeleted, WSlot.compareKey, WSlot.getKey,
        and_mask, and_bit, hmod, hdiv, if_true, Cell.isEmpty, Cell.isDeleted, Cell.hasKey, hc, hdel]
      refine ⟨rfl, by simp, trivial, rfl, fun k hk => ?_, fun k v h => by cases h⟩
      have := hk.1
      simp; omega
    | live k v =>
      have hL := hx.2 k v hc
      simp only [hc, contentKey] at hmod
      simp only [WSlot.isEmpty, WSlot.isMarked, WSlot.isDeleted, WSlot.compareKey, WSlot.getKey,
        and_mask, and_bit, hmod, hdiv, if_true, Cell.isEmpty, Cell.isDeleted, Cell.hasKey, hc, hdel]
      refine ⟨?_, by simp, trivial, rfl, fun k' hk => rfl, fun k' v' h => by cases h; rfl⟩
      have := hL.1
      simp; omega
    | deleted v =>
      simp only [hc, contentKey] at hmod
      simp only [WSlot.isEmpty, WSlot.isMarked, WSlot.isDeleted, WSlot.compareKey, WSlot.getKey,
        and_mask, and_bit, hmod, hdiv, if_true, Cell.isEmpty, Cell.isDeleted, Cell.hasKey, hc, hdel,
        hmk]
      refine ⟨by simp; omega, by simp, rfl, rfl, fun k hk => ?_, fun k v h => by cases h⟩
      have := hk.2.1
      simp; omega
  | false =>
    have hk : (encode b x).key = contentKey b x.c := by simp [encode, hmk]
    cases hc : x.c with
    | empty =>
      simp only [hc, contentKey] at hk
      simp only [WSlot.isEmpty, WSlot.isMarked, WSlot.isDeleted, WSlot.compareKey, WSlot.getKey,
        and_mask, and_bit, hk, Cell.isEmpty, Cell.isDeleted, Cell.hasKey, hc]
      refine ⟨by simp, by simp, ?_, rfl, fun k hk => ?_, fun k v h => by cases h⟩
      · simp; omega
      · have := hk.1
        cases m <;> simp <;> omega
    | live k v =>
      have hL := hx.2 k v hc
      simp only [hc, contentKey] at hk
      have hne : k % 2 ^ b ≠ 0 := by
        intro h
        have h1 := Nat.div_add_mod k (2 ^ b)
        rw [h] at h1
        have h2 : k / 2 ^ b < 2 := by
          rw [Nat.div_lt_iff_lt_mul hpos]; have := hL.2.2.2.1; omega
        have h0 := hL.1
        have h3 := hL.2.2.1
        have h4 : k / 2 ^ b = 0 ∨ k / 2 ^ b = 1 := by
          generalize k / 2 ^ b = q at *; omega
        rcases h4 with h4 | h4 <;> rw [h4] at h1 <;> omega
      simp only [WSlot.isEmpty, WSlot.isMarked, WSlot.isDeleted, WSlot.compareKey, WSlot.getKey,
        and_mask, and_bit, hk, Cell.isEmpty, Cell.isDeleted, Cell.hasKey, hc]
      have hmark : m = true → k / 2 ^ b = 0 ∧ k % 2 ^ b = k := fun h =>
        ⟨Nat.div_eq_of_lt (hL.2.2.2.2 h), Nat.mod_eq_of_lt (hL.2.2.2.2 h)⟩
      refine ⟨by simpa using hne, ?_, by simpa using hL.2.1, rfl, fun k' _ => ?_,
        fun k' v' h => ?_⟩
      · cases m
        · rfl
        · simp [hmark rfl]
      · cases m
        · rfl
        · simp only [if_true, hmark rfl]; rfl
      · cases h
        cases m
        · rfl
        · simp [hmark rfl]
    | deleted v =>
      simp only [hc, contentKey] at hk
      have hlt : 2 ^ b - 1 < 2 ^ b := by omega
      simp only [WSlot.isEmpty, WSlot.isMarked, WSlot.isDeleted, WSlot.compareKey, WSlot.getKey,
        and_mask, and_bit, hk, Cell.isEmpty, Cell.isDeleted, Cell.hasKey, hc, hmk,
        Nat.mod_eq_of_lt hlt, Nat.div_eq_of_lt hlt]
      refine ⟨by simp; omega, by simp, by simp, rfl, fun k hk => ?_, fun k v h => by cases h⟩
      have := hk.2.1
      cases m <;> simp <;> omega

/-- Different representable cells have different words, so a compare-and-swap on words compares
cells.  (An empty cell has no value of its own; tombstones and elements carry theirs.) -/
theorem encode_injective {m : Bool} {b : Nat} (hb : 1 ≤ b) {x y : Cell Nat D}
    (hx : LegalCell m b x) (hy : LegalCell m b y) (h : encode b x = encode b y) : x = y := by
  obtain ⟨ex, mx, -, dx, -, kx⟩ := layout_faithful hb hx
  obtain ⟨ey, my, -, dy, -, ky⟩ := layout_faithful hb hy
  have hm : x.marked = y.marked := by rw [← mx, ← my, h]
  have he : x.isEmpty = y.isEmpty := by rw [← ex, ← ey, h]
  have hd : x.mapped = y.mapped := by rw [← dx, ← dy, h]
  have hkey : contentKey b x.c = contentKey b y.c := by
    cases hmx : x.marked with
    | true =>
      have h1 := encode_marked_key hb hx hmx
      have h2 := encode_marked_key hb hy (by rw [← hm]; exact hmx)
      rw [h] at h1
      omega
    | false =>
      have := congrArg WSlot.key h
      simpa [encode, hmx, ← hm] using this
  cases x with | mk m1 c1 =>
  cases y with | mk m2 c2 =>
  simp only at hm; subst hm
  cases c1 <;> cases c2 <;>
    simp_all [Cell.isEmpty, Cell.mapped, contentKey]
  · rename_i v w
    exact absurd rfl (hx.2 _ v rfl).2.1
  · exact absurd hkey.symm (hy.2 _ _ rfl).2.1

/-- Marking the word is marking the cell. -/
theorem encode_mark {b : Nat} {x : Cell Nat D} (h : x.marked = false) :
    encode b x.mark = (encode b x).marked b := by
  simp [encode, Cell.mark, WSlot.marked, h, Cell.mapped]

/-- **C34 (partial: without the key `2^b` on tables without marks).**  Every key other than the
reserved ones is stored faithfully: the slot built for it is neither empty, deleted nor marked,
compares equal to this key and to no other key, and gives the key back.
Missing: `2^b` (for 64 bit keys `2^63`) on tables without marks, see `C34_key_2_63_lost`. -/
theorem C34_keys_storable_partial {m : Bool} {b k : Nat} (hb : 1 ≤ b) (hk : LegalKey m b k) (v : D) :
    let s : WSlot D := ⟨k, v⟩
    s.isEmpty b = false ∧ s.isDeleted b = false ∧ s.isMarked m b = false ∧ s.data = v ∧
    s.getKey m b = k ∧ ∀ k', LegalKey m b k' → (s.compareKey m b k' = true ↔ k' = k) := by
  have hx : LegalCell m b (⟨false, .live k v⟩ : Cell Nat D) :=
    ⟨by simp, fun k' v' h => by cases h; exact hk⟩
  obtain ⟨h1, h2, h3, h4, h5, h6⟩ := layout_faithful hb hx
  have e : encode b (⟨false, .live k v⟩ : Cell Nat D) = ⟨k, v⟩ := rfl
  rw [e] at h1 h2 h3 h4 h5 h6
  refine ⟨h1, h3, h2, h4, h6 k v rfl, fun k' hk' => ?_⟩
  rw [h5 k' hk']
  simp [Cell.hasKey, eq_comm]

/-- The legal keys are exactly those of the documentation, except `2^b` on tables without marks. -/
theorem C34_legal_keys (b k : Nat) :
    (LegalKey true b k ↔ 0 < k ∧ k < 2 ^ b ∧ k ≠ 2 ^ b - 1) ∧
    (LegalKey false b k ↔ 0 < k ∧ k < 2 ^ (b + 1) ∧ k ≠ 2 ^ b - 1 ∧ k ≠ 2 ^ b) := by
  have : 2 ^ (b + 1) = 2 * 2 ^ b := by rw [Nat.pow_succ, Nat.mul_comm]
  constructor <;> simp [LegalKey] <;> omega

/-- **C34 (violated by the code)**: on a table without marks the slot of the unreserved key `2^b`
(for example `2^63`) looks empty: `find` gives up at it, and a later insertion overwrites it. -/
theorem C34_key_2_63_lost (b : Nat) (v : D) : (⟨2 ^ b, v⟩ : WSlot D).isEmpty b = true := by
  simp [WSlot.isEmpty, and_mask]

/-- On tables with marks every key with the mark bit set is taken for a marked slot. -/
theorem C34_marked_keys_reserved {b k : Nat} (h1 : 2 ^ b ≤ k) (h2 : k < 2 ^ (b + 1)) (v : D) :
    (⟨k, v⟩ : WSlot D).isMarked true b = true ∧ (⟨k, v⟩ : WSlot D).compareKey true b k = false := by
  have hpos : 0 < 2 ^ b := Nat.two_pow_pos b
  have hp1 : 2 ^ (b + 1) = 2 * 2 ^ b := by rw [Nat.pow_succ, Nat.mul_comm]
  have : k / 2 ^ b = 1 := by
    rw [Nat.div_eq_iff hpos]; omega
  have hm : k % 2 ^ b < 2 ^ b := Nat.mod_lt _ hpos
  simp [WSlot.isMarked, WSlot.compareKey, and_bit, and_mask, this]
  omega

/-- **C35.**  Marking a word - any word whatsoever - changes neither the key as seen by find and
get_key, nor the value, nor emptiness; afterwards the slot is marked; marking twice is marking
once; and an unmarked word always differs from the marked one, so that every compare-and-swap
prepared before fails after. -/
theorem C35_mark_keeps_contents (b : Nat) (s : WSlot D) :
    (s.marked b).isEmpty b = s.isEmpty b ∧ (s.marked b).data = s.data ∧
    (s.marked b).getKey true b = s.getKey true b ∧
    (∀ k, (s.marked b).compareKey true b k = s.compareKey true b k) ∧
    (s.marked b).isMarked true b = true ∧ (s.marked b).marked b = s.marked b ∧
    (s.isMarked true b = false → s.marked b ≠ s) := by
  have hpos : 0 < 2 ^ b := Nat.two_pow_pos b
  have hmk : (s.marked b).isMarked true b = true := by
    simp [WSlot.marked, WSlot.isMarked, and_bit, or_bit_div]
  refine ⟨?_, rfl, ?_, ?_, hmk, ?_, ?_⟩
  · simp [WSlot.marked, WSlot.isEmpty, and_mask, or_bit_mod]
  · simp [WSlot.marked, WSlot.getKey, and_mask, or_bit_mod]
  · intro k; simp [WSlot.marked, WSlot.compareKey, and_mask, or_bit_mod]
  · simp [WSlot.marked, Nat.or_assoc]
  · intro h he; rw [he] at hmk; rw [hmk] at h; cases h

end

section
variable {K V : Type} [DecidableEq K] [DecidableEq V] [Inhabited V]

/-- **C35**: every modifying operation that loads a marked slot gives up without effect, reporting
`UNSUCCESS_INVALID`. -/
theorem C35_marked_slot_refused (E : Env K) (op : Op K V) (i att : Nat) (t : Tbl K V)
    (hlt : E.M.remap i < E.M.total) (hm : (t (E.M.remap i)).marked = true)
    (hop : ∀ k, op ≠ .find k) :
    step E op (.load i att) t = (t, .done ⟨some .UNSUCCESS_INVALID, none⟩) := by
  cases op <;> simp [step, hlt, afterLoad, hm, retEnd] at hop ⊢

/-- **C35**: on tables with marks, no operation can modify a marked slot: the modifying access of an
operation that loaded the slot before it was marked leaves the table unchanged and is retried
(`update_with_backoff` may give up instead). -/
theorem C35_cas_fails_after_mark (E : Env K) (hE : E.m = true) (op : Op K V) (i att : Nat)
    (t : Tbl K V) (curr : Cell K V) (hlt : E.M.remap i < E.M.total)
    (hm : (t (E.M.remap i)).marked = true) (hc : curr.marked = false)
    (hop : (∀ k, op ≠ .find k) ∧ (∀ k f, op ≠ .updateUnsafe k f) ∧
      ∀ k d f, op ≠ .insertOrUpdateUnsafe k d f) :
    (step E op (.act i att curr) t).1 = t ∧
    ∀ r, (step E op (.act i att curr) t).2 = .done r → r = ⟨some .UNSUCCESS_BACKOFF, none⟩ := by
  have hne : t (E.M.remap i) ≠ curr := by
    intro h; rw [h, hc] at hm; cases hm
  have hup : ∀ k f, (atomicUpdate E.m k (t (E.M.remap i)) curr f).1 = t (E.M.remap i) ∧
      (atomicUpdate E.m k (t (E.M.remap i)) curr f).2.2 = false := by
    intro k f
    unfold atomicUpdate
    simp [hE, hne]
  have hself : t.set (E.M.remap i) (t (E.M.remap i)) = t := Tbl.set_self t _
  obtain ⟨h1, h2, h3⟩ := hop
  cases op with
  | find k => exact absurd rfl (h1 k)
  | locate k => simp [step, hlt, actStep]
  | updateUnsafe k f => exact absurd rfl (h2 k f)
  | insertOrUpdateUnsafe k d f => exact absurd rfl (h3 k d f)
  | insert k d => simp [step, hlt, actStep, casStep, hne]
  | erase k => simp [step, hlt, actStep, casStep, hne]
  | eraseIf k d => simp [step, hlt, actStep, casStep, hne]
  | update k f => simp [step, hlt, actStep, hup k f, hself]
  | updateBackoff k f b =>
    simp only [step, hlt, if_true, actStep, hup k f, hself, Bool.false_eq_true, if_false, retEnd,
      true_and]
    intro r h
    split at h
    · cases h
    · cases h; rfl
  | insertOrUpdate k d f =>
    simp only [step, hlt, if_true, actStep, hup k f, hself, Bool.false_eq_true, if_false, casStep, hne]
    split <;> simp

end

/-- Legal keys exist for both layouts and both modes; a legal marked tombstone and a marked
element. -/
example : LegalKey true 63 12345 ∧ LegalKey false 63 (2 ^ 63 + 1) ∧ LegalKey true 31 7 ∧
    LegalCell true 63 (⟨true, .deleted 0⟩ : Cell Nat Nat) ∧
    LegalCell true 31 (⟨true, .live 7 1⟩ : Cell Nat Nat) := by
  refine ⟨by simp [LegalKey], by simp [LegalKey], by simp [LegalKey], ⟨by simp, by simp⟩,
    ⟨by simp, fun k v h => by cases h; simp [LegalKey]⟩⟩

/-- A key with the mark bit set. -/
example : (⟨2 ^ 63 + 5, 7⟩ : WSlot Nat).isMarked true 63 = true ∧
    (⟨2 ^ 63 + 5, 7⟩ : WSlot Nat).compareKey true 63 (2 ^ 63 + 5) = false :=
  C34_marked_keys_reserved (by decide) (by decide) 7

/-- A case of the two step theorems: slot 5 of a markable table was loaded unmarked and has been
marked since. -/
example : let t : Tbl Nat Nat := fun i => if i = 5 then ⟨true, .live 5 50⟩ else Cell.emptyCell
    exM.M.remap 5 < exM.M.total ∧ (t (exM.M.remap 5)).marked = true ∧ exM.m = true ∧
    (⟨false, .live 5 50⟩ : Cell Nat Nat).marked = false ∧
    (step exM (.update 5 (incFn 1)) (.act 5 0 ⟨false, .live 5 50⟩) t).2 =
      .cont (.load 5 0) := by
  refine ⟨by decide, by decide, rfl, rfl, rfl⟩

end Growt
