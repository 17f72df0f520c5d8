import Verif.Props.Words

/-!
# The reserved keys on machine words (C95, C96)

The slots reserve two keys: 0 marks an empty slot, `2^b - 1` a tombstone (`simple_slot.hpp:31, 224-231`, `b = 63`;
`single_word_slot.hpp`, `b = 31`).  On tables with
marks the keys from `2^b` on are reserved as well.  No operation of `base_linear` rejects a call with one of them.
-/

set_option linter.unusedSectionVars false

namespace Growt
namespace Words
section
variable {T V : Type} [DecidableEq T] [DecidableEq V] [Inhabited V]

/-! ## Single calls -/

/-- A tombstone is compared equal to the reserved key. -/
theorem tomb_key {m : Bool} {b : Nat} (hb : 1 ≤ b) {w : WSlot V} (hw : w.key = 2 ^ b - 1) :
    w.isEmpty b = false ∧ w.isMarked m b = false ∧ w.compareKey m b (2 ^ b - 1) = true ∧
      w.getKey m b = 2 ^ b - 1 := by
  have h2 : 2 ≤ 2 ^ b := by
    calc 2 = 2 ^ 1 := rfl
      _ ≤ 2 ^ b := Nat.pow_le_pow_right (by decide) hb
  have hm : (2 ^ b - 1) % 2 ^ b = 2 ^ b - 1 := Nat.mod_eq_of_lt (by omega)
  have hd : (2 ^ b - 1) / 2 ^ b = 0 := Nat.div_eq_of_lt (by omega)
  refine ⟨?_, ?_, ?_, ?_⟩
  · simp only [WSlot.isEmpty, hw, and_mask, hm]
    simp; omega
  · cases m
    · rfl
    · simp [WSlot.isMarked, hw, and_bit, hd]
  · cases m <;> simp [WSlot.compareKey, hw]
  · cases m <;> simp [WSlot.getKey, hw]

/-- **C95, look-ups.**  In every table, a look-up of the tombstone key that comes to a tombstone reports it as an
element, with the tombstone key. -/
theorem C95_find_tombstone {b : Nat} (hb : 1 ≤ b) {E : Env Nat} (t : WTbl V) {i att : Nat}
    (hi : E.M.remap i < E.M.total) (ht : (t (E.M.remap i)).key = 2 ^ b - 1) :
    ∃ r : WRet V, stepW b E (.find (2 ^ b - 1)) (.load i att) t = (t, .done r) ∧
      r.ok (.find (2 ^ b - 1)) = true ∧ r.shown E.m b = some (2 ^ b - 1, (t (E.M.remap i)).data) := by
  obtain ⟨h1, -, h3, h4⟩ := tomb_key (m := E.m) hb ht
  refine ⟨⟨none, some (E.M.remap i, t (E.M.remap i))⟩, ?_, rfl, ?_⟩
  · simp [stepW, hi, afterLoadW, h1, h3]
  · simp [WRet.shown, h4]

/-- **C95, erasing.**  In every table, erasing the tombstone key at a tombstone succeeds and leaves the table as it is:
the next call will succeed again. -/
theorem C95_erase_tombstone {b : Nat} (hb : 1 ≤ b) {E : Env Nat} (t : WTbl V) {i att : Nat}
    (hi : E.M.remap i < E.M.total) (ht : t (E.M.remap i) = .deleted b) :
    stepW b E (.erase (2 ^ b - 1)) (.load i att) t = (t, .cont (.act i att (.deleted b))) ∧
    stepW b E (.erase (2 ^ b - 1)) (.act i att (.deleted b)) t = (t, .done ⟨some .SUCCESS_DEL, none⟩) := by
  obtain ⟨h1, h2, h3, -⟩ := tomb_key (m := E.m) (w := WSlot.deleted (D := V) b) hb rfl
  constructor
  · simp [stepW, hi, afterLoadW, ht, h1, h2, h3]
  · have : WTbl.set t (E.M.remap i) (.deleted b) = t := by
      funext j
      simp only [WTbl.set]
      split
      · rename_i h; rw [h, ht]
      · rfl
    simp [stepW, hi, actW, casW, ht, this]

/-- **C95, insertions.**  In every table, an insertion of the tombstone key that comes to a tombstone is refused as if
the key were present. -/
theorem C95_insert_tombstone {b : Nat} (hb : 1 ≤ b) {E : Env Nat} (t : WTbl V) {i att : Nat} (v : V)
    (hi : E.M.remap i < E.M.total) (ht : (t (E.M.remap i)).key = 2 ^ b - 1) :
    stepW b E (.insert (2 ^ b - 1) v) (.load i att) t =
      (t, .done ⟨some .UNSUCCESS_ALREADY_USED, some (E.M.remap i, t (E.M.remap i))⟩) := by
  obtain ⟨h1, h2, h3, -⟩ := tomb_key (m := E.m) hb ht
  simp [stepW, hi, afterLoadW, h1, h2, h3]

/-- **C95, updates.**  In every table, an update of the tombstone key at a tombstone succeeds, gives the tombstone a value
computed from the default value, and shows it. -/
theorem C95_update_tombstone {b : Nat} (hb : 1 ≤ b) {E : Env Nat} (t : WTbl V) {i att : Nat} (f : UpdFn V)
    (hf : E.m = true ∨ f.atomic = none) (hi : E.M.remap i < E.M.total) (ht : t (E.M.remap i) = .deleted b) :
    stepW b E (.update (2 ^ b - 1) f) (.load i att) t = (t, .cont (.act i att (.deleted b))) ∧
    stepW b E (.update (2 ^ b - 1) f) (.act i att (.deleted b)) t =
      (t.set (E.M.remap i) ⟨2 ^ b - 1, f.upd default⟩,
        .done ⟨some .SUCCESS_UP, some (E.M.remap i, ⟨2 ^ b - 1, f.upd default⟩)⟩) := by
  obtain ⟨h1, h2, h3, h4⟩ := tomb_key (m := E.m) (w := WSlot.deleted (D := V) b) hb rfl
  constructor
  · simp [stepW, hi, afterLoadW, ht, h1, h2, h3]
  · cases hm : E.m
    · rw [hm] at h4
      have ha : f.atomic = none := hf.resolve_left (by rw [hm]; decide)
      simp [stepW, hi, actW, updateW, hm, ht, ha, h4]
      simp [WSlot.deleted]
    · simp [stepW, hi, actW, updateW, hm, ht]
      simp [WSlot.deleted]

/-- The hypotheses of `C95_update_tombstone` can be met: an increment on a table with marks. -/
example : exM.m = true ∨ (incFn 3).atomic = none := .inl rfl

/-- A look-up of key 0 that ends has found nothing: it passes every element and stops at an empty slot. -/
theorem find_zero {b : Nat} {E : Env Nat} (pc : WPC V) (t : WTbl V) (r : WRet V)
    (h : (stepW b E (.find 0) pc t).2 = .done r) : r.ok (.find 0) = false := by
  have key : ∀ w : WSlot V, w.isEmpty b = false → w.compareKey E.m b 0 = false := by
    intro w hw
    have hne : ¬ w.key &&& (2 ^ b - 1) = 0 := by simpa [WSlot.isEmpty] using hw
    cases hm : E.m
    · simp only [WSlot.compareKey]
      simp
      intro h
      rw [h] at hne
      simp at hne
    · simpa [WSlot.compareKey] using hne
  have main : ∀ (i att pos : Nat) (w : WSlot V) (r : WRet V), afterLoadW b E (.find 0) i att pos w = .done r → r.ok (.find 0) = false := by
    intro i att pos w r h
    unfold afterLoadW at h
    by_cases he : w.isEmpty b
    · simp only [he, if_true, WOut.done.injEq] at h
      subst h; rfl
    · simp only [he, key _ (by simpa using he)] at h
      simp at h
  cases pc <;> simp only [stepW] at h <;> split at h
  · exact main _ _ _ _ _ h
  · cases h
  · exact main _ _ _ _ _ h
  · cases h
  · simp [actW] at h
  · cases h

/-! ## Executions -/

/-- Sequential calls: a complete call of a thread in a state without other calls has no linearization if it has none
for any result that the object allows. -/
theorem noLin_seq {O R D : Type} {S : Obj O R D} {p : T → Phase O R} (hp : ∀ j, p j = .idle) {d : D} {i : T} {o : O} {r : R}
    {l : List (Ev T O R)} (h : ∀ d', S.legal d o r d' → ∀ q : T → Phase O R, (∀ j, q j = .idle) → NoLin S q d' l) :
    NoLin S p d (.call i o :: .ret i o r :: l) := by
  refine .call (fun _ => ?_) (fun j o r d h => by simp [hp] at h)
  refine .ret (fun h => by simp at h) (fun j o' r' d' h' hl => ?_)
  by_cases hj : j = i
  · subst hj
    simp only [setAt_same, Phase.called.injEq] at h'
    subst h'
    refine .ret (fun h2 => ?_) (fun j' o2 r2 d2 h2 => ?_)
    · simp only [setAt_same, Phase.effected.injEq, true_and] at h2
      subst h2
      refine h d' hl _ (fun j' => ?_)
      by_cases h3 : j' = j
      · subst h3; simp
      · simp [setAt_other h3, hp]
    · by_cases h3 : j' = j
      · subst h3; simp at h2
      · simp [setAt_other h3, hp] at h2
  · simp [setAt_other hj, hp] at h'

/-- **C95, key 0.**  In every execution, with any number of threads and whatever is inserted, no look-up of key 0 finds
an element. -/
theorem C95_find_zero {whole : Bool} {b : Nat} {E : Env Nat} {ok : Op Nat V → Prop} {l : List (WEv T V)} {s : WSt T V}
    (h : Exec (WStep whole b E ok) WSt.init l s) {i : T} {r : WRet V} (hr : Ev.ret i (.find 0) r ∈ l) :
    r.ok (.find 0) = false := by
  suffices hs : (∀ i r, s.thr i = .fin (.find 0) r → r.ok (.find 0) = false) ∧
      ∀ i r, Ev.ret i (.find 0) r ∈ l → r.ok (.find 0) = false from hs.2 i r hr
  clear hr
  induction h with
  | init => exact ⟨fun i r h => (by cases h), fun i r h => (by cases h)⟩
  | @silent l s s' _ hst ih =>
    refine ⟨fun j r hj => ?_, ih.2⟩
    cases hst with
    | @first i =>
      by_cases h : j = i
      · subst h; simp at hj
      · simp only [setAt_other h] at hj; exact ih.1 j r hj
    | @cont i =>
      by_cases h : j = i
      · subst h; simp at hj
      · simp only [setAt_other h] at hj; exact ih.1 j r hj
  | @vis l s e s' _ hst ih =>
    cases hst with
    | @call i =>
      refine ⟨fun j r hj => ?_, fun j r hj => ?_⟩
      · by_cases h : j = i
        · subst h; simp at hj
        · simp only [setAt_other h] at hj; exact ih.1 j r hj
      · simp at hj; exact ih.2 j r hj
    | @done i op pc t' r' hb hs =>
      refine ⟨fun j r hj => ?_, fun j r hj => ?_⟩
      · by_cases h : j = i
        · subst h
          simp only [setAt_same, WThr.fin.injEq] at hj
          obtain ⟨rfl, rfl⟩ := hj
          exact find_zero pc s.tbl r' (by rw [hs])
        · simp only [setAt_other h] at hj; exact ih.1 j r hj
      · simp at hj; exact ih.2 j r hj
    | @ret i op r' hf =>
      refine ⟨fun j r hj => ?_, fun j r hj => ?_⟩
      · by_cases h : j = i
        · subst h; simp at hj
        · simp only [setAt_other h] at hj; exact ih.1 j r hj
      · simp at hj
        rcases hj with hj | ⟨rfl, rfl, rfl⟩
        · exact ih.2 j r hj
        · exact ih.1 _ _ hf

/-- **C95 (violated by the code), key 0**: an insertion of key 0 succeeds and is lost. -/
theorem C95_zero_lost {b : Nat} {E : Env Nat} (hE : E.OK) {ok : Op Nat V → Prop}
    (v : V) (hok : ok (.insert 0 v) ∧ ok (.find 0)) (i : T) :
    ∃ (l : List (WEv T V)) (s : WSt T V), Exec (WStep true b E ok) WSt.init l s ∧
      visible l = [.call i (.insert 0 v), .ret i (.insert 0 v) ⟨some .SUCCESS_IN, some (home E 0, .empty)⟩,
        .call i (.find 0), .ret i (.find 0) ⟨none, none⟩] ∧
      ¬ Linearizable (wordObj E.m b) (visible l) := by
  obtain ⟨hp, hf⟩ := home_slot hE 0
  obtain ⟨s1, s2⟩ := first_insert_words (b := b) hE 0 v
  have s3 : stepW b E (.find 0) (.load (E.M.map (E.h 0)) 0) (WTbl.set (fun _ => .empty) (home E 0) ⟨0, v⟩) =
      (WTbl.set (fun _ => .empty) (home E 0) ⟨0, v⟩, .done ⟨none, none⟩) := by
    have : (⟨0, v⟩ : WSlot V).isEmpty b = true := by simp [WSlot.isEmpty]
    simp only [stepW, hp, if_true, afterLoadW, home, WTbl.set, this]
  have e1 : Exec (WStep true b E ok) (WSt.init : WSt T V) [.call i (.insert 0 v)] _ := .vis .init (.call rfl hok.1)
  have e2 := Exec.silent e1 (.cont (i := i) (setAt_same _ _ _) s1)
  have e3 := Exec.vis e2 (.done (i := i) (setAt_same _ _ _) s2)
  have e4 := Exec.vis e3 (.ret (i := i) (setAt_same _ _ _))
  have e5 := Exec.vis e4 (.call (i := i) (setAt_same _ _ _) hok.2)
  have e6 := Exec.vis e5 (.done (i := i) (setAt_same _ _ _) s3)
  have e7 := Exec.vis e6 (.ret (i := i) (setAt_same _ _ _))
  refine ⟨_, _, e7, rfl, not_linearizable ?_⟩
  show NoLin (wordObj E.m b) _ _ [.call i (.insert 0 v), .ret i (.insert 0 v) ⟨some .SUCCESS_IN, some (home E 0, .empty)⟩,
        .call i (.find 0), .ret i (.find 0) ⟨none, none⟩]
  refine noLin_seq (fun _ => rfl) (fun d hl q hq => ?_)
  have hd : d 0 = some v := by
    rcases hl with ⟨rfl, -, -⟩ | ⟨c, -, h, -⟩
    · simp [Op.toSpec, SOp.sem, wordObj, Dict.put]
    · cases h
  refine noLin_seq hq (fun d' hl' q' _ => ?_)
  exfalso
  rcases hl' with ⟨-, h2, -⟩ | ⟨c, h, -⟩
  · simp [Op.toSpec, SOp.sem, WRet.ok, hd] at h2
  · exact h

/-- Erasing the only element of a table leaves a tombstone. -/
theorem first_erase_words {b : Nat} {E : Env Nat} (hE : E.OK) (k : Nat) (v : V)
    (hk : (⟨k, v⟩ : WSlot V).isMarked E.m b = false ∧ (⟨k, v⟩ : WSlot V).isEmpty b = false ∧
      (⟨k, v⟩ : WSlot V).compareKey E.m b k = true) :
    stepW b E (.erase k) (.load (E.M.map (E.h k)) 0) (WTbl.set (fun _ => .empty) (home E k) ⟨k, v⟩) =
      (WTbl.set (fun _ => .empty) (home E k) ⟨k, v⟩, .cont (.act (E.M.map (E.h k)) 0 ⟨k, v⟩)) ∧
    stepW b E (.erase k) (.act (E.M.map (E.h k)) 0 ⟨k, v⟩) (WTbl.set (fun _ => .empty) (home E k) ⟨k, v⟩) =
      (WTbl.set (WTbl.set (fun _ => .empty) (home E k) ⟨k, v⟩) (home E k) (.deleted b),
        .done ⟨some .SUCCESS_DEL, none⟩) := by
  obtain ⟨hp, -⟩ := home_slot hE k
  obtain ⟨h1, h2, h3⟩ := hk
  constructor
  · simp [stepW, hp, afterLoadW, home, WTbl.set, h1, h2, h3]
  · simp [stepW, hp, actW, casW, home, WTbl.set]

/-- **C95 (violated by the code), the tombstone key**: it can be inserted, and after it has been erased it can be erased
again. -/
theorem C95_erased_twice {b : Nat} (hb : 1 ≤ b) {E : Env Nat} (hE : E.OK) {ok : Op Nat V → Prop}
    (v : V) (hok : ok (.insert (2 ^ b - 1) v) ∧ ok (.erase (2 ^ b - 1))) (i : T) :
    ∃ (l : List (WEv T V)) (s : WSt T V), Exec (WStep true b E ok) WSt.init l s ∧
      visible l = [.call i (.insert (2 ^ b - 1) v),
        .ret i (.insert (2 ^ b - 1) v) ⟨some .SUCCESS_IN, some (home E (2 ^ b - 1), .empty)⟩,
        .call i (.erase (2 ^ b - 1)), .ret i (.erase (2 ^ b - 1)) ⟨some .SUCCESS_DEL, none⟩,
        .call i (.erase (2 ^ b - 1)), .ret i (.erase (2 ^ b - 1)) ⟨some .SUCCESS_DEL, none⟩] ∧
      ¬ Linearizable (wordObj E.m b) (visible l) := by
  generalize hK : 2 ^ b - 1 = k at *
  obtain ⟨hp, hf⟩ := home_slot hE k
  obtain ⟨s1, s2⟩ := first_insert_words (b := b) hE k v
  obtain ⟨g1, g2, g3, -⟩ := tomb_key (m := E.m) (w := (⟨k, v⟩ : WSlot V)) hb hK.symm
  rw [hK] at g3
  obtain ⟨s3, s4⟩ := first_erase_words (b := b) hE k v ⟨g2, g1, g3⟩
  obtain ⟨s5, s6⟩ := C95_erase_tombstone hb (E := E)
    (WTbl.set (WTbl.set (fun _ => .empty) (home E k) ⟨k, v⟩) (home E k) (.deleted b)) (i := E.M.map (E.h k)) (att := 0)
    hp (by simp [WTbl.set, home])
  rw [hK] at s5 s6
  have e1 : Exec (WStep true b E ok) (WSt.init : WSt T V) [.call i (.insert k v)] _ := .vis .init (.call rfl hok.1)
  have e2 := Exec.silent e1 (.cont (i := i) (setAt_same _ _ _) s1)
  have e3 := Exec.vis e2 (.done (i := i) (setAt_same _ _ _) s2)
  have e4 := Exec.vis e3 (.ret (i := i) (setAt_same _ _ _))
  have e5 := Exec.vis e4 (.call (i := i) (setAt_same _ _ _) hok.2)
  have e6 := Exec.silent e5 (.cont (i := i) (setAt_same _ _ _) s3)
  have e7 := Exec.vis e6 (.done (i := i) (setAt_same _ _ _) s4)
  have e8 := Exec.vis e7 (.ret (i := i) (setAt_same _ _ _))
  have e9 := Exec.vis e8 (.call (i := i) (setAt_same _ _ _) hok.2)
  have e10 := Exec.silent e9 (.cont (i := i) (setAt_same _ _ _) s5)
  have e11 := Exec.vis e10 (.done (i := i) (setAt_same _ _ _) s6)
  have e12 := Exec.vis e11 (.ret (i := i) (setAt_same _ _ _))
  refine ⟨_, _, e12, rfl, not_linearizable ?_⟩
  show NoLin (wordObj E.m b) _ _ [.call i (.insert k v), .ret i (.insert k v) ⟨some .SUCCESS_IN, some (home E k, .empty)⟩,
        .call i (.erase k), .ret i (.erase k) ⟨some .SUCCESS_DEL, none⟩,
        .call i (.erase k), .ret i (.erase k) ⟨some .SUCCESS_DEL, none⟩]
  refine noLin_seq (fun _ => rfl) (fun d _ q hq => ?_)
  refine noLin_seq hq (fun d' hl q' hq' => ?_)
  have hd : d' k = none := by
    rcases hl with ⟨rfl, -, -⟩ | ⟨c, h, -⟩
    · simp only [Op.toSpec, SOp.sem]
      split
      · assumption
      · simp [Dict.del]
    · exact h.elim
  refine noLin_seq hq' (fun d2 hl' q2 _ => ?_)
  exfalso
  rcases hl' with ⟨-, h2, -⟩ | ⟨c, h, -⟩
  · rw [show (⟨some .SUCCESS_DEL, none⟩ : WRet V).ok (.erase k) = true from rfl] at h2
    simp [Op.toSpec, SOp.sem, hd] at h2
  · exact h

/-- **C95 (violated by the code), the tombstone key**: if an element with the same first slot has been inserted and erased,
a look-up finds the tombstone key although it has never been inserted. -/
theorem C95_ghost {b : Nat} (hb : 1 ≤ b) {E : Env Nat} (hE : E.OK) {ok : Op Nat V → Prop} {k : Nat}
    (hk : LegalKey E.m b k) (hh : E.M.map (E.h k) = E.M.map (E.h (2 ^ b - 1))) (v : V)
    (hok : ok (.insert k v) ∧ ok (.erase k) ∧ ok (.find (2 ^ b - 1))) (i : T) :
    ∃ (l : List (WEv T V)) (s : WSt T V), Exec (WStep true b E ok) WSt.init l s ∧
      visible l = [.call i (.insert k v), .ret i (.insert k v) ⟨some .SUCCESS_IN, some (home E k, .empty)⟩,
        .call i (.erase k), .ret i (.erase k) ⟨some .SUCCESS_DEL, none⟩,
        .call i (.find (2 ^ b - 1)), .ret i (.find (2 ^ b - 1)) ⟨none, some (home E k, .deleted b)⟩] ∧
      s.tbl (home E k) = .deleted b ∧ ¬ Linearizable (wordObj E.m b) (visible l) := by
  obtain ⟨hp, hf⟩ := home_slot hE k
  obtain ⟨s1, s2⟩ := first_insert_words (b := b) hE k v
  have hlc : LegalCell E.m b (Cell.liveCell k v) :=
    ⟨fun h => (by cases h), fun k' v' h => (by cases h; exact hk)⟩
  have hfa := layout_faithful hb hlc
  have hemp : (⟨k, v⟩ : WSlot V).isEmpty b = false := hfa.1
  have hmk : (⟨k, v⟩ : WSlot V).isMarked E.m b = false := by
    exact hfa.2.1
  have hcmp : (⟨k, v⟩ : WSlot V).compareKey E.m b k = true := by
    have := hfa.2.2.2.2.1 k hk
    rw [show (Cell.liveCell k v).hasKey k = true by simp [Cell.hasKey, Cell.liveCell]] at this
    exact this
  obtain ⟨s3, s4⟩ := first_erase_words (b := b) hE k v ⟨hmk, hemp, hcmp⟩
  have s5 : stepW b E (.find (2 ^ b - 1)) (.load (E.M.map (E.h (2 ^ b - 1))) 0)
      (WTbl.set (WTbl.set (fun _ => .empty) (home E k) ⟨k, v⟩) (home E k) (.deleted b)) =
      (WTbl.set (WTbl.set (fun _ => .empty) (home E k) ⟨k, v⟩) (home E k) (.deleted b),
        .done ⟨none, some (home E k, .deleted b)⟩) := by
    obtain ⟨g1, -, g3, -⟩ := tomb_key (m := E.m) (w := WSlot.deleted (D := V) b) hb rfl
    rw [← hh]
    simp [stepW, hp, afterLoadW, home, WTbl.set, g1, g3]
  have e1 : Exec (WStep true b E ok) (WSt.init : WSt T V) [.call i (.insert k v)] _ := .vis .init (.call rfl hok.1)
  have e2 := Exec.silent e1 (.cont (i := i) (setAt_same _ _ _) s1)
  have e3 := Exec.vis e2 (.done (i := i) (setAt_same _ _ _) s2)
  have e4 := Exec.vis e3 (.ret (i := i) (setAt_same _ _ _))
  have e5 := Exec.vis e4 (.call (i := i) (setAt_same _ _ _) hok.2.1)
  have e6 := Exec.silent e5 (.cont (i := i) (setAt_same _ _ _) s3)
  have e7 := Exec.vis e6 (.done (i := i) (setAt_same _ _ _) s4)
  have e8 := Exec.vis e7 (.ret (i := i) (setAt_same _ _ _))
  have e9 := Exec.vis e8 (.call (i := i) (setAt_same _ _ _) hok.2.2)
  have e10 := Exec.vis e9 (.done (i := i) (setAt_same _ _ _) s5)
  have e11 := Exec.vis e10 (.ret (i := i) (setAt_same _ _ _))
  have hne : k ≠ 2 ^ b - 1 := hk.2.1
  refine ⟨_, _, e11, rfl, by simp [WTbl.set], not_linearizable ?_⟩
  show NoLin (wordObj E.m b) _ _ [.call i (.insert k v), .ret i (.insert k v) ⟨some .SUCCESS_IN, some (home E k, .empty)⟩,
        .call i (.erase k), .ret i (.erase k) ⟨some .SUCCESS_DEL, none⟩,
        .call i (.find (2 ^ b - 1)), .ret i (.find (2 ^ b - 1)) ⟨none, some (home E k, .deleted b)⟩]
  refine noLin_seq (fun _ => rfl) (fun d hl q hq => ?_)
  have hd : d (2 ^ b - 1) = none := by
    rcases hl with ⟨rfl, -, -⟩ | ⟨c, -, h, -⟩
    · simp [Op.toSpec, SOp.sem, wordObj, Dict.put, hne.symm]
    · cases h
  refine noLin_seq hq (fun d' hl q' hq' => ?_)
  have hd' : d' (2 ^ b - 1) = none := by
    rcases hl with ⟨rfl, -, -⟩ | ⟨c, h, -⟩
    · simp only [Op.toSpec, SOp.sem]
      split
      · exact hd
      · simp [Dict.del, hne.symm, hd]
    · exact h.elim
  refine noLin_seq hq' (fun d2 hl' q2 _ => ?_)
  exfalso
  rcases hl' with ⟨-, h2, -⟩ | ⟨c, h, -⟩
  · simp [Op.toSpec, SOp.sem, WRet.ok, hd'] at h2
  · exact h

/-- A call for the tombstone key passes elements with other keys. -/
theorem pass_elements {b : Nat} {E : Env Nat} {ok : Op Nat V → Prop} {s0 s : WSt T V} {l : List (WEv T V)} {t : T}
    {op : Op Nat V} {i n : Nat} (h0 : Exec (WStep true b E ok) s0 l s)
    (hop : op = .find (2 ^ b - 1) ∨ op = .erase (2 ^ b - 1)) (hs : s.thr t = .busy op (.load i 0))
    (hpath : ∀ j, j < n → E.M.remap (i + j) < E.M.total ∧ (s.tbl (E.M.remap (i + j))).isMarked E.m b = false ∧
      (s.tbl (E.M.remap (i + j))).isEmpty b = false ∧
      (s.tbl (E.M.remap (i + j))).compareKey E.m b (2 ^ b - 1) = false) :
    ∃ s' : WSt T V, Exec (WStep true b E ok) s0 l s' ∧ s'.tbl = s.tbl ∧ s'.thr t = .busy op (.load (i + n) 0) := by
  induction n with
  | zero => exact ⟨s, h0, rfl, hs⟩
  | succ n ih =>
    obtain ⟨s', h1, h2, h3⟩ := ih fun j hj => hpath j (by omega)
    obtain ⟨g1, g2, g3, g4⟩ := hpath n (by omega)
    have hst : stepW b E op (.load (i + n) 0) s'.tbl = (s'.tbl, .cont (.load (i + n + 1) 0)) := by
      rw [h2]
      rcases hop with rfl | rfl <;> simp [stepW, g1, afterLoadW, g2, g3, g4]
    exact ⟨_, .silent h1 (.cont h3 hst), h2, setAt_same _ _ _⟩

/-- **C95, whole calls.**  In every state of the table in which the probe path of the tombstone key comes to a tombstone, a
look-up and an erasure of this key that run undisturbed succeed, and the table is not changed, wherever the tombstone
is and whichever element has left it. -/
theorem C95_calls_succeed {b : Nat} (hb : 1 ≤ b) {E : Env Nat} {ok : Op Nat V → Prop} {s : WSt T V} {t : T} {op : Op Nat V}
    {n : Nat} (hop : op = .find (2 ^ b - 1) ∨ op = .erase (2 ^ b - 1)) (hok : ok op) (hs : s.thr t = .idle)
    (hpath : ∀ j, j < n → E.M.remap (E.M.map (E.h (2 ^ b - 1)) + j) < E.M.total ∧
      (s.tbl (E.M.remap (E.M.map (E.h (2 ^ b - 1)) + j))).isMarked E.m b = false ∧
      (s.tbl (E.M.remap (E.M.map (E.h (2 ^ b - 1)) + j))).isEmpty b = false ∧
      (s.tbl (E.M.remap (E.M.map (E.h (2 ^ b - 1)) + j))).compareKey E.m b (2 ^ b - 1) = false)
    (hin : E.M.remap (E.M.map (E.h (2 ^ b - 1)) + n) < E.M.total)
    (htomb : s.tbl (E.M.remap (E.M.map (E.h (2 ^ b - 1)) + n)) = .deleted b) :
    ∃ (s' : WSt T V) (l : List (WEv T V)) (r : WRet V), Exec (WStep true b E ok) s l s' ∧
      visible l = [.call t op, .ret t op r] ∧ r.ok op = true ∧ s'.tbl = s.tbl := by
  have hkey : op.key = 2 ^ b - 1 := by rcases hop with rfl | rfl <;> rfl
  have e1 : Exec (WStep true b E ok) s [.call t op] _ := .vis .init (.call hs hok)
  obtain ⟨s2, e3, h2, h3⟩ := pass_elements (n := n) e1 hop (setAt_same _ _ _) (by rw [hkey]; exact hpath)
  rw [hkey] at h3
  have h2 : s2.tbl = s.tbl := h2
  rcases hop with rfl | rfl
  · obtain ⟨r, f1, f2, -⟩ := C95_find_tombstone (E := E) hb s2.tbl (i := E.M.map (E.h (2 ^ b - 1)) + n) (att := 0) hin
      (by rw [h2, htomb]; rfl)
    have e4 := Exec.vis e3 (.done h3 f1)
    have e5 := Exec.vis e4 (.ret (i := t) (setAt_same _ _ _))
    exact ⟨_, _, r, e5, rfl, f2, h2⟩
  · obtain ⟨f1, f2⟩ := C95_erase_tombstone (E := E) hb s2.tbl (i := E.M.map (E.h (2 ^ b - 1)) + n) (att := 0) hin
      (by rw [h2, htomb])
    have e4 := Exec.silent e3 (.cont h3 f1)
    have e5 := Exec.vis e4 (.done (i := t) (setAt_same _ _ _) f2)
    have e6 := Exec.vis e5 (.ret (i := t) (setAt_same _ _ _))
    exact ⟨_, _, _, e6, rfl, rfl, h2⟩

/-! ## The hypotheses can be met -/

/-- The table of the examples, with a hash function under which all keys have the same first slot. (example, no code) -/
def exOne : Env Nat := { exM with h := fun _ => 0 }

theorem exOne_ok : exOne.OK := ⟨exM_ok.1, fun _ => by show 0 < 2 ^ 64; decide⟩

/-- **C95 is not vacuous**: on `simple_slot`s and on `single_word_slot`s, the element 5 is inserted and erased, and the
tombstone key is found; it is erased twice; key 0 is lost. -/
theorem C95_not_vacuous {b : Nat} (hb : b = 63 ∨ b = 31) :
    (∃ (l : List (WEv Nat Nat)) (s : WSt Nat Nat), Exec (WStep true b exOne fun _ => True) WSt.init l s ∧
      Ev.ret 0 (.find (2 ^ b - 1)) ⟨none, some (home exOne 5, .deleted b)⟩ ∈ visible l ∧
      s.tbl (home exOne 5) = .deleted b ∧ home exOne 5 < exOne.M.total) ∧
    (∃ (l : List (WEv Nat Nat)) (s : WSt Nat Nat), Exec (WStep true b exM fun _ => True) WSt.init l s ∧
      ¬ Linearizable (wordObj true b) (visible l) ∧ Ev.ret 0 (.find 0) ⟨none, none⟩ ∈ l) := by
  have hb1 : 1 ≤ b := by rcases hb with rfl | rfl <;> decide
  have hk : LegalKey exOne.m b 5 := by
    rcases hb with rfl | rfl <;> exact ⟨by decide, by decide, by decide, by decide, fun _ => by decide⟩
  constructor
  · obtain ⟨l, s, h1, h2, h3, -⟩ := C95_ghost (T := Nat) (V := Nat) (ok := fun _ => True) hb1 exOne_ok hk rfl 7
      ⟨trivial, trivial, trivial⟩ 0
    refine ⟨l, s, h1, by rw [h2]; simp, h3, (home_slot exOne_ok 5).1⟩
  · obtain ⟨l, s, h1, h2, h3⟩ := C95_zero_lost (T := Nat) (V := Nat) (b := b) (ok := fun _ => True) exM_ok 7 ⟨trivial, trivial⟩ 0
    refine ⟨l, s, h1, h3, mem_of_visible (by rw [h2]; simp)⟩

/-- The hypotheses of `C95_calls_succeed` can be met: the element 5 and a tombstone behind it. -/
theorem C95_calls_not_vacuous {b : Nat} (hb : b = 63 ∨ b = 31) :
    ∃ (s s' : WSt Nat Nat) (l : List (WEv Nat Nat)) (r : WRet Nat), s.tbl 0 = ⟨5, 7⟩ ∧ s.tbl 1 = .deleted b ∧
      Exec (WStep true b exOne fun _ => True) s l s' ∧
      visible l = [.call 0 (.erase (2 ^ b - 1)), .ret 0 (.erase (2 ^ b - 1)) r] ∧
      r.ok (.erase (2 ^ b - 1)) = true ∧ s'.tbl = s.tbl := by
  have hb1 : 1 ≤ b := by rcases hb with rfl | rfl <;> decide
  have h0 : exOne.M.remap (exOne.M.map (exOne.h (2 ^ b - 1)) + 0) = 0 := by
    rcases hb with rfl | rfl <;> decide
  have h1 : exOne.M.remap (exOne.M.map (exOne.h (2 ^ b - 1)) + 1) = 1 := by
    rcases hb with rfl | rfl <;> decide
  obtain ⟨s', l, r, h⟩ := C95_calls_succeed (T := Nat) (V := Nat) (E := exOne) (ok := fun _ => True) (t := 0) (n := 1)
    (s := ⟨fun p => if p = 0 then ⟨5, 7⟩ else if p = 1 then .deleted b else .empty, fun _ => .idle⟩) hb1 (.inr rfl) trivial rfl
    (by
      intro j hj
      obtain rfl : j = 0 := by omega
      rw [h0]
      rcases hb with rfl | rfl <;> decide)
    (by rw [h1]; decide) (by rw [h1]; rfl)
  exact ⟨_, s', l, r, rfl, rfl, h⟩

/-! ## Keys with the mark bit (C96) -/

/-- A call that modifies the table (all but look-ups). (specification, no code) -/
def Modifies : Op Nat V → Prop
  | .find _ | .locate _ => False
  | _ => True

/-- A thread that is about to change a slot has seen it without mark. (proof, no code) -/
def ActsUnmarked (b : Nat) (s : WSt T V) : Prop :=
  ∀ t op i att curr, s.thr t = .busy op (.act i att curr) → curr.isMarked true b = false

theorem act_of_load {b : Nat} {E : Env Nat} (hm : E.m = true) {op : Op Nat V} {i att pos : Nat} {w : WSlot V} {pc : WPC V}
    (h : afterLoadW b E op i att pos w = .cont pc) {i' att' : Nat} {curr : WSlot V} (hp : pc = .act i' att' curr) :
    curr.isMarked true b = false := by
  subst hp
  cases op <;> simp only [afterLoadW, hm, retEndW] at h <;> (repeat' split at h) <;> simp_all

theorem act_of_act {b : Nat} {E : Env Nat} {op : Op Nat V} {i att pos : Nat} {w : WSlot V} {t t' : WTbl V}
    {i' att' : Nat} {curr : WSlot V} (h : actW b E op i att pos w t = (t', .cont (.act i' att' curr))) : False := by
  cases op <;> simp only [actW, casW, retEndW] at h <;> (repeat' split at h) <;> simp_all

/-- The key word of a slot with mark is not changed by any access. -/
theorem key_stays {b : Nat} {E : Env Nat} (hm : E.m = true) {op : Op Nat V} {pc : WPC V} {t : WTbl V}
    (hpc : ∀ i att curr, pc = .act i att curr → curr.isMarked true b = false) {p : Nat}
    (hp : (t p).isMarked true b = true) : ((stepW b E op pc t).1 p).key = (t p).key := by
  cases pc with
  | load i att => simp only [stepW]; split <;> rfl
  | half i att x => simp only [stepW]; split <;> rfl
  | act i att curr =>
    have hc := hpc i att curr rfl
    simp only [stepW]
    split
    · by_cases hpos : p = E.M.remap i
      · subst hpos
        have hne : t (E.M.remap i) ≠ curr := fun h => by rw [h, hc] at hp; cases hp
        cases op <;> simp [actW, casW, updateW, unsafeW, hm, hne, WTbl.set] <;> (repeat' split) <;> simp_all [WTbl.set]
      · cases op <;> simp [actW, casW, WTbl.set, hpos] <;> (repeat' split) <;> simp_all [WTbl.set]
    · rfl

theorem blocked_step {whole : Bool} {b : Nat} {E : Env Nat} (hm : E.m = true) {ok : Op Nat V → Prop} {s s' : WSt T V}
    {e : Option (WEv T V)} (h : WStep whole b E ok s e s') (hs : ActsUnmarked b s) :
    ActsUnmarked b s' ∧ ∀ p, (s.tbl p).isMarked true b = true → (s'.tbl p).key = (s.tbl p).key := by
  have other : ∀ {t : WTbl V} {i : T} {x : WThr V}, (∀ op j att curr, x = .busy op (.act j att curr) →
      curr.isMarked true b = false) → ActsUnmarked b (⟨t, setAt s.thr i x⟩ : WSt T V) := by
    intro t i x hx t' op j att curr h
    by_cases ht : t' = i
    · subst ht
      simp only [setAt_same] at h
      exact hx _ _ _ _ h
    · simp only [setAt_other ht] at h
      exact hs _ _ _ _ _ h
  cases h with
  | call => exact ⟨other fun _ _ _ _ h => (by cases h), fun _ _ => rfl⟩
  | first => exact ⟨other fun _ _ _ _ h => (by cases h), fun _ _ => rfl⟩
  | @cont i op pc pc' t' hb hst =>
    have hk : ∀ p, (s.tbl p).isMarked true b = true → (t' p).key = (s.tbl p).key := fun p hp => by
      have := key_stays (E := E) hm (op := op) (pc := pc) (t := s.tbl) (fun j att curr h => hs i op j att curr (h ▸ hb)) hp
      rwa [hst] at this
    refine ⟨other fun op' j att curr h => ?_, hk⟩
    cases h
    cases pc with
    | load i' att' =>
      simp only [stepW] at hst
      split at hst
      · exact act_of_load hm (Prod.mk.inj hst).2 rfl
      · cases hst
    | half i' att' x =>
      simp only [stepW] at hst
      split at hst
      · exact act_of_load hm (Prod.mk.inj hst).2 rfl
      · cases hst
    | act i' att' w =>
      simp only [stepW] at hst
      split at hst
      · exact (act_of_act hst).elim
      · cases hst
  | @done i op pc t' r hb hst =>
    refine ⟨other fun _ _ _ _ h => (by cases h), fun p hp => ?_⟩
    have := key_stays (E := E) hm (op := op) (pc := pc) (t := s.tbl) (fun j att curr h => hs i op j att curr (h ▸ hb)) hp
    rwa [hst] at this
  | ret => exact ⟨other fun _ _ _ _ h => (by cases h), fun _ _ => rfl⟩

theorem mark_of_key {b : Nat} {w w' : WSlot V} (h : w.key = w'.key) : w.isMarked true b = w'.isMarked true b := by
  simp [WSlot.isMarked, h]

/-- **C96, for ever.**  On tables with marks, in every execution of the bounded table, a slot whose key word has the mark bit
keeps this word whatever happens afterwards. -/
theorem C96_blocked {whole : Bool} {b : Nat} {E : Env Nat} (hm : E.m = true) {ok : Op Nat V → Prop} {l l' : List (WEv T V)}
    {s s' : WSt T V} (h : Exec (WStep whole b E ok) WSt.init l s) (h' : Exec (WStep whole b E ok) s l' s') {p : Nat}
    (hp : (s.tbl p).isMarked true b = true) : (s'.tbl p).key = (s.tbl p).key := by
  have h0 : ActsUnmarked b s := by
    clear hp h'
    induction h with
    | init => intro t op i att curr h; cases h
    | silent _ hst ih => exact (blocked_step hm hst ih).1
    | vis _ hst ih => exact (blocked_step hm hst ih).1
  have : ActsUnmarked b s' ∧ (s'.tbl p).key = (s.tbl p).key := by
    induction h' with
    | init => exact ⟨h0, rfl⟩
    | silent _ hst ih =>
      obtain ⟨i1, i2⟩ := ih
      obtain ⟨j1, j2⟩ := blocked_step hm hst i1
      exact ⟨j1, (j2 p (by rw [mark_of_key i2, hp])).trans i2⟩
    | vis _ hst ih =>
      obtain ⟨i1, i2⟩ := ih
      obtain ⟨j1, j2⟩ := blocked_step hm hst i1
      exact ⟨j1, (j2 p (by rw [mark_of_key i2, hp])).trans i2⟩
  exact this.2

/-- **C96, refused.**  Every modifying call that comes to such a slot is refused as during a migration. -/
theorem C96_refused {b : Nat} {E : Env Nat} (hm : E.m = true) {op : Op Nat V} (hop : Modifies op) (t : WTbl V) {i att : Nat}
    (hi : E.M.remap i < E.M.total) (ht : (t (E.M.remap i)).isMarked true b = true) :
    stepW b E op (.load i att) t = (t, .done ⟨some .UNSUCCESS_INVALID, none⟩) := by
  cases op <;> first | exact hop.elim | simp [stepW, hi, afterLoadW, hm, ht, retEndW]

/-- The calls for keys with the first slot `p`, whose key word is `k`, are refused. (proof, no code) -/
structure Refusing (b : Nat) (E : Env Nat) (p k : Nat) (s : WSt T V) : Prop where
  acts : ActsUnmarked b s
  key : (s.tbl p).key = k
  busy : ∀ t op pc, s.thr t = .busy op pc → Modifies op → home E op.key = p → ∃ i att, E.M.remap i = p ∧
    (pc = .load i att ∨ ∃ x, pc = .half i att x ∧ ∀ w : WSlot V, w.key = k → (x.join w).key = k)
  fin : ∀ t op r, s.thr t = .fin op r → Modifies op → home E op.key = p → r = ⟨some .UNSUCCESS_INVALID, none⟩

/-- A modifying call refuses a slot with mark. -/
theorem refused_after {b : Nat} {E : Env Nat} (hm : E.m = true) {op : Op Nat V} (hop : Modifies op) {i att pos : Nat}
    {w : WSlot V} (hw : w.isMarked true b = true) :
    afterLoadW b E op i att pos w = .done ⟨some .UNSUCCESS_INVALID, none⟩ := by
  cases op <;> first | exact hop.elim | simp [afterLoadW, hm, hw, retEndW]

theorem refusing_access {b : Nat} {E : Env Nat} (hm : E.m = true) {p k : Nat} (hp : p < E.M.total)
    (hk : ∀ w : WSlot V, w.key = k → w.isMarked true b = true) {s : WSt T V} (h : Refusing b E p k s) {t : T} {op : Op Nat V}
    {pc : WPC V} (hb : s.thr t = .busy op pc) (hop : Modifies op) (hh : home E op.key = p) :
    stepW b E op pc s.tbl = (s.tbl, .done ⟨some .UNSUCCESS_INVALID, none⟩) := by
  obtain ⟨i, att, hi, rfl | ⟨x, rfl, hx⟩⟩ := h.busy t op pc hb hop hh
  · simp only [stepW, hi, hp, if_true, refused_after hm hop (hk _ h.key)]
  · simp only [stepW, hi, hp, if_true, refused_after hm hop (hk _ (hx _ h.key))]

theorem refusing_step {whole : Bool} {b : Nat} {E : Env Nat} (hm : E.m = true) {ok : Op Nat V → Prop} {p k : Nat}
    (hp : p < E.M.total) (hk : ∀ w : WSlot V, w.key = k → w.isMarked true b = true) {s s' : WSt T V} {e : Option (WEv T V)}
    (h : WStep whole b E ok s e s') (hs : Refusing b E p k s) : Refusing b E p k s' := by
  obtain ⟨h1, h2⟩ := blocked_step hm h hs.acts
  have hkey : (s'.tbl p).key = k := (h2 p (hk _ hs.key)).trans hs.key
  have other : ∀ {tb : WTbl V} {i : T} {x : WThr V}, s' = ⟨tb, setAt s.thr i x⟩ →
      (∀ op pc, x = .busy op pc → Modifies op → home E op.key = p → ∃ i att, E.M.remap i = p ∧
        (pc = .load i att ∨ ∃ x, pc = .half i att x ∧ ∀ w : WSlot V, w.key = k → (x.join w).key = k)) →
      (∀ op r, x = .fin op r → Modifies op → home E op.key = p → r = ⟨some .UNSUCCESS_INVALID, none⟩) →
      Refusing b E p k s' := by
    intro tb i x hs' g1 g2
    refine ⟨h1, hkey, fun t op pc ht => ?_, fun t op r ht => ?_⟩ <;> subst hs' <;> by_cases hti : t = i
    · subst hti; simp only [setAt_same] at ht; exact g1 op pc ht
    · simp only [setAt_other hti] at ht; exact hs.busy t op pc ht
    · subst hti; simp only [setAt_same] at ht; exact g2 op r ht
    · simp only [setAt_other hti] at ht; exact hs.fin t op r ht
  cases h with
  | @call i op hi _ =>
    refine other rfl (fun op' pc hx _ hh => ?_) (fun _ _ hx => by cases hx)
    cases hx
    exact ⟨_, _, hh, .inl rfl⟩
  | @first i op j att x _ hi hj hx =>
    refine other rfl (fun op' pc hx' hop hh => ?_) (fun _ _ hx => by cases hx)
    cases hx'
    obtain ⟨i', att', g1, g2 | ⟨x', g2, -⟩⟩ := hs.busy _ _ _ hi hop hh
    · cases g2
      refine ⟨j, att, g1, .inr ⟨x, rfl, fun w hw => ?_⟩⟩
      rcases hx with rfl | rfl
      · simp only [Half.join]; rw [g1]; exact hs.key
      · exact hw
    · cases g2
  | @cont i op pc pc' t' hi hst =>
    refine other rfl (fun op' pc'' hx hop hh => ?_) (fun _ _ hx => by cases hx)
    cases hx
    rw [refusing_access hm hp hk hs hi hop hh] at hst
    cases hst
  | @done i op pc t' r hi hst =>
    refine other rfl (fun _ _ hx => by cases hx) (fun op' r' hx hop hh => ?_)
    cases hx
    rw [refusing_access hm hp hk hs hi hop hh] at hst
    cases hst
    rfl
  | @ret i op r hi => exact other rfl (fun _ _ hx => by cases hx) (fun _ _ hx => by cases hx)

/-- **C96.**  On tables with marks every key with the mark bit can be inserted into the empty table, and then, whatever any number
of threads do, all modifying calls for all keys with the same first slot are refused for ever. -/
theorem C96_marked_key (whole : Bool) {b : Nat} {E : Env Nat} (hE : E.OK) (hm : E.m = true) {ok : Op Nat V → Prop} {k : Nat}
    (h1 : 2 ^ b ≤ k) (h2 : k < 2 ^ (b + 1)) (v : V) (hok : ok (.insert k v)) (i : T) :
    ∃ (l : List (WEv T V)) (s : WSt T V), Exec (WStep whole b E ok) WSt.init l s ∧
      visible l = [.call i (.insert k v), .ret i (.insert k v) ⟨some .SUCCESS_IN, some (home E k, .empty)⟩] ∧
      (∀ t, s.thr t = .idle) ∧ s.tbl (home E k) = ⟨k, v⟩ ∧
      ∀ (l' : List (WEv T V)) (s' : WSt T V), Exec (WStep whole b E ok) s l' s' → ∀ t (op : Op Nat V) r,
        Ev.ret t op r ∈ l' → Modifies op → home E op.key = home E k → r = ⟨some .UNSUCCESS_INVALID, none⟩ := by
  obtain ⟨s1, s2⟩ := first_insert_words (b := b) hE k v
  have e1 : Exec (WStep whole b E ok) (WSt.init : WSt T V) [.call i (.insert k v)] _ := .vis .init (.call rfl hok)
  have e2 := Exec.silent e1 (.cont (i := i) (setAt_same _ _ _) s1)
  have e3 := Exec.vis e2 (.done (i := i) (setAt_same _ _ _) s2)
  have e4 := Exec.vis e3 (.ret (i := i) (setAt_same _ _ _))
  have hidle : ∀ {x y z : WThr V} (t : T),
      setAt (setAt (setAt (setAt (WSt.init : WSt T V).thr i x) i y) i z) i .idle t = .idle := fun t => by
      by_cases ht : t = i
      · subst ht; simp
      · simp only [setAt_other ht]; rfl
  refine ⟨_, _, e4, rfl, hidle, by simp [WTbl.set], fun l' s' h => ?_⟩
  have hmk : ∀ w : WSlot V, w.key = k → w.isMarked true b = true := fun w hw => by
    rw [mark_of_key (w' := ⟨k, v⟩) hw]; exact (C34_marked_keys_reserved h1 h2 v).1
  have main : Refusing b E (home E k) k s' ∧ ∀ t (op : Op Nat V) r,
        Ev.ret t op r ∈ l' → Modifies op → home E op.key = home E k → r = ⟨some .UNSUCCESS_INVALID, none⟩ := by
    induction h with
    | init =>
      refine ⟨⟨fun t op j att curr ht => ?_, by simp [WTbl.set], fun t op pc ht => ?_, fun t op r ht => ?_⟩,
        fun t op r ht => by cases ht⟩
      · exact absurd ((hidle t).symm.trans ht) (by simp)
      · exact absurd ((hidle t).symm.trans ht) (by simp)
      · exact absurd ((hidle t).symm.trans ht) (by simp)
    | silent _ hst ih => exact ⟨refusing_step hm (home_slot hE k).1 hmk hst ih.1, ih.2⟩
    | @vis l s s' e _ hst ih =>
      refine ⟨refusing_step hm (home_slot hE k).1 hmk hst ih.1, fun t op r ht hop hh => ?_⟩
      rcases List.mem_append.mp ht with ht | ht
      · exact ih.2 t op r ht hop hh
      · rw [List.mem_singleton] at ht
        subst ht
        cases hst with
        | ret hf => exact ih.1.fin t op r hf hop hh
  exact main.2

/-- **C96 (violated by the code)**: an inserted key with the mark bit cannot be erased. -/
theorem C96_not_erased {b : Nat} {E : Env Nat} (hE : E.OK) (hm : E.m = true) {ok : Op Nat V → Prop} {k : Nat}
    (h1 : 2 ^ b ≤ k) (h2 : k < 2 ^ (b + 1)) (v : V) (hok : ok (.insert k v) ∧ ok (.erase k)) (i : T) :
    ∃ (l : List (WEv T V)) (s : WSt T V), Exec (WStep true b E ok) WSt.init l s ∧
      visible l = [.call i (.insert k v), .ret i (.insert k v) ⟨some .SUCCESS_IN, some (home E k, .empty)⟩,
        .call i (.erase k), .ret i (.erase k) ⟨some .UNSUCCESS_INVALID, none⟩] ∧
      ¬ Linearizable (wordObj E.m b) (visible l) := by
  obtain ⟨s1, s2⟩ := first_insert_words (b := b) hE k v
  have s3 := C96_refused (b := b) (op := .erase k) hm trivial (WTbl.set (fun _ => .empty) (home E k) (⟨k, v⟩ : WSlot V))
    (i := E.M.map (E.h k)) (att := 0) (home_slot hE k).1 (by simpa [WTbl.set, home] using (C34_marked_keys_reserved h1 h2 v).1)
  have e1 : Exec (WStep true b E ok) (WSt.init : WSt T V) [.call i (.insert k v)] _ := .vis .init (.call rfl hok.1)
  have e2 := Exec.silent e1 (.cont (i := i) (setAt_same _ _ _) s1)
  have e3 := Exec.vis e2 (.done (i := i) (setAt_same _ _ _) s2)
  have e4 := Exec.vis e3 (.ret (i := i) (setAt_same _ _ _))
  have e5 := Exec.vis e4 (.call (i := i) (setAt_same _ _ _) hok.2)
  have e6 := Exec.vis e5 (.done (i := i) (setAt_same _ _ _) s3)
  have e7 := Exec.vis e6 (.ret (i := i) (setAt_same _ _ _))
  refine ⟨_, _, e7, rfl, not_linearizable ?_⟩
  show NoLin (wordObj E.m b) _ _ [.call i (.insert k v), .ret i (.insert k v) ⟨some .SUCCESS_IN, some (home E k, .empty)⟩,
        .call i (.erase k), .ret i (.erase k) ⟨some .UNSUCCESS_INVALID, none⟩]
  refine noLin_seq (fun _ => rfl) (fun d hl q hq => ?_)
  have hd : d k = some v := by
    rcases hl with ⟨rfl, -, -⟩ | ⟨c, -, h, -⟩
    · simp [Op.toSpec, SOp.sem, wordObj, Dict.put]
    · cases h
  refine noLin_seq hq (fun d' hl' q' _ => ?_)
  exfalso
  rcases hl' with ⟨-, h2, -⟩ | ⟨c, h, -⟩
  · rw [show (⟨some .UNSUCCESS_INVALID, none⟩ : WRet V).ok (.erase k) = false from rfl] at h2
    simp [Op.toSpec, SOp.sem, hd] at h2
  · exact h

/-- A legal key that cannot be inserted. -/
theorem insert_refused {b : Nat} {E : Env Nat} (hE : E.OK) (hm : E.m = true) {k k' : Nat} (h1 : 2 ^ b ≤ k) (h2 : k < 2 ^ (b + 1))
    (hh : home E k' = home E k) (v v' : V) (i j : T) :
    ∃ (l l' : List (WEv T V)) (s s' : WSt T V),
      Exec (WStep true b E fun _ => True) WSt.init l s ∧ Exec (WStep true b E fun _ => True) s l' s' ∧
      visible l = [.call i (.insert k v), .ret i (.insert k v) ⟨some .SUCCESS_IN, some (home E k, .empty)⟩] ∧
      visible l' = [.call j (.insert k' v'), .ret j (.insert k' v') ⟨some .UNSUCCESS_INVALID, none⟩] := by
  obtain ⟨l, s, e4, hv, hidle, htbl, -⟩ := C96_marked_key (T := T) true hE hm (ok := fun _ => True) h1 h2 v trivial i
  have s3 := C96_refused (b := b) (E := E) (op := .insert k' v') hm trivial s.tbl (i := E.M.map (E.h k')) (att := 0)
    (home_slot hE k').1 (by
      rw [show E.M.remap (E.M.map (E.h k')) = home E k from hh, htbl]
      exact (C34_marked_keys_reserved h1 h2 v).1)
  have f1 : Exec (WStep true b E fun _ => True) s [.call j (.insert k' v')] _ := .vis .init (.call (hidle j) trivial)
  have f2 := Exec.vis f1 (.done (i := j) (setAt_same _ _ _) s3)
  have f3 := Exec.vis f2 (.ret (i := j) (setAt_same _ _ _))
  exact ⟨_, _, _, _, e4, f3, hv, rfl⟩

/-- **C96 is not vacuous**: on `simple_slot`s and on `single_word_slot`s, the key `2^b + 5` is inserted; afterwards the legal
key 5 cannot be inserted. -/
theorem C96_not_vacuous {b : Nat} (hb : b = 63 ∨ b = 31) :
    LegalKey exOne.m b 5 ∧ ∃ (l l' : List (WEv Nat Nat)) (s s' : WSt Nat Nat),
      Exec (WStep true b exOne fun _ => True) WSt.init l s ∧ Exec (WStep true b exOne fun _ => True) s l' s' ∧
      visible l = [.call 0 (.insert (2 ^ b + 5) 7),
        .ret 0 (.insert (2 ^ b + 5) 7) ⟨some .SUCCESS_IN, some (home exOne (2 ^ b + 5), .empty)⟩] ∧
      visible l' = [.call 1 (.insert 5 1), .ret 1 (.insert 5 1) ⟨some .UNSUCCESS_INVALID, none⟩] := by
  refine ⟨?_, ?_⟩
  · rcases hb with rfl | rfl <;> exact ⟨by decide, by decide, by decide, by decide, fun _ => by decide⟩
  · exact insert_refused (k := 2 ^ b + 5) (k' := 5) exOne_ok rfl (by omega) (by rcases hb with rfl | rfl <;> decide) rfl 7 1 0 1

end
end Words
end Growt
