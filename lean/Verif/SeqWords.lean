import Verif.SeqLin
import Verif.SlotBits

/-!
# The sequential table with its slots as words

`data-structures/seq_linear.hpp` instantiated with `element_types/seq_simple_slot.hpp`.  A slot is a key word
and a mapped value; the empty slot is the one with key word 0.  The calls are those of `SeqTable`, on words.
-/

set_option linter.unusedSectionVars false

namespace Growt
namespace SeqWords
section
variable {V : Type} [DecidableEq V] [Inhabited V]

open SeqTable (Res Probe)

/-- `seq_simple_slot::slot_type` (`seq_simple_slot.hpp:40-75`), also `atomic_slot_type` (83-107): key and
mapped value.  A key is a 64-bit word (`static_assert` in lines 77-78). -/
abbrev Slot (V : Type) := WSlot V

/-- `get_empty()` (`seq_simple_slot.hpp:109-112`). -/
def emptySlot : Slot V := ⟨0, default⟩

/-- `is_empty` (`seq_simple_slot.hpp:177-181`). -/
def isEmpty (w : Slot V) : Bool := w.key == 0

/-- `compare_key` (`seq_simple_slot.hpp:195-200`). -/
def cmp (w : Slot V) (k : Nat) : Bool := w.key == k

/-- `seq_linear` (`seq_linear.hpp:149-263`), as `SeqTable.St`. -/
structure St (V : Type) where
  E : Env Nat
  t : Nat → Slot V
  n : Nat
  version : Nat

/-- `_table[p] = w`, `non_atomic_set` (`seq_simple_slot.hpp:249-256, 265-271`). -/
def setW (t : Nat → Slot V) (p : Nat) (w : Slot V) : Nat → Slot V := fun q => if q = p then w else t q

/-- `non_atomic_update` (`seq_simple_slot.hpp:307-314`): the function works on the mapped value of the
slot, whatever the key is. -/
def updW (w : Slot V) (u : UpdFn V) : Slot V := ⟨w.key, u.upd w.data⟩

/-- The probe loop of `find` (`seq_linear.hpp:309-322`), `insert_intern` (382-407), `update` (413-438),
`insert_or_update_intern` (475-506) and the first loop of `erase` (512-521): `compare_key` first. -/
def probe (E : Env Nat) (t : Nat → Slot V) (k : Nat) : Nat → Nat → Res Probe
  | 0, _ => .timeout
  | n + 1, i =>
    let p := E.M.remap i
    if p < E.M.total then
      if cmp (t p) k then .ok (.found p)
      else if isEmpty (t p) then .ok (.stop p)
      else probe E t k n (i + 1)
    else .oob

/-- The loop of `migrate` (`seq_linear.hpp:576-589`). -/
def migLoop (ins : St V → Nat → V → Res (St V × SRes V)) (t : Nat → Slot V) : List Nat → St V → Res (St V)
  | [], tgt => .ok tgt
  | p :: ps, tgt =>
    if isEmpty (t p) then migLoop ins t ps tgt
    else
      match ins tgt (t p).key (t p).data with
      | .ok (tgt', _) => migLoop ins t ps tgt'
      | .oob => .oob
      | .timeout => .timeout

/-- The table made by `grow` (`seq_linear.hpp:552-558, 571-572`). -/
def growTarget (s : St V) (n : Nat) : St V :=
  ⟨{ s.E with M := s.E.M.resize n 0 }, fun _ => emptySlot, 0, s.version + 1⟩

/-- `insert_intern` (`seq_linear.hpp:382-407`) with `inc_n`, `grow`, `migrate`, `swap` (541-591). -/
def insert : Nat → St V → Nat → V → Res (St V × SRes V)
  | 0, _, _, _ => .timeout
  | f + 1, s, k, d =>
    match probe s.E s.t k (f + 1) (s.E.M.map (s.E.h k)) with
    | .ok (.found p) => .ok (s, ⟨false, some (s.t p).data⟩)
    | .ok (.stop p) =>
      if s.n + 1 > SeqTable.thresh s.E then
        match migLoop (insert f) s.t (List.range s.E.M.total) (growTarget s (s.n + 1)) with
        | .ok tgt => insert f { tgt with n := s.n + 1 - 1 } k d
        | .oob => .oob
        | .timeout => .timeout
      else .ok ({ s with t := setW s.t p ⟨k, d⟩, n := s.n + 1 }, ⟨true, some d⟩)
    | .oob => .oob
    | .timeout => .timeout

/-- `find` (`seq_linear.hpp:309-322`). -/
def find (f : Nat) (s : St V) (k : Nat) : Res (St V × SRes V) :=
  match probe s.E s.t k f (s.E.M.map (s.E.h k)) with
  | .ok (.found p) => .ok (s, ⟨true, some (s.t p).data⟩)
  | .ok (.stop _) => .ok (s, ⟨false, none⟩)
  | .oob => .oob
  | .timeout => .timeout

/-- `update` (`seq_linear.hpp:413-438`). -/
def update (f : Nat) (s : St V) (k : Nat) (u : UpdFn V) : Res (St V × SRes V) :=
  match probe s.E s.t k f (s.E.M.map (s.E.h k)) with
  | .ok (.found p) => .ok ({ s with t := setW s.t p (updW (s.t p) u) }, ⟨true, some (updW (s.t p) u).data⟩)
  | .ok (.stop _) => .ok (s, ⟨false, none⟩)
  | .oob => .oob
  | .timeout => .timeout

/-- `insert_or_update_intern` (`seq_linear.hpp:475-506`). -/
def insertOrUpdate : Nat → St V → Nat → V → UpdFn V → Res (St V × SRes V)
  | 0, _, _, _, _ => .timeout
  | f + 1, s, k, d, u =>
    match probe s.E s.t k (f + 1) (s.E.M.map (s.E.h k)) with
    | .ok (.found p) => .ok ({ s with t := setW s.t p (updW (s.t p) u) }, ⟨false, some (updW (s.t p) u).data⟩)
    | .ok (.stop p) =>
      if s.n + 1 > SeqTable.thresh s.E then
        match migLoop (insert f) s.t (List.range s.E.M.total) (growTarget s (s.n + 1)) with
        | .ok tgt => insertOrUpdate f { tgt with n := s.n + 1 - 1 } k d u
        | .oob => .oob
        | .timeout => .timeout
      else .ok ({ s with t := setW s.t p ⟨k, d⟩, n := s.n + 1 }, ⟨true, some d⟩)
    | .oob => .oob
    | .timeout => .timeout

/-- The second loop of `erase` (`seq_linear.hpp:524-537`). -/
def eraseLoop (E : Env Nat) : Nat → (Nat → Slot V) → Nat → Nat → Res (Nat → Slot V)
  | 0, _, _, _ => .timeout
  | f + 1, t, i, j =>
    let p := E.M.remap j
    if p < E.M.total then
      if isEmpty (t p) then .ok t
      else if E.h (t p).key ≤ i then eraseLoop E f (setW (setW t i (t p)) p emptySlot) p (p + 1)
      else eraseLoop E f t i (j + 1)
    else .oob

/-- `erase` (`seq_linear.hpp:509-538`). -/
def erase (f : Nat) (s : St V) (k : Nat) : Res (St V × SRes V) :=
  match probe s.E s.t k f (s.E.M.map (s.E.h k)) with
  | .ok (.found p) =>
    match eraseLoop s.E f (setW s.t p emptySlot) p (p + 1) with
    | .ok t' => .ok ({ s with t := t' }, ⟨true, none⟩)
    | .oob => .oob
    | .timeout => .timeout
  | .ok (.stop _) => .ok (s, ⟨false, none⟩)
  | .oob => .oob
  | .timeout => .timeout

/-- Execution of a call (`seq_linear.hpp:309-538`). -/
def exec (f : Nat) (s : St V) : SeqTable.Op Nat V → Res (St V × SRes V)
  | .find k => find f s k
  | .insert k d => insert f s k d
  | .update k u => update f s k u
  | .insertOrUpdate k d u => insertOrUpdate f s k d u
  | .erase k => erase f s k

/-- Execution of a sequence of calls, with their results (`seq_linear.hpp:309-538`). -/
def execAll (f : Nat) : St V → List (SeqTable.Op Nat V) → Res (St V × List (SRes V))
  | s, [] => .ok (s, [])
  | s, op :: ops =>
    match exec f s op with
    | .ok (s', x) =>
      match execAll f s' ops with
      | .ok (s'', l) => .ok (s'', x :: l)
      | .oob => .oob
      | .timeout => .timeout
    | .oob => .oob
    | .timeout => .timeout

/-- A new table: `seq_linear(size)` (`seq_linear.hpp:193-197`, `base_linear.hpp:396-411`). -/
def St.new (cm cp : Bool) (h : Nat → Nat) (k : Nat) : St V :=
  ⟨⟨Mapper.mk' cm cp (2 ^ k) 0, h, false⟩, fun _ => emptySlot, 0, 0⟩

/-! ## Words and abstract slots -/

/-- What a word means (specification; `seq_simple_slot.hpp:177-181`). -/
def dec (w : Slot V) : Cell Nat V := if w.key = 0 then Cell.emptyCell else Cell.liveCell w.key w.data

/-- What a table of words means (specification; members of `seq_linear.hpp:262-263`). -/
def St.dec (s : St V) : SeqTable.St Nat V := ⟨s.E, fun p => SeqWords.dec (s.t p), s.n, s.version⟩

/-- The same for results (specification; `seq_linear.hpp:271-545`). -/
def decR {α : Type} : Res (St V × α) → Res (SeqTable.St Nat V × α)
  | .ok (s, a) => .ok (s.dec, a)
  | .oob => .oob
  | .timeout => .timeout

theorem dec_empty (w : Slot V) : (dec w).isEmpty = isEmpty w := by
  by_cases h : w.key = 0 <;> simp [dec, isEmpty, h, Cell.emptyCell, Cell.liveCell, Cell.isEmpty]

theorem dec_key (w : Slot V) {k : Nat} (hk : k ≠ 0) : (dec w).hasKey k = cmp w k := by
  by_cases h : w.key = 0
  · have : ¬ 0 = k := fun e => hk e.symm
    simp [dec, cmp, h, Cell.emptyCell, Cell.hasKey, this]
  · simp only [dec, if_neg h, cmp, Cell.liveCell, Cell.hasKey]
    by_cases e : w.key = k <;> simp [e]

theorem dec_set (t : Nat → Slot V) (p : Nat) (w : Slot V) :
    (fun q => dec (setW t p w q)) = Tbl.set (fun q => dec (t q)) p (dec w) := by
  funext q
  by_cases h : q = p <;> simp [setW, Tbl.set, h]

theorem dec_val {w : Slot V} {k : Nat} (hk : k ≠ 0) (h : cmp w k = true) : (dec w).val? = some w.data := by
  have : w.key = k := by simpa [cmp] using h
  have h0 : w.key ≠ 0 := by rw [this]; exact hk
  simp [dec, h0, Cell.liveCell, Cell.val?]

theorem dec_upd {w : Slot V} {k : Nat} (hk : k ≠ 0) (h : cmp w k = true) (u : UpdFn V) :
    dec (updW w u) = (nonAtomicUpdate k (dec w) u).1 := by
  have : w.key = k := by simpa [cmp] using h
  have h0 : w.key ≠ 0 := by rw [this]; exact hk
  simp [dec, updW, h0, Cell.liveCell, nonAtomicUpdate, Cell.setMapped, Cell.mapped]

theorem probe_dec (E : Env Nat) (t : Nat → Slot V) {k : Nat} (hk : k ≠ 0) : ∀ n i,
    SeqTable.probe E (fun p => dec (t p)) k n i = probe E t k n i
  | 0, _ => rfl
  | n + 1, i => by
    simp only [SeqTable.probe, probe, dec_key _ hk, dec_empty, probe_dec E t hk n (i + 1)]

/-- Where the loop stops at a key, the key is there. -/
theorem probe_found {E : Env Nat} {t : Nat → Slot V} {k : Nat} : ∀ {n i p},
    probe E t k n i = .ok (.found p) → p < E.M.total ∧ cmp (t p) k = true
  | 0, _, _, h => by cases h
  | n + 1, i, p, h => by
    simp only [probe] at h
    split at h
    · rename_i hp
      split at h
      · rename_i hc
        cases h
        exact ⟨hp, hc⟩
      · split at h
        · cases h
        · exact probe_found h
    · cases h

theorem mig_dec {ins : St V → Nat → V → Res (St V × SRes V)}
    {ins' : SeqTable.St Nat V → Nat → V → Res (SeqTable.St Nat V × SRes V)}
    (hi : ∀ s k d, k ≠ 0 → ins' s.dec k d = decR (ins s k d)) (t : Nat → Slot V) : ∀ (l : List Nat) (s : St V),
    SeqTable.migLoop ins' (fun p => dec (t p)) l s.dec =
      match migLoop ins t l s with
      | .ok s' => .ok s'.dec
      | .oob => .oob
      | .timeout => .timeout
  | [], s => rfl
  | p :: l, s => by
    by_cases h : (t p).key = 0
    · have h1 : (dec (t p)).c = .empty := by simp [dec, h, Cell.emptyCell]
      simp only [SeqTable.migLoop, h1, migLoop, isEmpty, h, beq_self_eq_true, if_true]
      exact mig_dec hi t l s
    · have h1 : (dec (t p)).c = .live (t p).key (t p).data := by simp [dec, h, Cell.liveCell]
      have h2 : isEmpty (t p) = false := by simp [isEmpty, h]
      simp only [SeqTable.migLoop, h1, migLoop, h2, Bool.false_eq_true, if_false, hi _ _ _ h]
      cases ins s (t p).key (t p).data with
      | ok x => obtain ⟨s', r⟩ := x; exact mig_dec hi t l s'
      | oob => rfl
      | timeout => rfl

theorem grow_dec (s : St V) (n : Nat) : (growTarget s n).dec = SeqTable.growTarget s.dec n := by
  simp [growTarget, SeqTable.growTarget, St.dec, dec, emptySlot]
  rfl

theorem insert_dec : ∀ (f : Nat) (s : St V) (k : Nat) (d : V), k ≠ 0 →
    SeqTable.insert f s.dec k d = decR (insert f s k d)
  | 0, _, _, _, _ => rfl
  | f + 1, s, k, d, hk => by
    have hp : SeqTable.probe s.dec.E s.dec.t k (f + 1) (s.dec.E.M.map (s.dec.E.h k)) =
        probe s.E s.t k (f + 1) (s.E.M.map (s.E.h k)) := probe_dec s.E s.t hk _ _
    simp only [SeqTable.insert, insert, hp]
    cases hq : probe s.E s.t k (f + 1) (s.E.M.map (s.E.h k)) with
    | oob => rfl
    | timeout => rfl
    | ok x =>
      cases x with
      | found p =>
        have hv := dec_val hk (probe_found hq).2
        show Res.ok (s.dec, SRes.mk false (dec (s.t p)).val?) = _
        rw [hv]
        rfl
      | stop p =>
        show (if s.n + 1 > SeqTable.thresh s.E then _ else _) = _
        by_cases hg : s.n + 1 > SeqTable.thresh s.E
        · have hm := mig_dec (insert_dec f) s.t (List.range s.E.M.total) (growTarget s (s.n + 1))
          rw [grow_dec] at hm
          have hm : SeqTable.migLoop (SeqTable.insert f) s.dec.t (List.range s.dec.E.M.total)
              (SeqTable.growTarget s.dec (s.dec.n + 1)) = _ := hm
          simp only [if_pos hg, hm]
          cases migLoop (insert f) s.t (List.range s.E.M.total) (growTarget s (s.n + 1)) with
          | ok tgt => exact insert_dec f { tgt with n := s.n + 1 - 1 } k d hk
          | oob => rfl
          | timeout => rfl
        · simp only [if_neg hg]
          have e : dec (⟨k, d⟩ : Slot V) = Cell.liveCell k d := by simp [dec, hk]
          have := dec_set s.t p (⟨k, d⟩ : Slot V)
          rw [e] at this
          simp only [decR, St.dec, this]

theorem find_dec (f : Nat) (s : St V) (k : Nat) (hk : k ≠ 0) : SeqTable.find f s.dec k = decR (find f s k) := by
  have hp : SeqTable.probe s.dec.E s.dec.t k f (s.dec.E.M.map (s.dec.E.h k)) =
      probe s.E s.t k f (s.E.M.map (s.E.h k)) := probe_dec s.E s.t hk _ _
  simp only [SeqTable.find, find, hp]
  cases hq : probe s.E s.t k f (s.E.M.map (s.E.h k)) with
  | oob => rfl
  | timeout => rfl
  | ok x =>
    cases x with
    | stop p => rfl
    | found p =>
      have hv := dec_val hk (probe_found hq).2
      show Res.ok (s.dec, SRes.mk true (dec (s.t p)).val?) = _
      rw [hv]
      rfl

/-- The found slot after the update. -/
theorem upd_dec {s : St V} {k p : Nat} (hk : k ≠ 0) (hc : cmp (s.t p) k = true) (u : UpdFn V) :
    (s.dec.t.set p (nonAtomicUpdate k (s.dec.t p) u).1) = (fun q => dec (setW s.t p (updW (s.t p) u) q)) ∧
    ((s.dec.t.set p (nonAtomicUpdate k (s.dec.t p) u).1) p).val? = some (updW (s.t p) u).data := by
  have h1 : (s.dec.t.set p (nonAtomicUpdate k (s.dec.t p) u).1) = (fun q => dec (setW s.t p (updW (s.t p) u) q)) := by
    rw [dec_set, dec_upd hk hc u]
    rfl
  refine ⟨h1, ?_⟩
  rw [h1]
  have : cmp (updW (s.t p) u) k = true := hc
  have h2 : setW s.t p (updW (s.t p) u) p = updW (s.t p) u := by simp [setW]
  show (dec (setW s.t p (updW (s.t p) u) p)).val? = _
  rw [h2]
  exact dec_val hk this

theorem update_dec (f : Nat) (s : St V) (k : Nat) (u : UpdFn V) (hk : k ≠ 0) :
    SeqTable.update f s.dec k u = decR (update f s k u) := by
  have hp : SeqTable.probe s.dec.E s.dec.t k f (s.dec.E.M.map (s.dec.E.h k)) =
      probe s.E s.t k f (s.E.M.map (s.E.h k)) := probe_dec s.E s.t hk _ _
  simp only [SeqTable.update, update, hp]
  cases hq : probe s.E s.t k f (s.E.M.map (s.E.h k)) with
  | oob => rfl
  | timeout => rfl
  | ok x =>
    cases x with
    | stop p => rfl
    | found p =>
      obtain ⟨h1, h2⟩ := upd_dec hk (probe_found hq).2 u
      simp only [h2, decR]
      simp only [h1]
      rfl

theorem insertOrUpdate_dec : ∀ (f : Nat) (s : St V) (k : Nat) (d : V) (u : UpdFn V), k ≠ 0 →
    SeqTable.insertOrUpdate f s.dec k d u = decR (insertOrUpdate f s k d u)
  | 0, _, _, _, _, _ => rfl
  | f + 1, s, k, d, u, hk => by
    have hp : SeqTable.probe s.dec.E s.dec.t k (f + 1) (s.dec.E.M.map (s.dec.E.h k)) =
        probe s.E s.t k (f + 1) (s.E.M.map (s.E.h k)) := probe_dec s.E s.t hk _ _
    simp only [SeqTable.insertOrUpdate, insertOrUpdate, hp]
    cases hq : probe s.E s.t k (f + 1) (s.E.M.map (s.E.h k)) with
    | oob => rfl
    | timeout => rfl
    | ok x =>
      cases x with
      | found p =>
        obtain ⟨h1, h2⟩ := upd_dec hk (probe_found hq).2 u
        simp only [h2, decR]
        simp only [h1]
        rfl
      | stop p =>
        show (if s.n + 1 > SeqTable.thresh s.E then _ else _) = _
        by_cases hg : s.n + 1 > SeqTable.thresh s.E
        · have hm := mig_dec (insert_dec f) s.t (List.range s.E.M.total) (growTarget s (s.n + 1))
          rw [grow_dec] at hm
          have hm : SeqTable.migLoop (SeqTable.insert f) s.dec.t (List.range s.dec.E.M.total)
              (SeqTable.growTarget s.dec (s.dec.n + 1)) = _ := hm
          simp only [if_pos hg, hm]
          cases migLoop (insert f) s.t (List.range s.E.M.total) (growTarget s (s.n + 1)) with
          | ok tgt => exact insertOrUpdate_dec f { tgt with n := s.n + 1 - 1 } k d u hk
          | oob => rfl
          | timeout => rfl
        · simp only [if_neg hg]
          have e : dec (⟨k, d⟩ : Slot V) = Cell.liveCell k d := by simp [dec, hk]
          have := dec_set s.t p (⟨k, d⟩ : Slot V)
          rw [e] at this
          simp only [decR, St.dec, this]

theorem eraseLoop_dec (E : Env Nat) : ∀ (f : Nat) (t : Nat → Slot V) (i j : Nat),
    SeqTable.eraseLoop E f (fun p => dec (t p)) i j =
      match eraseLoop E f t i j with
      | .ok t' => .ok (fun p => dec (t' p))
      | .oob => .oob
      | .timeout => .timeout
  | 0, _, _, _ => rfl
  | f + 1, t, i, j => by
    simp only [SeqTable.eraseLoop, eraseLoop]
    by_cases hp : E.M.remap j < E.M.total
    · simp only [if_pos hp]
      by_cases h : (t (E.M.remap j)).key = 0
      · have h1 : (dec (t (E.M.remap j))).c = .empty := by simp [dec, h, Cell.emptyCell]
        simp [h1, isEmpty, h]
      · have h1 : (dec (t (E.M.remap j))).c = .live (t (E.M.remap j)).key (t (E.M.remap j)).data := by
          simp [dec, h, Cell.liveCell]
        have h2 : isEmpty (t (E.M.remap j)) = false := by simp [isEmpty, h]
        simp only [h1, h2, Bool.false_eq_true, if_false]
        split
        · have e1 := dec_set t i (t (E.M.remap j))
          have e2 := dec_set (setW t i (t (E.M.remap j))) (E.M.remap j) (emptySlot : Slot V)
          rw [e1] at e2
          have e3 : dec (emptySlot : Slot V) = Cell.emptyCell := by simp [dec, emptySlot]
          rw [e3] at e2
          rw [← e2]
          exact eraseLoop_dec E f _ _ _
        · exact eraseLoop_dec E f _ _ _
    · simp only [if_neg hp]

theorem erase_dec (f : Nat) (s : St V) (k : Nat) (hk : k ≠ 0) : SeqTable.erase f s.dec k = decR (erase f s k) := by
  have hp : SeqTable.probe s.dec.E s.dec.t k f (s.dec.E.M.map (s.dec.E.h k)) =
      probe s.E s.t k f (s.E.M.map (s.E.h k)) := probe_dec s.E s.t hk _ _
  simp only [SeqTable.erase, erase, hp]
  cases hq : probe s.E s.t k f (s.E.M.map (s.E.h k)) with
  | oob => rfl
  | timeout => rfl
  | ok x =>
    cases x with
    | stop p => rfl
    | found p =>
      have e2 := dec_set s.t p (emptySlot : Slot V)
      have e3 : dec (emptySlot : Slot V) = Cell.emptyCell := by simp [dec, emptySlot]
      rw [e3] at e2
      have e4 : SeqTable.eraseLoop s.dec.E f (s.dec.t.set p Cell.emptyCell) p (p + 1) = _ :=
        e2 ▸ eraseLoop_dec s.E f (setW s.t p emptySlot) p (p + 1)
      simp only [e4]
      cases eraseLoop s.E f (setW s.t p emptySlot) p (p + 1) <;> rfl

/-- The key of a call (specification; the parameter `k`, `seq_linear.hpp:271-545`). -/
def opKey : SeqTable.Op Nat V → Nat
  | .find k | .insert k _ | .update k _ | .insertOrUpdate k _ _ | .erase k => k

theorem exec_dec (f : Nat) (s : St V) (op : SeqTable.Op Nat V) (hk : opKey op ≠ 0) :
    SeqTable.exec f s.dec op = decR (exec f s op) := by
  cases op with
  | find k => exact find_dec f s k hk
  | insert k d => exact insert_dec f s k d hk
  | update k u => exact update_dec f s k u hk
  | insertOrUpdate k d u => exact insertOrUpdate_dec f s k d u hk
  | erase k => exact erase_dec f s k hk

theorem execAll_dec (f : Nat) : ∀ (ops : List (SeqTable.Op Nat V)) (s : St V), (∀ op ∈ ops, opKey op ≠ 0) →
    SeqTable.execAll f s.dec ops = decR (execAll f s ops)
  | [], _, _ => rfl
  | op :: ops, s, h => by
    simp only [SeqTable.execAll, execAll, exec_dec f s op (h op (List.mem_cons_self ..))]
    cases exec f s op with
    | ok x =>
      obtain ⟨s', r⟩ := x
      simp only [decR, execAll_dec f ops s' (fun o ho => h o (List.mem_cons_of_mem _ ho))]
      cases execAll f s' ops with
      | ok y => obtain ⟨s'', l⟩ := y; rfl
      | oob => rfl
      | timeout => rfl
    | oob => rfl
    | timeout => rfl

theorem new_dec (cm cp : Bool) (h : Nat → Nat) (k : Nat) :
    (St.new cm cp h k : St V).dec = SeqTable.St.new cm cp h k := by
  simp [St.new, SeqTable.St.new, St.dec, dec, emptySlot]
  rfl

/-! ## The key 0 -/

/-- For the key 0 the probe loop takes the first empty slot for the key. -/
theorem probe_zero (E : Env Nat) (t : Nat → Slot V) : ∀ n i p, probe E t 0 n i ≠ .ok (.stop p)
  | 0, _, _, h => by cases h
  | n + 1, i, p, h => by
    simp only [probe] at h
    split at h
    · split at h
      · cases h
      · rename_i hc
        split at h
        · rename_i he
          exact hc he
        · exact probe_zero E t n (i + 1) p h
    · cases h

end
end SeqWords
end Growt
