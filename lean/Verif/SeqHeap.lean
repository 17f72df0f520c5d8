import Verif.SeqLin

/-!
# The sequential table with elements on the heap

`data-structures/seq_linear.hpp` instantiated with `element_types/seq_complex_slot.hpp` (chosen by
`seq_table_config.hpp:38-41`).  A slot is a word: 16 bits of the hash value and a pointer.  The heap is
part of the state, so that reading a block that is not allocated, or freeing one, shows.

Every call of the table is followed on the level of words and blocks, and related to the model
`SeqTable` of the same code on abstract slots.
-/

set_option linter.unusedSectionVars false

namespace Growt
namespace SeqHeap
section
variable {K V : Type} [DecidableEq K] [DecidableEq V] [Inhabited V]

/-- The heap blocks that are allocated for elements, with their contents. (`seq_complex_slot.hpp:130-139`) -/
abbrev Heap (K V : Type) := Nat → Option (K × V)

/-- Writing, allocating and freeing a block. (`seq_complex_slot.hpp:130-139`) -/
def Heap.set (H : Heap K V) (a : Nat) (x : Option (K × V)) : Heap K V := fun b => if b = a then x else H b

/-- Outcome of a computation: a result, undefined behaviour (access outside the slots, access to or
release of a block that is not allocated), `malloc` failed (`allocate` does not check, the placement
`new` behind it then is undefined; `seq_complex_slot.hpp:136-139, 159-160`), or not finished within the
given number of iterations. -/
inductive Res (α : Type) where
  | ok (a : α)
  | bad
  | nomem
  | timeout

/-- `_mfptr.split.fingerprint` (`seq_complex_slot.hpp:17-25`; bit fields from the low end, as on
x86-64). -/
def fpOf (w : Nat) : Nat := w % 2 ^ 16

/-- `_mfptr.split.pointer` (`seq_complex_slot.hpp:17-25`). -/
def ptrOf (w : Nat) : Nat := w / 2 ^ 16

/-- `slot_type(k, d, hash)` after the allocation (`seq_complex_slot.hpp:154-163`; the other
constructors 166-196 and, with `set_fingerprint` 266-270, the one used by `emplace` give the same
word). -/
def mkWord (a hash : Nat) : Nat := hash % 2 ^ 16 + 2 ^ 16 * a

/-- `is_empty` (`seq_complex_slot.hpp:274-278`). -/
def isEmpty (w : Nat) : Bool := w == 0

/-- `compare_key` (`seq_complex_slot.hpp:292-304`); `none` if the pointer does not lead to a block. -/
def cmp (H : Heap K V) (w : Nat) (k : K) (hash : Nat) : Option Bool :=
  if hash % 2 ^ 16 ≠ fpOf w then some false
  else if ptrOf w = 0 then some false
  else match H (ptrOf w) with
    | some x => some (decide (x.1 = k))
    | none => none

/-- `cleanup` (`seq_complex_slot.hpp:369-374`): `free` of the block (destructors of key and mapped value
do not run; their own memory is not modelled). -/
def free (H : Heap K V) (w : Nat) : Option (Heap K V) :=
  if ptrOf w = 0 then some H
  else match H (ptrOf w) with
    | some _ => some (H.set (ptrOf w) none)
    | none => none

/-- `malloc` (`seq_complex_slot.hpp:136-139`): any function of the allocated blocks. -/
abbrev Alloc (K V : Type) := Heap K V → Option Nat

/-- What is known about `malloc`: a new block is not null, below `2^48`, and not in use. (assumption, no code) -/
def Alloc.OK (A : Alloc K V) : Prop := ∀ H a, A H = some a → a ≠ 0 ∧ a < 2 ^ 48 ∧ H a = none

/-- `seq_linear` (`seq_linear.hpp:149-263`): as `SeqTable.St`, with words. -/
structure Tab (K : Type) where
  E : Env K
  t : Nat → Nat
  n : Nat
  version : Nat

/-- `_table[p] = w` (`seq_complex_slot.hpp:404-410, 422-427`). -/
def setW (t : Nat → Nat) (p w : Nat) : Nat → Nat := fun q => if q = p then w else t q

/-- The probe loop of `find` (`seq_linear.hpp:309-321`), `insert_intern` (385-406), `update` (416-435),
`insert_or_update_intern` (479-505), `erase` (513-521): `compare_key` first, then `is_empty`. -/
def probe (E : Env K) (t : Nat → Nat) (H : Heap K V) (k : K) (hash : Nat) :
    Nat → Nat → Res SeqTable.Probe
  | 0, _ => .timeout
  | n + 1, i =>
    let p := E.M.remap i
    if p < E.M.total then
      match cmp H (t p) k hash with
      | none => .bad
      | some true => .ok (.found p)
      | some false => if isEmpty (t p) then .ok (.stop p) else probe E t H k hash n (i + 1)
    else .bad

/-- `slot_cleanup` (`base_linear.hpp:353-358`), called by the destructor (`base_linear.hpp:440-450`,
`seq_table_config.hpp:53` sets the cleanup flag). -/
def cleanup (t : Nat → Nat) : List Nat → Heap K V → Option (Heap K V)
  | [], H => some H
  | p :: ps, H =>
    match free H (t p) with
    | some H' => cleanup t ps H'
    | none => none

/-- The loop of `migrate` (`seq_linear.hpp:576-589`): key and value are copied out of the block and
inserted, which allocates another block. -/
def migLoop (ins : Tab K → Heap K V → K → V → Res (Tab K × Heap K V × Bool × Nat)) (t : Nat → Nat) :
    List Nat → Tab K → Heap K V → Res (Tab K × Heap K V)
  | [], tgt, H => .ok (tgt, H)
  | p :: ps, tgt, H =>
    if isEmpty (t p) then migLoop ins t ps tgt H
    else match H (ptrOf (t p)) with
      | none => .bad
      | some x =>
        match ins tgt H x.1 x.2 with
        | .ok (tgt', H', _) => migLoop ins t ps tgt' H'
        | .bad => .bad
        | .nomem => .nomem
        | .timeout => .timeout

/-- The table made by `grow` (`seq_linear.hpp:552-558`), filled with empty slots (571-572). -/
def growTarget (s : Tab K) (n : Nat) : Tab K :=
  ⟨{ s.E with M := s.E.M.resize n 0 }, fun _ => 0, 0, s.version + 1⟩

/-- `grow` (`seq_linear.hpp:552-558`): migration, `swap` (560-567), and the destructor of the local
object, which now holds the old slots. -/
def grow (ins : Tab K → Heap K V → K → V → Res (Tab K × Heap K V × Bool × Nat)) (s : Tab K)
    (H : Heap K V) (n : Nat) : Res (Tab K × Heap K V) :=
  match migLoop ins s.t (List.range s.E.M.total) (growTarget s n) H with
  | .ok (tgt, H') =>
    match cleanup s.t (List.range s.E.M.total) H' with
    | some H'' => .ok ({ tgt with n := n }, H'')
    | none => .bad
  | .bad => .bad
  | .nomem => .nomem
  | .timeout => .timeout

/-- `insert(k, d)` (`seq_linear.hpp:341-350`; 353-363 and 366-378 likewise), around `insert_intern`:
allocation, insertion, and release of the block if the key was present.  The result has the number of
the slot to which the returned iterator points. -/
def insertWith (A : Alloc K V)
    (intern : Tab K → Heap K V → Nat → Nat → Res (Tab K × Heap K V × Bool × Nat))
    (s : Tab K) (H : Heap K V) (k : K) (d : V) : Res (Tab K × Heap K V × Bool × Nat) :=
  match A H with
  | none => .nomem
  | some a =>
    match intern s (H.set a (some (k, d))) (mkWord a (s.E.h k)) (s.E.h k) with
    | .ok (s', H', true, p) => .ok (s', H', true, p)
    | .ok (s', H', false, p) =>
      match free H' (mkWord a (s.E.h k)) with
      | some H'' => .ok (s', H'', false, p)
      | none => .bad
    | .bad => .bad
    | .nomem => .nomem
    | .timeout => .timeout

/-- `insert_intern` (`seq_linear.hpp:382-407`) with `inc_n` (541-550).  The key is read from the new
block (384). -/
def insertIntern (A : Alloc K V) : Nat → Tab K → Heap K V → Nat → Nat →
    Res (Tab K × Heap K V × Bool × Nat)
  | 0, _, _, _, _ => .timeout
  | f + 1, s, H, sl, hash =>
    match H (ptrOf sl) with
    | none => .bad
    | some x =>
      match probe s.E s.t H x.1 hash (f + 1) (s.E.M.map hash) with
      | .ok (.found p) => .ok (s, H, false, p)
      | .ok (.stop p) =>
        if s.n + 1 > SeqTable.thresh s.E then
          match grow (insertWith A (insertIntern A f)) s H (s.n + 1) with
          | .ok (tgt, H') => insertIntern A f { tgt with n := tgt.n - 1 } H' sl hash
          | .bad => .bad
          | .nomem => .nomem
          | .timeout => .timeout
        else .ok ({ s with t := setW s.t p sl, n := s.n + 1 }, H, true, p)
      | .bad => .bad
      | .nomem => .nomem
      | .timeout => .timeout

/-- `insert` (`seq_linear.hpp:341-350`). -/
def insert (A : Alloc K V) (f : Nat) : Tab K → Heap K V → K → V → Res (Tab K × Heap K V × Bool × Nat) :=
  insertWith A (insertIntern A f)

/-- `insert_or_update_intern` (`seq_linear.hpp:475-506`); `non_atomic_update` works on the block
(`seq_complex_slot.hpp:462-471`). -/
def insertOrUpdateIntern (A : Alloc K V) (u : UpdFn V) : Nat → Tab K → Heap K V → Nat → Nat →
    Res (Tab K × Heap K V × Bool × Nat)
  | 0, _, _, _, _ => .timeout
  | f + 1, s, H, sl, hash =>
    match H (ptrOf sl) with
    | none => .bad
    | some x =>
      match probe s.E s.t H x.1 hash (f + 1) (s.E.M.map hash) with
      | .ok (.found p) =>
        match H (ptrOf (s.t p)) with
        | none => .bad
        | some y => .ok (s, H.set (ptrOf (s.t p)) (some (y.1, u.upd y.2)), false, p)
      | .ok (.stop p) =>
        if s.n + 1 > SeqTable.thresh s.E then
          match grow (insertWith A (insertIntern A f)) s H (s.n + 1) with
          | .ok (tgt, H') => insertOrUpdateIntern A u f { tgt with n := tgt.n - 1 } H' sl hash
          | .bad => .bad
          | .nomem => .nomem
          | .timeout => .timeout
        else .ok ({ s with t := setW s.t p sl, n := s.n + 1 }, H, true, p)
      | .bad => .bad
      | .nomem => .nomem
      | .timeout => .timeout

/-- `insert_or_update` (`seq_linear.hpp:441-453`). -/
def insertOrUpdate (A : Alloc K V) (f : Nat) (s : Tab K) (H : Heap K V) (k : K) (d : V) (u : UpdFn V) :
    Res (Tab K × Heap K V × Bool × Nat) :=
  insertWith A (insertOrUpdateIntern A u f) s H k d

/-- `find` (`seq_linear.hpp:309-321`); the number of the slot is meaningless if nothing was found. -/
def find (f : Nat) (s : Tab K) (H : Heap K V) (k : K) : Res (Tab K × Heap K V × Bool × Nat) :=
  match probe s.E s.t H k (s.E.h k) f (s.E.M.map (s.E.h k)) with
  | .ok (.found p) => .ok (s, H, true, p)
  | .ok (.stop p) => .ok (s, H, false, p)
  | .bad => .bad
  | .nomem => .nomem
  | .timeout => .timeout

/-- `update` (`seq_linear.hpp:413-436`, `seq_complex_slot.hpp:462-471`). -/
def update (f : Nat) (s : Tab K) (H : Heap K V) (k : K) (u : UpdFn V) :
    Res (Tab K × Heap K V × Bool × Nat) :=
  match probe s.E s.t H k (s.E.h k) f (s.E.M.map (s.E.h k)) with
  | .ok (.found p) =>
    match H (ptrOf (s.t p)) with
    | none => .bad
    | some y => .ok (s, H.set (ptrOf (s.t p)) (some (y.1, u.upd y.2)), true, p)
  | .ok (.stop p) => .ok (s, H, false, p)
  | .bad => .bad
  | .nomem => .nomem
  | .timeout => .timeout

/-- The second loop of `erase` (`seq_linear.hpp:524-537`): words are moved, blocks stay. -/
def eraseLoop (E : Env K) (H : Heap K V) : Nat → (Nat → Nat) → Nat → Nat → Res (Nat → Nat)
  | 0, _, _, _ => .timeout
  | f + 1, t, i, j =>
    let p := E.M.remap j
    if p < E.M.total then
      if isEmpty (t p) then .ok t
      else match H (ptrOf (t p)) with
        | none => .bad
        | some x =>
          if E.h x.1 ≤ i then eraseLoop E H f (setW (setW t i (t p)) p 0) p (p + 1)
          else eraseLoop E H f t i (j + 1)
    else .bad

/-- `erase` (`seq_linear.hpp:509-538`): the slot becomes empty (523), nothing is done with its block. -/
def erase (f : Nat) (s : Tab K) (H : Heap K V) (k : K) : Res (Tab K × Heap K V × Bool × Nat) :=
  match probe s.E s.t H k (s.E.h k) f (s.E.M.map (s.E.h k)) with
  | .ok (.found p) =>
    match eraseLoop s.E H f (setW s.t p 0) p (p + 1) with
    | .ok t' => .ok ({ s with t := t' }, H, true, p)
    | .bad => .bad
    | .nomem => .nomem
    | .timeout => .timeout
  | .ok (.stop p) => .ok (s, H, false, p)
  | .bad => .bad
  | .nomem => .nomem
  | .timeout => .timeout

/-- Execution of a call. (`seq_linear.hpp:309-538`) -/
def exec (A : Alloc K V) (f : Nat) (s : Tab K) (H : Heap K V) :
    SeqTable.Op K V → Res (Tab K × Heap K V × Bool × Nat)
  | .find k => SeqHeap.find f s H k
  | .insert k d => SeqHeap.insert A f s H k d
  | .update k u => SeqHeap.update f s H k u
  | .insertOrUpdate k d u => SeqHeap.insertOrUpdate A f s H k d u
  | .erase k => SeqHeap.erase f s H k

/-- Execution of a sequence of calls, with what they report. (`seq_linear.hpp:309-538`) -/
def execAll (A : Alloc K V) (f : Nat) : Tab K → Heap K V → List (SeqTable.Op K V) →
    Res (Tab K × Heap K V × List Bool)
  | s, H, [] => .ok (s, H, [])
  | s, H, op :: ops =>
    match exec A f s H op with
    | .ok (s', H', b, _) =>
      match execAll A f s' H' ops with
      | .ok (s'', H'', l) => .ok (s'', H'', b :: l)
      | .bad => .bad
      | .nomem => .nomem
      | .timeout => .timeout
    | .bad => .bad
    | .nomem => .nomem
    | .timeout => .timeout

/-- A new table (`seq_linear.hpp:193-197`, `base_linear.hpp:396-411`), as `SeqTable.St.new`. -/
def Tab.new (cm cp : Bool) (h : K → Nat) (k : Nat) : Tab K :=
  ⟨⟨Mapper.mk' cm cp (2 ^ k) 0, h, false⟩, fun _ => 0, 0, 0⟩

/-- The destructor (`base_linear.hpp:440-450`): the heap afterwards, `none` for undefined behaviour. -/
def destroy (s : Tab K) (H : Heap K V) : Option (Heap K V) := cleanup s.t (List.range s.E.M.total) H

/-- Writing `v` through `it->second` (`seq_linear.hpp:99-109`), where the iterator points to slot `p`: the
address of the slot - not the pointer in it - is taken as the address of a pair.  For keys and values of
8 bytes the second component of that "pair" is the next slot.  `none` if that is behind the slots. -/
def assignSecond (T : Tab K) (p v : Nat) : Option (Tab K) :=
  if p + 1 < T.E.M.total then some { T with t := setW T.t (p + 1) v } else none

/-- `table[k] = v` (`seq_linear.hpp:230-233`) for values of 8 bytes. -/
def indexAssign (A : Alloc K Nat) (f : Nat) (T : Tab K) (H : Heap K Nat) (k : K) (v : Nat) :
    Res (Tab K × Heap K Nat) :=
  match insert A f T H k default with
  | .ok (T', H', _, p) =>
    match assignSecond T' p v with
    | some T'' => .ok (T'', H')
    | none => .bad
  | .bad => .bad
  | .nomem => .nomem
  | .timeout => .timeout

/-! ## Words -/

theorem ptrOf_mkWord (a hash : Nat) : ptrOf (mkWord a hash) = a := by
  unfold ptrOf mkWord; omega

theorem fpOf_mkWord (a hash : Nat) : fpOf (mkWord a hash) = hash % 2 ^ 16 := by
  unfold fpOf mkWord; omega

theorem mkWord_ne_zero {a : Nat} (ha : a ≠ 0) (hash : Nat) : mkWord a hash ≠ 0 := by
  unfold mkWord; omega

theorem ptrOf_zero : ptrOf 0 = 0 := rfl

/-! ## The relation to the abstract table -/

/-- The slot word `w` stands for the cell `x`. (proof, no code) -/
def Repr (h : K → Nat) (H : Heap K V) (w : Nat) (x : Cell K V) : Prop :=
  (w = 0 ∧ x = Cell.emptyCell) ∨
    ∃ a k v, a ≠ 0 ∧ w = mkWord a (h k) ∧ H a = some (k, v) ∧ x = Cell.liveCell k v

/-- The table with words and heap stands for the table `s`; the blocks of the slots are all different,
and the other allocated blocks are those in `X`. (proof, no code) -/
structure Own (T : Tab K) (H : Heap K V) (X : Nat → Prop) (s : SeqTable.St K V) : Prop where
  E : T.E = s.E
  n : T.n = s.n
  version : T.version = s.version
  cell : ∀ p, p < s.E.M.total → Repr s.E.h H (T.t p) (s.t p)
  apart : ∀ p, p < s.E.M.total → T.t p ≠ 0 → ¬ X (ptrOf (T.t p))
  inj : ∀ p q, p < s.E.M.total → q < s.E.M.total → T.t p ≠ 0 → T.t q ≠ 0 →
    ptrOf (T.t p) = ptrOf (T.t q) → p = q
  ext : ∀ a, X a → ∃ x, H a = some x
  all : ∀ a x, H a = some x → X a ∨ ∃ p, p < s.E.M.total ∧ T.t p ≠ 0 ∧ ptrOf (T.t p) = a

theorem Repr.cmp {h : K → Nat} {H : Heap K V} {w : Nat} {x : Cell K V} (hr : Repr h H w x) (k : K) :
    cmp H w k (h k) = some (x.hasKey k) := by
  rcases hr with ⟨rfl, rfl⟩ | ⟨a, k', v, ha, rfl, hH, rfl⟩
  · unfold SeqHeap.cmp; simp [ptrOf_zero, Cell.emptyCell, Cell.hasKey]
  · unfold SeqHeap.cmp
    simp only [fpOf_mkWord, ptrOf_mkWord, hH, ha, if_false, Cell.liveCell, Cell.hasKey]
    split
    · rename_i hne
      have : k' ≠ k := fun e => hne (by rw [e])
      simp [this]
    · rfl

theorem Repr.isEmpty {h : K → Nat} {H : Heap K V} {w : Nat} {x : Cell K V} (hr : Repr h H w x) :
    isEmpty w = x.isEmpty := by
  rcases hr with ⟨rfl, rfl⟩ | ⟨a, k', v, ha, rfl, hH, rfl⟩
  · rfl
  · have := mkWord_ne_zero ha (h k')
    simp [SeqHeap.isEmpty, this, Cell.isEmpty, Cell.liveCell]

theorem Repr.block {h : K → Nat} {H : Heap K V} {w : Nat} {x : Cell K V} (hr : Repr h H w x)
    (hw : w ≠ 0) : ∃ k v, H (ptrOf w) = some (k, v) ∧ x = Cell.liveCell k v ∧ ptrOf w ≠ 0 ∧
      w = mkWord (ptrOf w) (h k) := by
  rcases hr with ⟨rfl, rfl⟩ | ⟨a, k', v, ha, rfl, hH, rfl⟩
  · exact absurd rfl hw
  · exact ⟨k', v, by rw [ptrOf_mkWord]; exact hH, rfl, by rw [ptrOf_mkWord]; exact ha,
      by rw [ptrOf_mkWord]⟩

/-- Only the block of the slot matters. -/
theorem Repr.frame {h : K → Nat} {H H' : Heap K V} {w : Nat} {x : Cell K V} (hr : Repr h H w x)
    (hH : w ≠ 0 → H' (ptrOf w) = H (ptrOf w)) : Repr h H' w x := by
  rcases hr with ⟨rfl, rfl⟩ | ⟨a, k', v, ha, rfl, hk, rfl⟩
  · exact .inl ⟨rfl, rfl⟩
  · have := hH (mkWord_ne_zero ha _)
    rw [ptrOf_mkWord] at this
    exact .inr ⟨a, k', v, ha, rfl, by rw [this, hk], rfl⟩

theorem Repr.live {h : K → Nat} {H : Heap K V} {w : Nat} {x : Cell K V} (hr : Repr h H w x) {k : K}
    {v : V} (hx : x.c = .live k v) : w ≠ 0 ∧ H (ptrOf w) = some (k, v) := by
  rcases hr with ⟨rfl, rfl⟩ | ⟨a, k', v', ha, rfl, hk, rfl⟩
  · cases hx
  · cases hx
    exact ⟨mkWord_ne_zero ha _, by rw [ptrOf_mkWord]; exact hk⟩

theorem probe_sim {E : Env K} {t : Nat → Nat} {H : Heap K V} {s : Tbl K V}
    (hc : ∀ p, p < E.M.total → Repr E.h H (t p) (s p)) (k : K) {r : SeqTable.Probe} :
    ∀ f i, SeqTable.probe E s k f i = .ok r → probe E t H k (E.h k) f i = .ok r := by
  intro f
  induction f with
  | zero => intro i h; cases h
  | succ f ih =>
    intro i h
    simp only [SeqTable.probe] at h
    simp only [probe]
    by_cases hp : E.M.remap i < E.M.total
    · simp only [hp, if_true] at h ⊢
      rw [(hc _ hp).cmp k, (hc _ hp).isEmpty]
      cases hk : (s (E.M.remap i)).hasKey k with
      | true => simp only [hk, if_true] at h; cases h; rfl
      | false =>
        simp only [hk, Bool.false_eq_true, if_false] at h ⊢
        cases he : (s (E.M.remap i)).isEmpty with
        | true => simp only [he, if_true] at h; cases h; rfl
        | false => simp only [he, Bool.false_eq_true, if_false] at h ⊢; exact ih _ h
    · simp only [hp, if_false] at h; cases h

/-- Where the abstract probe loop ends. -/
theorem probe_at {E : Env K} {s : Tbl K V} {k : K} {r : SeqTable.Probe} :
    ∀ f i, SeqTable.probe E s k f i = .ok r →
      (∃ p, r = .found p ∧ p < E.M.total ∧ (s p).hasKey k = true) ∨
      ∃ p, r = .stop p ∧ p < E.M.total ∧ (s p).isEmpty = true := by
  intro f
  induction f with
  | zero => intro i h; cases h
  | succ f ih =>
    intro i h
    simp only [SeqTable.probe] at h
    by_cases hp : E.M.remap i < E.M.total
    · simp only [hp, if_true] at h
      cases hk : (s (E.M.remap i)).hasKey k with
      | true => simp only [hk, if_true] at h; cases h; exact .inl ⟨_, rfl, hp, hk⟩
      | false =>
        simp only [hk, Bool.false_eq_true, if_false] at h
        cases he : (s (E.M.remap i)).isEmpty with
        | true => simp only [he, if_true] at h; cases h; exact .inr ⟨_, rfl, hp, he⟩
        | false => simp only [he, Bool.false_eq_true, if_false] at h; exact ih _ h
    · simp only [hp, if_false] at h; cases h

/-- `slot_cleanup` frees exactly the blocks of the slots. -/
theorem cleanup_frees {t : Nat → Nat} : ∀ (ps : List Nat) (H : Heap K V), ps.Nodup →
    (∀ p ∈ ps, t p ≠ 0 → ptrOf (t p) ≠ 0 ∧ ∃ x, H (ptrOf (t p)) = some x) →
    (∀ p ∈ ps, ∀ q ∈ ps, t p ≠ 0 → t q ≠ 0 → ptrOf (t p) = ptrOf (t q) → p = q) →
    ∃ H', cleanup t ps H = some H' ∧ (∀ p ∈ ps, t p ≠ 0 → H' (ptrOf (t p)) = none) ∧
      ∀ a, (∀ p ∈ ps, t p ≠ 0 → ptrOf (t p) ≠ a) → H' a = H a := by
  intro ps
  induction ps with
  | nil => intro H _ _ _; exact ⟨H, rfl, by simp, fun _ _ => rfl⟩
  | cons p ps ih =>
    intro H hnd hal hin
    rw [List.nodup_cons] at hnd
    by_cases hz : t p = 0
    · obtain ⟨H', h1, h2, h3⟩ := ih H hnd.2 (fun q hq => hal q (by simp [hq]))
        (fun q hq r hr => hin q (by simp [hq]) r (by simp [hr]))
      refine ⟨H', ?_, ?_, ?_⟩
      · simp only [cleanup, free, hz, ptrOf_zero, if_true]; exact h1
      · intro q hq hq0
        rcases List.mem_cons.1 hq with rfl | hq
        · exact absurd hz hq0
        · exact h2 q hq hq0
      · intro a ha
        exact h3 a fun q hq => ha q (by simp [hq])
    · obtain ⟨hp0, x, hx⟩ := hal p (by simp) hz
      have hne : ∀ q ∈ ps, t q ≠ 0 → ptrOf (t q) ≠ ptrOf (t p) := by
        intro q hq hq0 he
        have := hin q (by simp [hq]) p (by simp) hq0 hz he
        subst this
        exact hnd.1 hq
      obtain ⟨H', h1, h2, h3⟩ := ih (H.set (ptrOf (t p)) none) hnd.2
        (fun q hq hq0 => by
          obtain ⟨g1, y, g2⟩ := hal q (by simp [hq]) hq0
          exact ⟨g1, y, by simp only [Heap.set, hne q hq hq0, if_false]; exact g2⟩)
        (fun q hq r hr => hin q (by simp [hq]) r (by simp [hr]))
      refine ⟨H', ?_, ?_, ?_⟩
      · simp only [cleanup, free, hp0, if_false, hx]; exact h1
      · intro q hq hq0
        rcases List.mem_cons.1 hq with rfl | hq
        · rw [h3 _ hne]; simp [Heap.set]
        · exact h2 q hq hq0
      · intro a ha
        rw [h3 a fun q hq => ha q (by simp [hq])]
        have : a ≠ ptrOf (t p) := fun e => ha p (by simp) hz e.symm
        simp [Heap.set, this]

/-- The destructor frees the blocks of the slots and nothing else, without undefined behaviour. -/
theorem Own.destroy {T : Tab K} {H : Heap K V} {X : Nat → Prop} {s : SeqTable.St K V}
    (h : Own T H X s) : ∃ H', SeqHeap.destroy T H = some H' ∧ (∀ a, ¬ X a → H' a = none) ∧
      ∀ a, X a → H' a = H a := by
  obtain ⟨H', h1, h2, h3⟩ := cleanup_frees (t := T.t) (List.range s.E.M.total) H List.nodup_range
    (fun p hp hz => by
      obtain ⟨k, v, g1, -, g2, -⟩ := (h.cell p (List.mem_range.1 hp)).block hz
      exact ⟨g2, _, g1⟩)
    (fun p hp q hq => h.inj p q (List.mem_range.1 hp) (List.mem_range.1 hq))
  refine ⟨H', by unfold SeqHeap.destroy; rw [h.E]; exact h1, ?_, ?_⟩
  · intro a ha
    by_cases hs : ∃ p, p < s.E.M.total ∧ T.t p ≠ 0 ∧ ptrOf (T.t p) = a
    · obtain ⟨p, hp, hz, rfl⟩ := hs
      exact h2 p (List.mem_range.2 hp) hz
    · rw [h3 a fun p hp hz he => hs ⟨p, List.mem_range.1 hp, hz, he⟩]
      cases hx : H a with
      | none => rfl
      | some x =>
        rcases h.all a x hx with g | g
        · exact absurd g ha
        · exact absurd g hs
  · intro a ha
    exact h3 a fun p hp hz he => h.apart p (List.mem_range.1 hp) hz (by rw [he]; exact ha)

/-- A word without block among the slots makes `slot_cleanup` undefined. -/
theorem cleanup_bad {t : Nat → Nat} {p : Nat} (hp : ptrOf (t p) ≠ 0) : ∀ (ps : List Nat) (H : Heap K V),
    p ∈ ps → H (ptrOf (t p)) = none → cleanup t ps H = none := by
  intro ps
  induction ps with
  | nil => intro H hm; cases hm
  | cons q ps ih =>
    intro H hm hH
    simp only [cleanup]
    rcases List.mem_cons.1 hm with rfl | hm
    · simp only [SeqHeap.free, hp, if_false, hH]
    · cases hq : SeqHeap.free H (t q) with
      | none => rfl
      | some H' =>
        refine ih H' hm ?_
        simp only [SeqHeap.free] at hq
        split at hq
        · cases hq; exact hH
        · split at hq
          · cases hq
            simp only [Heap.set]
            split
            · rfl
            · exact hH
          · cases hq

/-- What the code of an insertion has done, when the abstract insertion of the new block `q` went from
`s` to `s'` with the result `r`. (proof, no code) -/
structure Done (T : Tab K) (H : Heap K V) (X : Nat → Prop) (q : Nat) (k : K) (s' : SeqTable.St K V)
    (r : SRes V) (T' : Tab K) (H' : Heap K V) (b : Bool) (p : Nat) : Prop where
  flag : b = r.ok
  own : Own T' H' (fun a => X a ∨ (r.ok = false ∧ a = q)) s'
  frame : ∀ a, X a → H' a = H a
  lt : p < s'.E.M.total
  shown : (s'.t p).hasKey k = true ∧ (s'.t p).val? = r.shown
  hash : s'.E.h = T.E.h
  mono : T.version ≤ T'.version
  stay : T'.version = T.version → T'.E = T.E ∧ (∀ p, p < s'.E.M.total → T.t p ≠ 0 → T'.t p = T.t p) ∧
    (∀ a, H a = none → H' a = none) ∧ ∀ a k v, H a = some (k, v) → ∃ w, H' a = some (k, w)

/-- The code of an insertion function follows an abstract insertion function. (proof, no code) -/
def Follows (abs : SeqTable.St K V → K → V → SeqTable.Res (SeqTable.St K V × SRes V))
    (intern : Tab K → Heap K V → Nat → Nat → Res (Tab K × Heap K V × Bool × Nat)) : Prop :=
  ∀ (T : Tab K) (H : Heap K V) (X : Nat → Prop) (s : SeqTable.St K V) (q : Nat) (k : K) (d : V) s' r,
    Own T H (fun a => X a ∨ a = q) s → ¬ X q → q ≠ 0 → H q = some (k, d) → abs s k d = .ok (s', r) →
    intern T H (mkWord q (s.E.h k)) (s.E.h k) = .nomem ∨
      ∃ T' H' b p, intern T H (mkWord q (s.E.h k)) (s.E.h k) = .ok (T', H', b, p) ∧
        Done T H X q k s' r T' H' b p

theorem Own.congr {T : Tab K} {H : Heap K V} {X Y : Nat → Prop} {s : SeqTable.St K V}
    (h : Own T H X s) (he : ∀ a, X a ↔ Y a) : Own T H Y s := by
  have : X = Y := funext fun a => propext (he a)
  rw [← this]; exact h

/-- A block that is not of the table is allocated. -/
theorem Own.alloc {T : Tab K} {H : Heap K V} {X : Nat → Prop} {s : SeqTable.St K V} (h : Own T H X s)
    {a : Nat} (ha : H a = none) (x : K × V) : Own T (H.set a (some x)) (fun b => X b ∨ b = a) s := by
  refine ⟨h.E, h.n, h.version, ?_, ?_, h.inj, ?_, ?_⟩
  · intro p hp
    apply (h.cell p hp).frame
    intro hz
    obtain ⟨k, v, g, -⟩ := (h.cell p hp).block hz
    have : ptrOf (T.t p) ≠ a := fun e => by rw [e, ha] at g; cases g
    simp [Heap.set, this]
  · intro p hp hz
    obtain ⟨k, v, g, -⟩ := (h.cell p hp).block hz
    have : ptrOf (T.t p) ≠ a := fun e => by rw [e, ha] at g; cases g
    rintro (hx | hx)
    · exact h.apart p hp hz hx
    · exact this hx
  · rintro b (hb | rfl)
    · by_cases hba : b = a
      · subst hba; exact ⟨x, by simp [Heap.set]⟩
      · simp only [Heap.set, hba, if_false]; exact h.ext b hb
    · exact ⟨x, by simp [Heap.set]⟩
  · intro b y hb
    by_cases hba : b = a
    · exact .inl (.inr hba)
    · simp only [Heap.set, hba, if_false] at hb
      rcases h.all b y hb with g | g
      · exact .inl (.inl g)
      · exact .inr g

/-- A block that is not of the table is released. -/
theorem Own.free {T : Tab K} {H : Heap K V} {X : Nat → Prop} {s : SeqTable.St K V} {q : Nat}
    (h : Own T H (fun a => X a ∨ a = q) s) (hX : ¬ X q) : Own T (H.set q none) X s := by
  refine ⟨h.E, h.n, h.version, ?_, fun p hp hz hx => h.apart p hp hz (.inl hx), h.inj, ?_, ?_⟩
  · intro p hp
    apply (h.cell p hp).frame
    intro hz
    have : ptrOf (T.t p) ≠ q := fun e => h.apart p hp hz (.inr e)
    simp [Heap.set, this]
  · intro a ha
    have : a ≠ q := fun e => hX (e ▸ ha)
    simp only [Heap.set, this, if_false]
    exact h.ext a (.inl ha)
  · intro a x ha
    by_cases haq : a = q
    · subst haq; simp [Heap.set] at ha
    · simp only [Heap.set, haq, if_false] at ha
      rcases h.all a x ha with (g | g) | g
      · exact .inl g
      · exact absurd g haq
      · exact .inr g

/-- `insert` around an insertion function. -/
theorem insertWith_sim {A : Alloc K V} (hA : A.OK)
    {abs : SeqTable.St K V → K → V → SeqTable.Res (SeqTable.St K V × SRes V)}
    {intern : Tab K → Heap K V → Nat → Nat → Res (Tab K × Heap K V × Bool × Nat)}
    (hf : Follows abs intern) {T : Tab K} {H : Heap K V} {X : Nat → Prop} {s : SeqTable.St K V} {k : K}
    {d : V} {s' : SeqTable.St K V} {r : SRes V} (h : Own T H X s) (hr : abs s k d = .ok (s', r)) :
    insertWith A intern T H k d = .nomem ∨
      ∃ T' H' p, insertWith A intern T H k d = .ok (T', H', r.ok, p) ∧ Own T' H' X s' ∧
        (∀ a, X a → H' a = H a) ∧ p < s'.E.M.total ∧ (s'.t p).hasKey k = true ∧
        (s'.t p).val? = r.shown ∧ s'.E.h = T.E.h ∧ T.version ≤ T'.version ∧
        (T'.version = T.version → T'.E = T.E ∧ (∀ p, p < s'.E.M.total → T.t p ≠ 0 → T'.t p = T.t p) ∧
          ∀ a k v, H a = some (k, v) → ∃ w, H' a = some (k, w)) := by
  cases hAH : A H with
  | none => exact .inl (by simp only [insertWith, hAH])
  | some a =>
    obtain ⟨ha0, -, haN⟩ := hA H a hAH
    have hXa : ¬ X a := fun hx => by obtain ⟨y, hy⟩ := h.ext a hx; rw [haN] at hy; cases hy
    have hE : s.E.h k = T.E.h k := by rw [h.E]
    have := hf T (H.set a (some (k, d))) X s a k d s' r (h.alloc haN (k, d)) hXa ha0
      (by simp [Heap.set]) hr
    rw [hE] at this
    rcases this with hn | ⟨T', H', b, p, h1, h2⟩
    · exact .inl (by simp only [insertWith, hAH, hn])
    · have hfr : ∀ c, X c → H' c = H c := by
        intro c hc
        have : c ≠ a := fun e => hXa (e ▸ hc)
        rw [h2.frame c hc]; simp [Heap.set, this]
      have hkeys : T'.version = T.version → ∀ c k v, H c = some (k, v) → ∃ w, H' c = some (k, w) := by
        intro hv c k' v' hc
        have : c ≠ a := fun e => by rw [e, haN] at hc; cases hc
        exact (h2.stay hv).2.2.2 c k' v' (by simp only [Heap.set, this, if_false]; exact hc)
      cases hb : r.ok with
      | true =>
        have hown := h2.own.congr (Y := X) (by simp [hb])
        have hbt : b = true := h2.flag.trans hb
        subst hbt
        exact .inr ⟨T', H', p, by simp only [insertWith, hAH, h1], hown, hfr, h2.lt, h2.shown.1,
          h2.shown.2, h2.hash, h2.mono, fun hv => ⟨(h2.stay hv).1, (h2.stay hv).2.1, hkeys hv⟩⟩
      | false =>
        have hown := h2.own.congr (Y := fun c => X c ∨ c = a) (by simp [hb])
        obtain ⟨y, hy⟩ := hown.ext a (.inr rfl)
        have hbt : b = false := h2.flag.trans hb
        subst hbt
        refine .inr ⟨T', H'.set a none, p, ?_, hown.free hXa, ?_, h2.lt, h2.shown.1, h2.shown.2,
          h2.hash, h2.mono, fun hv => ⟨(h2.stay hv).1, (h2.stay hv).2.1, ?_⟩⟩
        · simp only [insertWith, hAH, h1, SeqHeap.free, ptrOf_mkWord, ha0, if_false, hy]
        · intro c hc
          have : c ≠ a := fun e => hXa (e ▸ hc)
          simp only [Heap.set, this, if_false]
          exact hfr c hc
        · intro c k' v' hc
          have : c ≠ a := fun e => by rw [e, haN] at hc; cases hc
          simp only [Heap.set, this, if_false]
          exact hkeys hv c k' v' hc

/-- The loop of `migrate`. -/
theorem migLoop_sim {A : Alloc K V} (hA : A.OK)
    {abs : SeqTable.St K V → K → V → SeqTable.Res (SeqTable.St K V × SRes V)}
    {intern : Tab K → Heap K V → Nat → Nat → Res (Tab K × Heap K V × Bool × Nat)}
    (hf : Follows abs intern) {h0 : K → Nat} {t : Nat → Nat} {src : Tbl K V} {X : Nat → Prop} :
    ∀ (ps : List Nat) (T : Tab K) (H : Heap K V) (s s' : SeqTable.St K V), Own T H X s →
    (∀ p ∈ ps, Repr h0 H (t p) (src p)) → (∀ p ∈ ps, t p ≠ 0 → X (ptrOf (t p))) →
    SeqTable.migLoop abs src ps s = .ok s' →
    migLoop (insertWith A intern) t ps T H = .nomem ∨
      ∃ T' H', migLoop (insertWith A intern) t ps T H = .ok (T', H') ∧ Own T' H' X s' ∧
        (∀ a, X a → H' a = H a) ∧ s'.E.h = T.E.h ∧ T.version ≤ T'.version := by
  intro ps
  induction ps with
  | nil =>
    intro T H s s' h _ _ hm
    cases hm
    exact .inr ⟨T, H, rfl, h, fun _ _ => rfl, by rw [h.E], Nat.le_refl _⟩
  | cons p ps ih =>
    intro T H s s' h hre hX hm
    simp only [migLoop]
    by_cases hz : t p = 0
    · have hsrc : (src p) = Cell.emptyCell := by
        rcases hre p (by simp) with ⟨-, g⟩ | ⟨a, k, v, ha, g, -⟩
        · exact g
        · exact absurd hz (by rw [g]; exact mkWord_ne_zero ha _)
      simp only [SeqTable.migLoop, hsrc, Cell.emptyCell] at hm
      simp only [isEmpty, hz, beq_self_eq_true, if_true]
      exact ih T H s s' h (fun q hq => hre q (by simp [hq])) (fun q hq => hX q (by simp [hq])) hm
    · obtain ⟨k, v, hblk, hsrc, -, -⟩ := (hre p (by simp)).block hz
      have hemp : isEmpty (t p) = false := by simp [isEmpty, hz]
      simp only [hemp, Bool.false_eq_true, if_false, hblk]
      simp only [SeqTable.migLoop, hsrc, Cell.liveCell] at hm
      cases hab : abs s k v with
      | oob => simp only [hab] at hm; cases hm
      | timeout => simp only [hab] at hm; cases hm
      | ok r =>
        obtain ⟨s1, r⟩ := r
        simp only [hab] at hm
        rcases insertWith_sim hA hf h hab with hn | ⟨T1, H1, p1, e1, e2, e3, -, -, -, e7, e8, -⟩
        · exact .inl (by simp only [hn])
        · simp only [e1]
          rcases ih T1 H1 s1 s' e2
              (fun q hq => (hre q (by simp [hq])).frame fun hq0 => e3 _ (hX q (by simp [hq]) hq0))
              (fun q hq => hX q (by simp [hq])) hm with hn | ⟨T', H', g1, g2, g3, g4, g5⟩
          · exact .inl hn
          · refine .inr ⟨T', H', g1, g2, fun a ha => (g3 a ha).trans (e3 a ha), ?_, Nat.le_trans e8 g5⟩
            rw [g4, e2.E, e7]

/-- `grow`: the new table holds the elements in new blocks, the old blocks are released. -/
theorem grow_sim {A : Alloc K V} (hA : A.OK)
    {abs : SeqTable.St K V → K → V → SeqTable.Res (SeqTable.St K V × SRes V)}
    {intern : Tab K → Heap K V → Nat → Nat → Res (Tab K × Heap K V × Bool × Nat)}
    (hf : Follows abs intern) {T : Tab K} {H : Heap K V} {X : Nat → Prop} {s tgt : SeqTable.St K V}
    {n : Nat} (h : Own T H X s)
    (hm : SeqTable.migLoop abs s.t (List.range s.E.M.total) (SeqTable.growTarget s n) = .ok tgt) :
    grow (insertWith A intern) T H n = .nomem ∨
      ∃ T' H', grow (insertWith A intern) T H n = .ok (T', H') ∧ Own T' H' X { tgt with n := n } ∧
        (∀ a, X a → H' a = H a) ∧ tgt.E.h = T.E.h ∧ T.version < T'.version ∧
        ∀ p, p < s.E.M.total → T.t p ≠ 0 → H' (ptrOf (T.t p)) = none := by
  have hE := h.E
  have htgt : Own (growTarget T n) H (fun a => ∃ x, H a = some x) (SeqTable.growTarget s n) := by
    refine ⟨by simp only [growTarget, SeqTable.growTarget, hE], rfl, ?_, ?_, ?_, ?_, fun a ha => ha, ?_⟩
    · simp only [growTarget, SeqTable.growTarget, h.version]
    · intro p _; exact .inl ⟨rfl, rfl⟩
    · intro p _ hz; exact absurd rfl hz
    · intro p q _ _ hz; exact absurd rfl hz
    · intro a x hx; exact .inl ⟨x, hx⟩
  rcases migLoop_sim hA hf (t := T.t) (List.range s.E.M.total) _ H _ tgt htgt
      (fun p hp => h.cell p (List.mem_range.1 hp))
      (fun p hp hz => by
        obtain ⟨k, v, g, -⟩ := (h.cell p (List.mem_range.1 hp)).block hz
        exact ⟨_, g⟩) hm with hn | ⟨T1, H1, e1, e2, e3, e4, e5⟩
  · exact .inl (by simp only [grow, hE, hn])
  · obtain ⟨H2, f1, f2, f3⟩ := cleanup_frees (t := T.t) (List.range s.E.M.total) H1 List.nodup_range
      (fun p hp hz => by
        obtain ⟨k, v, g1, -, g2, -⟩ := (h.cell p (List.mem_range.1 hp)).block hz
        exact ⟨g2, _, by rw [e3 _ ⟨_, g1⟩]; exact g1⟩)
      (fun p hp q hq => h.inj p q (List.mem_range.1 hp) (List.mem_range.1 hq))
    have hold : ∀ p ∈ List.range s.E.M.total, T.t p ≠ 0 → ∃ x, H (ptrOf (T.t p)) = some x := by
      intro p hp hz
      obtain ⟨k, v, g1, -⟩ := (h.cell p (List.mem_range.1 hp)).block hz
      exact ⟨_, g1⟩
    have hkeep : ∀ p, p < tgt.E.M.total → T1.t p ≠ 0 → H2 (ptrOf (T1.t p)) = H1 (ptrOf (T1.t p)) := by
      intro p hp hz
      apply f3
      intro q hq hq0 he
      have := e2.apart p hp hz
      rw [← he] at this
      exact this (hold q hq hq0)
    refine .inr ⟨{ T1 with n := n }, H2, ?_, ⟨e2.E, rfl, e2.version, ?_, ?_, e2.inj, ?_, ?_⟩, ?_, e4, e5, ?_⟩
    · simp only [grow, hE, e1, f1]
    · intro p hp
      exact (e2.cell p hp).frame fun hz => hkeep p hp hz
    · intro p hp hz hx
      exact e2.apart p hp hz (h.ext _ hx)
    · intro a ha
      obtain ⟨x, hx⟩ := h.ext a ha
      refine ⟨x, ?_⟩
      rw [f3 a fun p hp hz he => h.apart p (List.mem_range.1 hp) hz (by rw [he]; exact ha), e3 a ⟨x, hx⟩, hx]
    · intro a x ha
      by_cases hs : ∃ p ∈ List.range s.E.M.total, T.t p ≠ 0 ∧ ptrOf (T.t p) = a
      · obtain ⟨p, hp, hz, rfl⟩ := hs
        rw [f2 p hp hz] at ha; cases ha
      · rw [f3 a fun p hp hz he => hs ⟨p, hp, hz, he⟩] at ha
        rcases e2.all a x ha with ⟨y, hy⟩ | g
        · rcases h.all a y hy with g | ⟨p, hp, hz, he⟩
          · exact .inl g
          · exact absurd ⟨p, List.mem_range.2 hp, hz, he⟩ hs
        · exact .inr g
    · intro a ha
      obtain ⟨x, hx⟩ := h.ext a ha
      rw [f3 a fun p hp hz he => h.apart p (List.mem_range.1 hp) hz (by rw [he]; exact ha), e3 a ⟨x, hx⟩]
    · intro p hp hz
      exact f2 p (List.mem_range.2 hp) hz

/-- The new block is put into the empty slot `p`. -/
theorem Own.put {T : Tab K} {H : Heap K V} {X : Nat → Prop} {s : SeqTable.St K V} {q p : Nat} {k : K}
    {d : V} (h : Own T H (fun a => X a ∨ a = q) s) (hX : ¬ X q) (hq : q ≠ 0) (hH : H q = some (k, d))
    (hp : p < s.E.M.total) (he : (s.t p).isEmpty = true) :
    Own { T with t := setW T.t p (mkWord q (s.E.h k)), n := T.n + 1 } H X
      { s with t := s.t.set p (Cell.liveCell k d), n := s.n + 1 } := by
  have hz : T.t p = 0 := by
    have := (h.cell p hp).isEmpty
    rw [he] at this
    simpa [isEmpty] using this
  refine ⟨h.E, by rw [← h.n], h.version, ?_, ?_, ?_, fun a ha => h.ext a (.inl ha), ?_⟩
  · intro i hi
    by_cases hip : i = p
    · subst hip
      exact .inr ⟨q, k, d, hq, by simp [setW], hH, by simp [Tbl.set]⟩
    · simp only [setW, Tbl.set, hip, if_false]; exact h.cell i hi
  · intro i hi
    by_cases hip : i = p
    · subst hip; simp only [setW, if_true, ptrOf_mkWord]; intro _; exact hX
    · simp only [setW, hip, if_false]; intro hi0 hx; exact h.apart i hi hi0 (.inl hx)
  · intro i j hi hj
    by_cases hip : i = p
    · subst hip
      by_cases hjp : j = i
      · subst hjp; intros; rfl
      · simp only [setW, hjp, if_true, if_false, ptrOf_mkWord]
        intro _ hj0 he'
        exact absurd (.inr he'.symm) (h.apart j hj hj0)
    · by_cases hjp : j = p
      · subst hjp
        simp only [setW, hip, if_true, if_false, ptrOf_mkWord]
        intro hi0 _ he'
        exact absurd (.inr he') (h.apart i hi hi0)
      · simp only [setW, hip, hjp, if_false]; exact h.inj i j hi hj
  · intro a x ha
    rcases h.all a x ha with (g | rfl) | ⟨i, hi, hi0, hia⟩
    · exact .inl g
    · exact .inr ⟨p, hp, by simp [setW, mkWord_ne_zero hq], by simp [setW, ptrOf_mkWord]⟩
    · have hip : i ≠ p := fun e => hi0 (e ▸ hz)
      exact .inr ⟨i, hi, by simp [setW, hip, hi0], by simp [setW, hip, hia]⟩

/-- The value in the block of the slot `p` is changed. -/
theorem Own.write {T : Tab K} {H : Heap K V} {X : Nat → Prop} {s : SeqTable.St K V} {p : Nat} {k : K}
    {v : V} (h : Own T H X s) (hp : p < s.E.M.total) (hv : (s.t p).c = .live k v) (w : V) :
    Own T (H.set (ptrOf (T.t p)) (some (k, w))) X { s with t := s.t.set p (Cell.liveCell k w) } := by
  obtain ⟨hz, hb⟩ := (h.cell p hp).live hv
  obtain ⟨k', v', g1, g2, g3, g4⟩ := (h.cell p hp).block hz
  rw [hb] at g1; cases g1
  refine ⟨h.E, h.n, h.version, ?_, h.apart, h.inj, ?_, ?_⟩
  · intro i hi
    by_cases hip : i = p
    · subst hip
      exact .inr ⟨ptrOf (T.t i), k, w, g3, g4, by simp [Heap.set], by simp [Tbl.set]⟩
    · simp only [Tbl.set, hip, if_false]
      apply (h.cell i hi).frame
      intro hi0
      have : ptrOf (T.t i) ≠ ptrOf (T.t p) := fun e => hip (h.inj i p hi hp hi0 hz e)
      simp [Heap.set, this]
  · intro a ha
    have : a ≠ ptrOf (T.t p) := fun e => h.apart p hp hz (e ▸ ha)
    simp only [Heap.set, this, if_false]; exact h.ext a ha
  · intro a x ha
    by_cases hap : a = ptrOf (T.t p)
    · exact .inr ⟨p, hp, hz, hap.symm⟩
    · simp only [Heap.set, hap, if_false] at ha; exact h.all a x ha

/-- `insert_intern` follows the abstract table. -/
theorem insertIntern_sim {A : Alloc K V} (hA : A.OK) :
    ∀ f, Follows (SeqTable.insert f) (insertIntern A f) := by
  intro f
  induction f with
  | zero => intro T H X s q k d s' r _ _ _ _ hr; cases hr
  | succ f ih =>
    intro T H X s q k d s' r h hX hq hH hr
    obtain ⟨TE, Tt, Tn, Tv⟩ := T
    obtain rfl : TE = s.E := h.E
    simp only [SeqTable.insert] at hr
    cases hpr : SeqTable.probe s.E s.t k (f + 1) (s.E.M.map (s.E.h k)) with
    | oob => simp only [hpr] at hr; cases hr
    | timeout => simp only [hpr] at hr; cases hr
    | ok o =>
      have hn0 : Tn = s.n := h.n
      have hpw := probe_sim (t := Tt) (H := H) h.cell k (f + 1) _ hpr
      simp only [insertIntern, ptrOf_mkWord, hH, hpw]
      rcases probe_at _ _ hpr with ⟨p, rfl, hp, hk⟩ | ⟨p, rfl, hp, he⟩
      · simp only [hpr] at hr; cases hr
        exact .inr ⟨_, H, false, p, rfl, rfl, h.congr (by simp), fun _ _ => rfl, hp, ⟨hk, rfl⟩,
          rfl, Nat.le_refl _, fun _ => ⟨rfl, fun _ _ _ => rfl, fun _ ha => ha, fun _ _ v ha => ⟨v, ha⟩⟩⟩
      · simp only [hpr] at hr
        by_cases hbig : s.n + 1 > SeqTable.thresh s.E
        · simp only [hbig, if_true] at hr
          have hbig' : Tn + 1 > SeqTable.thresh s.E := by rw [hn0]; exact hbig
          simp only [hbig', if_true]
          cases hml : SeqTable.migLoop (SeqTable.insert f) s.t (List.range s.E.M.total)
              (SeqTable.growTarget s (s.n + 1)) with
          | oob => simp only [hml] at hr; cases hr
          | timeout => simp only [hml] at hr; cases hr
          | ok tgt =>
            simp only [hml] at hr
            have hn1 : Tn + 1 = s.n + 1 := by rw [hn0]
            rw [hn1]
            rcases grow_sim hA ih h hml with hn | ⟨T1, H1, e1, e2, e3, e4, e5, -⟩
            · exact .inl (by simp only [hn])
            · simp only [e1]
              have e2' : Own { T1 with n := T1.n - 1 } H1 (fun a => X a ∨ a = q)
                  { tgt with n := s.n + 1 - 1 } :=
                ⟨e2.E, by show T1.n - 1 = _; rw [e2.n], e2.version, e2.cell, e2.apart, e2.inj, e2.ext,
                  e2.all⟩
              have hh : tgt.E.h k = s.E.h k := by rw [e4]
              have := ih { T1 with n := T1.n - 1 } H1 X { tgt with n := s.n + 1 - 1 } q k d s' r e2' hX hq
                (by rw [e3 q (.inr rfl)]; exact hH) hr
              simp only [hh] at this
              rcases this with hn | ⟨T', H', b, p', g1, g2⟩
              · exact .inl hn
              · have hver : Tv < T'.version := by
                  have hmono := g2.mono
                  exact Nat.lt_of_lt_of_le e5 hmono
                refine .inr ⟨T', H', b, p', g1, g2.flag, g2.own, ?_, g2.lt, g2.shown, ?_, ?_, ?_⟩
                · intro a ha
                  rw [g2.frame a ha, e3 a (.inl ha)]
                · rw [g2.hash]; show T1.E.h = _; rw [e2.E]; exact e4
                · exact Nat.le_of_lt hver
                · intro hv; exact absurd hv (Nat.ne_of_gt hver)
        · simp only [hbig, if_false] at hr; cases hr
          have hbig' : ¬ Tn + 1 > SeqTable.thresh s.E := by rw [hn0]; exact hbig
          simp only [hbig', if_false]
          have hz : Tt p = 0 := by
            have := (h.cell p hp).isEmpty
            rw [he] at this
            simpa [isEmpty] using this
          refine .inr ⟨_, H, true, p, rfl, rfl, (h.put hX hq hH hp he).congr (by simp), fun _ _ => rfl, hp,
            ?_, rfl, Nat.le_refl _, fun _ => ⟨rfl, ?_, fun _ ha => ha, fun _ _ v ha => ⟨v, ha⟩⟩⟩
          · simp [Tbl.set, Cell.liveCell, Cell.hasKey, Cell.val?]
          · intro i _ hi
            have : i ≠ p := fun e => hi (e ▸ hz)
            simp [setW, this]

/-- `insert_or_update_intern` follows the abstract table. -/
theorem insertOrUpdateIntern_sim {A : Alloc K V} (hA : A.OK) (u : UpdFn V) :
    ∀ f, Follows (fun s k d => SeqTable.insertOrUpdate f s k d u) (insertOrUpdateIntern A u f) := by
  intro f
  induction f with
  | zero => intro T H X s q k d s' r _ _ _ _ hr; cases hr
  | succ f ih =>
    intro T H X s q k d s' r h hX hq hH hr
    obtain ⟨TE, Tt, Tn, Tv⟩ := T
    obtain rfl : TE = s.E := h.E
    simp only [SeqTable.insertOrUpdate] at hr
    cases hpr : SeqTable.probe s.E s.t k (f + 1) (s.E.M.map (s.E.h k)) with
    | oob => simp only [hpr] at hr; cases hr
    | timeout => simp only [hpr] at hr; cases hr
    | ok o =>
      have hn0 : Tn = s.n := h.n
      have hpw := probe_sim (t := Tt) (H := H) h.cell k (f + 1) _ hpr
      simp only [insertOrUpdateIntern, ptrOf_mkWord, hH, hpw]
      rcases probe_at _ _ hpr with ⟨p, rfl, hp, hk⟩ | ⟨p, rfl, hp, he⟩
      · simp only [hpr] at hr; cases hr
        obtain ⟨v, hv⟩ := Cell.hasKey_iff.1 hk
        obtain ⟨hz, hb⟩ := (h.cell p hp).live hv
        simp only at hb
        have hcell : s.t p = Cell.liveCell k v := by
          obtain ⟨k', v', -, g, -⟩ := (h.cell p hp).block hz
          rw [g] at hv ⊢; cases hv; rfl
        have hupd : (nonAtomicUpdate k (s.t p) u).1 = Cell.liveCell k (u.upd v) := by
          rw [hcell]; rfl
        simp only [hb]
        have hw := h.write hp hv (u.upd v)
        refine .inr ⟨_, _, false, p, rfl, rfl, ?_, ?_, hp, ⟨?_, rfl⟩, rfl, Nat.le_refl _,
          fun _ => ⟨rfl, fun _ _ _ => rfl, ?_, ?_⟩⟩
        · rw [hupd]; exact hw.congr (by simp)
        · intro a ha
          have : a ≠ ptrOf (Tt p) := fun e => h.apart p hp hz (.inl (e ▸ ha))
          simp [Heap.set, this]
        · rw [hupd]; simp [Tbl.set, Cell.liveCell, Cell.hasKey]
        · intro a ha
          have : a ≠ ptrOf (Tt p) := fun e => by rw [e, hb] at ha; cases ha
          simp [Heap.set, this, ha]
        · intro a k' v' ha
          by_cases hap : a = ptrOf (Tt p)
          · rw [hap, hb] at ha; cases ha
            exact ⟨u.upd v, by simp [Heap.set, hap]⟩
          · exact ⟨v', by simp only [Heap.set, hap, if_false]; exact ha⟩
      · simp only [hpr] at hr
        by_cases hbig : s.n + 1 > SeqTable.thresh s.E
        · simp only [hbig, if_true] at hr
          have hbig' : Tn + 1 > SeqTable.thresh s.E := by rw [hn0]; exact hbig
          simp only [hbig', if_true]
          cases hml : SeqTable.migLoop (SeqTable.insert f) s.t (List.range s.E.M.total)
              (SeqTable.growTarget s (s.n + 1)) with
          | oob => simp only [hml] at hr; cases hr
          | timeout => simp only [hml] at hr; cases hr
          | ok tgt =>
            simp only [hml] at hr
            have hn1 : Tn + 1 = s.n + 1 := by rw [hn0]
            rw [hn1]
            rcases grow_sim hA (insertIntern_sim hA f) h hml with hn | ⟨T1, H1, e1, e2, e3, e4, e5, -⟩
            · exact .inl (by simp only [hn])
            · simp only [e1]
              have e2' : Own { T1 with n := T1.n - 1 } H1 (fun a => X a ∨ a = q)
                  { tgt with n := s.n + 1 - 1 } :=
                ⟨e2.E, by show T1.n - 1 = _; rw [e2.n], e2.version, e2.cell, e2.apart, e2.inj, e2.ext,
                  e2.all⟩
              have hh : tgt.E.h k = s.E.h k := by rw [e4]
              have := ih { T1 with n := T1.n - 1 } H1 X { tgt with n := s.n + 1 - 1 } q k d s' r e2' hX hq
                (by rw [e3 q (.inr rfl)]; exact hH) hr
              simp only [hh] at this
              rcases this with hn | ⟨T', H', b, p', g1, g2⟩
              · exact .inl hn
              · have hver : Tv < T'.version := by
                  have hmono := g2.mono
                  exact Nat.lt_of_lt_of_le e5 hmono
                refine .inr ⟨T', H', b, p', g1, g2.flag, g2.own, ?_, g2.lt, g2.shown, ?_, ?_, ?_⟩
                · intro a ha
                  rw [g2.frame a ha, e3 a (.inl ha)]
                · rw [g2.hash]; show T1.E.h = _; rw [e2.E]; exact e4
                · exact Nat.le_of_lt hver
                · intro hv; exact absurd hv (Nat.ne_of_gt hver)
        · simp only [hbig, if_false] at hr; cases hr
          have hbig' : ¬ Tn + 1 > SeqTable.thresh s.E := by rw [hn0]; exact hbig
          simp only [hbig', if_false]
          have hz : Tt p = 0 := by
            have := (h.cell p hp).isEmpty
            rw [he] at this
            simpa [isEmpty] using this
          refine .inr ⟨_, H, true, p, rfl, rfl, (h.put hX hq hH hp he).congr (by simp), fun _ _ => rfl, hp,
            ?_, rfl, Nat.le_refl _, fun _ => ⟨rfl, ?_, fun _ ha => ha, fun _ _ v ha => ⟨v, ha⟩⟩⟩
          · simp [Tbl.set, Cell.liveCell, Cell.hasKey, Cell.val?]
          · intro i _ hi
            have : i ≠ p := fun e => hi (e ▸ hz)
            simp [setW, this]

/-- The second loop of `erase` follows the abstract table: words are moved, nothing is allocated or
released. `a0` is the block whose word has been overwritten. -/
theorem eraseLoop_sim {E : Env K} {H : Heap K V} {X : Nat → Prop} {n ver : Nat} : ∀ f (t : Nat → Nat)
    (s : Tbl K V) (i j : Nat) (s' : Tbl K V), Own ⟨E, t, n, ver⟩ H X ⟨E, s, n, ver⟩ → i < E.M.total →
    t i = 0 → SeqTable.eraseLoop E f s i j = .ok s' →
    ∃ t', eraseLoop E H f t i j = .ok t' ∧ Own ⟨E, t', n, ver⟩ H X ⟨E, s', n, ver⟩ := by
  intro f
  induction f with
  | zero => intro t s i j s' _ _ _ hs; cases hs
  | succ f ih =>
    intro t s i j s' h hi hti hs
    simp only [SeqTable.eraseLoop] at hs
    simp only [eraseLoop]
    by_cases hp : E.M.remap j < E.M.total
    · simp only [hp, if_true] at hs ⊢
      have hc := h.cell _ hp
      simp only at hc
      by_cases hz : t (E.M.remap j) = 0
      · have he : (s (E.M.remap j)).c = .empty := by
          have := hc.isEmpty
          rw [hz] at this
          exact Cell.isEmpty_iff.1 this.symm
        simp only [he] at hs; cases hs
        exact ⟨t, by simp [isEmpty, hz], h⟩
      · obtain ⟨k, v, g1, g2, g3, g4⟩ := hc.block hz
        have hemp : isEmpty (t (E.M.remap j)) = false := by simp [isEmpty, hz]
        have hlive : (s (E.M.remap j)).c = .live k v := by rw [g2]; rfl
        simp only [hemp, Bool.false_eq_true, if_false, g1]
        simp only [hlive] at hs
        have hij : i ≠ E.M.remap j := fun e => hz (e ▸ hti)
        by_cases hle : E.h k ≤ i
        · simp only [hle, if_true] at hs ⊢
          refine ih _ _ _ _ _ ?_ hp (by simp [setW]) hs
          have val : ∀ a, setW (setW t i (t (E.M.remap j))) (E.M.remap j) 0 a =
              if a = E.M.remap j then 0 else if a = i then t (E.M.remap j) else t a := fun a => rfl
          refine ⟨rfl, rfl, rfl, ?_, ?_, ?_, h.ext, ?_⟩
          · intro a ha
            simp only [val, Tbl.set]
            by_cases h1 : a = E.M.remap j
            · simp only [h1, if_true]; exact .inl ⟨rfl, rfl⟩
            · simp only [h1, if_false]
              by_cases h2 : a = i
              · simp only [h2, if_true]; exact hc
              · simp only [h2, if_false]; exact h.cell a ha
          · intro a ha
            simp only [val]
            by_cases h1 : a = E.M.remap j
            · simp [h1]
            · simp only [h1, if_false]
              by_cases h2 : a = i
              · simp only [h2, if_true]; exact h.apart _ hp
              · simp only [h2, if_false]; exact h.apart a ha
          · intro a b ha hb
            simp only [val]
            by_cases h1 : a = E.M.remap j
            · simp [h1]
            by_cases h1' : b = E.M.remap j
            · simp [h1']
            simp only [h1, h1', if_false]
            by_cases h2 : a = i
            · by_cases h2' : b = i
              · intros; rw [h2, h2']
              · simp only [h2, h2', if_true, if_false]
                intro x y e
                exact absurd (h.inj _ _ hp hb x y e).symm h1'
            · by_cases h2' : b = i
              · simp only [h2, h2', if_true, if_false]
                intro x y e
                exact absurd (h.inj _ _ ha hp x y e) h1
              · simp only [h2, h2', if_false]; exact h.inj a b ha hb
          · intro a x hx
            rcases h.all a x hx with g | ⟨p, hp', hp0, he⟩
            · exact .inl g
            · by_cases h1 : p = E.M.remap j
              · refine .inr ⟨i, hi, ?_, ?_⟩
                · simp only [val, hij, if_true, if_false]; exact hz
                · simp only [val, hij, if_true, if_false]; rw [← h1]; exact he
              · have h2 : p ≠ i := fun e => hp0 (by rw [e]; exact hti)
                exact .inr ⟨p, hp', by simpa only [val, h1, h2, if_false] using hp0,
                  by simpa only [val, h1, h2, if_false] using he⟩
        · simp only [hle, if_false] at hs ⊢
          exact ih _ _ _ _ _ h hi hti hs
    · simp only [hp, if_false] at hs; cases hs

theorem eraseLoop_not_nomem {E : Env K} {H : Heap K V} : ∀ f (t : Nat → Nat) i j,
    eraseLoop E H f t i j ≠ .nomem := by
  intro f
  induction f with
  | zero => intro t i j h; cases h
  | succ f ih =>
    intro t i j h
    simp only [eraseLoop] at h
    split at h
    · split at h
      · cases h
      · split at h
        · cases h
        · split at h
          · exact ih _ _ _ h
          · exact ih _ _ _ h
    · cases h

/-- What remains allocated outside of the slots after a call: the block of an erased element.
(specification, no code) -/
def left (op : SeqTable.Op K V) (b : Bool) (T : Tab K) (p : Nat) (X : Nat → Prop) : Nat → Prop :=
  fun a => X a ∨ (b = true ∧ (match op with | .erase _ => true | _ => false) = true ∧ a = ptrOf (T.t p))

/-- Every call follows the abstract table. -/
theorem exec_sim {A : Alloc K V} (hA : A.OK) {T : Tab K} {H : Heap K V} {X : Nat → Prop}
    {s : SeqTable.St K V} (h : Own T H X s) (f : Nat) (op : SeqTable.Op K V) {s' : SeqTable.St K V}
    {r : SRes V} (hr : SeqTable.exec f s op = .ok (s', r)) :
    exec A f T H op = .nomem ∨
      ∃ T' H' p, exec A f T H op = .ok (T', H', r.ok, p) ∧ Own T' H' (left op r.ok T p X) s' ∧
        (∀ a, X a → H' a = H a) ∧
        (∀ k, op = .erase k → r.ok = true → p < s.E.M.total ∧ T.t p ≠ 0 ∧ (s.t p).hasKey k = true) ∧
        (∀ v, r.shown = some v → p < s'.E.M.total ∧ ∃ k, (s'.t p).c = .live k v) ∧
        ((∀ k, op ≠ .erase k) → T'.version = T.version → T'.E = T.E ∧
          (∀ p, p < s'.E.M.total → T.t p ≠ 0 → T'.t p = T.t p) ∧
          ∀ a k v, H a = some (k, v) → ∃ w, H' a = some (k, w)) := by
  obtain ⟨TE, Tt, Tn, Tv⟩ := T
  obtain rfl : TE = s.E := h.E
  cases op with
  | find k =>
    simp only [SeqTable.exec, SeqTable.find] at hr
    cases hpr : SeqTable.probe s.E s.t k f (s.E.M.map (s.E.h k)) with
    | oob => simp only [hpr] at hr; cases hr
    | timeout => simp only [hpr] at hr; cases hr
    | ok o =>
      have hpw := probe_sim (t := Tt) (H := H) h.cell k f _ hpr
      simp only [exec, find, hpw]
      rcases probe_at _ _ hpr with ⟨p, rfl, hp, hk⟩ | ⟨p, rfl, hp, he⟩
      · simp only [hpr] at hr; cases hr
        refine .inr ⟨_, H, p, rfl, h.congr (by simp [left]), fun _ _ => rfl, (fun _ hc => nomatch hc), ?_,
          fun _ _ => ⟨rfl, fun _ _ _ => rfl, fun _ _ v ha => ⟨v, ha⟩⟩⟩
        intro v hv
        obtain ⟨w, hw⟩ := Cell.hasKey_iff.1 hk
        simp only [Cell.val?, hw] at hv; cases hv
        exact ⟨hp, k, hw⟩
      · simp only [hpr] at hr; cases hr
        exact .inr ⟨_, H, p, rfl, h.congr (by simp [left]), fun _ _ => rfl, (fun _ hc => nomatch hc),
          (fun v hv => nomatch hv), fun _ _ => ⟨rfl, fun _ _ _ => rfl, fun _ _ v ha => ⟨v, ha⟩⟩⟩
  | insert k d =>
    rcases insertWith_sim hA (insertIntern_sim hA f) h (k := k) (d := d) hr with hn |
      ⟨T', H', p, h1, h2, h3, h4, h5, h6, -, -, h9⟩
    · exact .inl hn
    · refine .inr ⟨T', H', p, h1, h2.congr (by simp [left]), h3, (fun _ hc => nomatch hc), ?_, fun _ => h9⟩
      intro v hv
      obtain ⟨w, hw⟩ := Cell.hasKey_iff.1 h5
      rw [← h6] at hv
      simp only [Cell.val?, hw] at hv; cases hv
      exact ⟨h4, k, hw⟩
  | insertOrUpdate k d u =>
    rcases insertWith_sim hA (insertOrUpdateIntern_sim hA u f) h (k := k) (d := d) hr with hn |
      ⟨T', H', p, h1, h2, h3, h4, h5, h6, -, -, h9⟩
    · exact .inl hn
    · refine .inr ⟨T', H', p, h1, h2.congr (by simp [left]), h3, (fun _ hc => nomatch hc), ?_, fun _ => h9⟩
      intro v hv
      obtain ⟨w, hw⟩ := Cell.hasKey_iff.1 h5
      rw [← h6] at hv
      simp only [Cell.val?, hw] at hv; cases hv
      exact ⟨h4, k, hw⟩
  | update k u =>
    simp only [SeqTable.exec, SeqTable.update] at hr
    cases hpr : SeqTable.probe s.E s.t k f (s.E.M.map (s.E.h k)) with
    | oob => simp only [hpr] at hr; cases hr
    | timeout => simp only [hpr] at hr; cases hr
    | ok o =>
      have hpw := probe_sim (t := Tt) (H := H) h.cell k f _ hpr
      simp only [exec, update, hpw]
      rcases probe_at _ _ hpr with ⟨p, rfl, hp, hk⟩ | ⟨p, rfl, hp, he⟩
      · simp only [hpr] at hr; cases hr
        obtain ⟨v, hv⟩ := Cell.hasKey_iff.1 hk
        obtain ⟨hz, hb⟩ := (h.cell p hp).live hv
        simp only at hb
        have hcell : s.t p = Cell.liveCell k v := by
          obtain ⟨k', v', -, g, -⟩ := (h.cell p hp).block hz
          rw [g] at hv ⊢; cases hv; rfl
        have hupd : (nonAtomicUpdate k (s.t p) u).1 = Cell.liveCell k (u.upd v) := by
          rw [hcell]; rfl
        simp only [hb, hupd]
        refine .inr ⟨_, _, p, rfl, (h.write hp hv (u.upd v)).congr (by simp [left]), ?_,
          (fun _ hc => nomatch hc), ?_, fun _ _ => ⟨rfl, fun _ _ _ => rfl, ?_⟩⟩
        · intro a ha
          have : a ≠ ptrOf (Tt p) := fun e => h.apart p hp hz (e ▸ ha)
          simp [Heap.set, this]
        · intro w hw
          refine ⟨hp, k, ?_⟩
          simp only [Tbl.set, if_true, Cell.liveCell, Cell.val?, Option.some.injEq] at hw ⊢
          rw [hw]
        · intro a k' v' ha
          by_cases hap : a = ptrOf (Tt p)
          · rw [hap, hb] at ha; cases ha
            exact ⟨u.upd v, by simp [Heap.set, hap]⟩
          · exact ⟨v', by simp only [Heap.set, hap, if_false]; exact ha⟩
      · simp only [hpr] at hr; cases hr
        exact .inr ⟨_, H, p, rfl, h.congr (by simp [left]), fun _ _ => rfl, (fun _ hc => nomatch hc),
          (fun v hv => nomatch hv), fun _ _ => ⟨rfl, fun _ _ _ => rfl, fun _ _ v ha => ⟨v, ha⟩⟩⟩
  | erase k =>
    simp only [SeqTable.exec, SeqTable.erase] at hr
    cases hpr : SeqTable.probe s.E s.t k f (s.E.M.map (s.E.h k)) with
    | oob => simp only [hpr] at hr; cases hr
    | timeout => simp only [hpr] at hr; cases hr
    | ok o =>
      have hpw := probe_sim (t := Tt) (H := H) h.cell k f _ hpr
      simp only [exec, erase, hpw]
      rcases probe_at _ _ hpr with ⟨p, rfl, hp, hk⟩ | ⟨p, rfl, hp, he⟩
      · simp only [hpr] at hr
        obtain ⟨v, hv⟩ := Cell.hasKey_iff.1 hk
        obtain ⟨hz, hb⟩ := (h.cell p hp).live hv
        simp only at hb hz
        have hn : Tn = s.n := h.n
        have hver : Tv = s.version := h.version
        subst hn hver
        have h0 : Own ⟨s.E, setW Tt p 0, s.n, s.version⟩ H (fun a => X a ∨ a = ptrOf (Tt p))
            ⟨s.E, s.t.set p Cell.emptyCell, s.n, s.version⟩ := by
          refine ⟨rfl, rfl, rfl, ?_, ?_, ?_, ?_, ?_⟩
          · intro a ha
            by_cases h1 : a = p
            · simp only [setW, Tbl.set, h1, if_true]; exact .inl ⟨rfl, rfl⟩
            · simp only [setW, Tbl.set, h1, if_false]; exact h.cell a ha
          · intro a ha
            by_cases h1 : a = p
            · simp [setW, h1]
            · simp only [setW, h1, if_false]
              rintro ha0 (hx | hx)
              · exact h.apart a ha ha0 hx
              · exact h1 (h.inj a p ha hp ha0 hz hx)
          · intro a b ha hb
            by_cases h1 : a = p
            · simp [setW, h1]
            by_cases h1' : b = p
            · simp [setW, h1']
            simp only [setW, h1, h1', if_false]
            exact h.inj a b ha hb
          · rintro a (ha | rfl)
            · exact h.ext a ha
            · exact ⟨_, hb⟩
          · intro a x hx
            rcases h.all a x hx with g | ⟨i, hi, hi0, he⟩
            · exact .inl (.inl g)
            · by_cases h1 : i = p
              · exact .inl (.inr (by rw [← h1]; exact he.symm))
              · exact .inr ⟨i, hi, by simpa only [setW, h1, if_false] using hi0,
                  by simpa only [setW, h1, if_false] using he⟩
        cases hel : SeqTable.eraseLoop s.E f (s.t.set p Cell.emptyCell) p (p + 1) with
        | oob => simp only [hel] at hr; cases hr
        | timeout => simp only [hel] at hr; cases hr
        | ok t' =>
          simp only [hel] at hr; cases hr
          obtain ⟨w, e1, e2⟩ := eraseLoop_sim f _ _ _ _ _ h0 hp (by simp [setW]) hel
          simp only [e1]
          refine .inr ⟨_, H, p, rfl, e2.congr (by simp [left]), fun _ _ => rfl, ?_, (fun v hv => nomatch hv),
            fun hc => absurd rfl (hc k)⟩
          intro k' he _
          cases he
          exact ⟨hp, hz, hk⟩
      · simp only [hpr] at hr; cases hr
        exact .inr ⟨_, H, p, rfl, h.congr (by simp [left]), fun _ _ => rfl, (fun _ _ hc => nomatch hc),
          (fun v hv => nomatch hv), fun _ _ => ⟨rfl, fun _ _ _ => rfl, fun _ _ v ha => ⟨v, ha⟩⟩⟩

/-- A new table. -/
theorem Own.new (cm cp : Bool) (h : K → Nat) (k : Nat) :
    Own (Tab.new cm cp h k) (fun _ => none : Heap K V) (fun _ => False) (SeqTable.St.new cm cp h k) :=
  ⟨rfl, rfl, rfl, fun _ _ => .inl ⟨rfl, rfl⟩, fun _ _ hz => absurd rfl hz, fun _ _ _ _ hz => absurd rfl hz,
    fun _ ha => ha.elim, (fun _ _ hx => nomatch hx)⟩

end
end SeqHeap
end Growt
