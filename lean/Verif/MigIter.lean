import Verif.Iter

/-!
# Modifications through iterators and references, and iterators of growing tables
-/

set_option linter.unusedSectionVars false

namespace Growt
section
variable {K V : Type} [DecidableEq K] [DecidableEq V] [Inhabited V]

/-- Outcome of a whole-slot compare-and-swap through an iterator: new content of the slot, new copy
of the iterator, success.  `upd` = does a failed compare-and-swap store the seen content in the
expected copy?  (`false` for `simple_slot.hpp:333-346`, `true` for `single_word_slot.hpp:338-343`
and `complex_slot.hpp:481-487`.) -/
def casIt (upd : Bool) (x copy new : Cell K V) : Cell K V × Cell K V × Bool :=
  if x = copy then (new, copy, true) else (x, if upd then x else copy, false)

/-- `erase_if_unchanged`, `base_linear_iterator.hpp:288-292`, on the slot content `x`. -/
def eraseIfUnchanged (upd : Bool) (x copy : Cell K V) : Cell K V × Cell K V × Bool :=
  casIt upd x copy Cell.deletedCell

/-- `compare_exchange(val)`, `base_linear_iterator.hpp:87-100`: the new slot is built without a mark
from the key of the copy; `none` if the copy holds no key (no element). -/
def compareExchange (upd : Bool) (x copy : Cell K V) (val : V) : Option (Cell K V × Cell K V × Bool) :=
  match copy.c with
  | .live k _ =>
    let r := casIt upd x copy (Cell.liveCell k val)
    some (r.1, if r.2.2 then copy.setMapped val else r.2.1, r.2.2)
  | _ => none

/-- `erase()` of a base iterator, `base_linear_iterator.hpp:279-286`: repeat the compare-and-swap
until it succeeds.  `xs n` is the content of the slot when the `n`-th attempt is made (other
threads may change it in between).  Result: number of the successful attempt; `none` = not
finished after `fuel` attempts. -/
def eraseLoop (upd : Bool) (xs : Nat → Cell K V) : Nat → Nat → Cell K V → Option Nat
  | 0, _, _ => none
  | fuel + 1, n, copy =>
    let r := eraseIfUnchanged upd (xs n) copy
    if r.2.2 then some n else eraseLoop upd xs fuel (n + 1) r.2.1

/-- The functor `_overwrite` of `operator=`, `base_linear_iterator.hpp:45-58`, applied to `v`. -/
def overwriteFn (v : V) : UpdFn V := ⟨fun _ => v, fun _ => v, some fun _ => (v, v)⟩

/-- `operator=` of a mapped reference, `base_linear_iterator.hpp:74-78`: one `atomic_update`, result
ignored.  `k` is the key shown by the copy (only used for the ignored result). -/
def assignRef (m : Bool) (k : K) (t : Tbl K V) (p : Nat) (copy : Cell K V) (v : V) : Tbl K V :=
  t.set p (atomicUpdate m k (t p) copy (overwriteFn v)).1

/-- A search on a table that nobody modifies: `find`, as position and copy. (`base_linear.hpp:887-916`) -/
def lookup (E : Env K) (t : Tbl K V) (k : K) : Option (Nat × Cell K V) :=
  match run E (.find k) (enough E) (start E (Op.find k : Op K V)) t with
  | .done _ r => r.it
  | _ => none

/-- `handle[k] = v` on a growing table without concurrent access and without growth in between:
`operator[]` (`migration_table.hpp:249-257`: insert with `mapped_type()`, take the reference of the
returned iterator), then `operator=` (`migration_table_iterator.hpp:74-88`). -/
def bracketAssign (E : Env K) (t : Tbl K V) (k : K) (v : V) : Option (Tbl K V) :=
  match run E (.insert k default) (enough E) (start E (Op.insert k default : Op K V)) t with
  | .done t' r =>
    match r.it with
    | some (p, c) => some (assignRef E.m k t' p c v)
    | none => none
  | _ => none

/-- `migration_table_iterator`, `data-structures/migration_table_iterator.hpp:377-380`. -/
structure MIt (K V : Type) where
  version : Nat
  it : BIt K V

/-- A base table with its version number, as obtained by `get_table` (the table is assumed not to
change during one increment). (`estrat_async.hpp:207-214`, `estrat_sync.hpp:265-294`) -/
structure VTbl (K V : Type) where
  E : Env K
  tbl : Tbl K V
  version : Nat

/-- `get_key()` of a copied slot, `element_types/simple_slot.hpp:189-193`; `none` for the reserved
keys of the empty pair and of the tombstone, which are never keys of elements. -/
def keyOf (x : Cell K V) : Option K := match x.c with | .live k _ => some k | _ => none

/-- `base_refresh_ptr`, `migration_table_iterator.hpp:382-390`: after a migration search the key of
the copy in the new table.  Searching a reserved key finds nothing. -/
def MIt.refreshPtr (T : VTbl K V) (i : MIt K V) : MIt K V × Bool :=
  if T.version = i.version then (i, false)
  else
    let found := (keyOf i.it.copy).bind (lookup T.E T.tbl)
    (⟨T.version, match found with
      | some (p, c) => ⟨c, some p, T.E.M.total⟩
      | none => BIt.endIt⟩, true)

/-- `operator++`, `migration_table_iterator.hpp:290-300`; `none` = undefined behaviour. -/
def MIt.next (T : VTbl K V) (i : MIt K V) : Option (MIt K V) :=
  let j := (i.refreshPtr T).1
  match j.it.next T.tbl with
  | none => none
  | some it => some ⟨j.version, it⟩

/-- `erase_if_unchanged`, `migration_table_iterator.hpp:362-374`: result of the call, as (new table,
success); `none` = access through a null pointer. -/
def MIt.eraseIfUnchanged (upd : Bool) (T : VTbl K V) (i : MIt K V) : Option (Tbl K V × Bool) :=
  let (j, refreshed) := i.refreshPtr T
  if refreshed && decide (keyOf i.it.copy ≠ keyOf j.it.copy) then some (T.tbl, false)
  else match j.it.ptr with
    | none => none
    | some p =>
      let r := Growt.eraseIfUnchanged upd (T.tbl p) j.it.copy
      some (T.tbl.set p r.1, r.2.2)

/-- `erase()`, `migration_table_iterator.hpp:345-360`: `while (true)` around refresh and
`erase_if_unchanged`, whose result is not looked at.  `T n` is the table in the `n`-th round;
`some ()` would be a return. -/
def MIt.erase (upd : Bool) (T : Nat → VTbl K V) : Nat → Nat → MIt K V → Option Unit
  | 0, _, _ => none
  | fuel + 1, n, i =>
    let j := (i.refreshPtr (T n)).1
    let j' : MIt K V := match j.it.ptr with
      | some p => ⟨j.version, { j.it with copy := (T n).tbl p }⟩
      | none => j
    match j'.eraseIfUnchanged upd (T n) with
    | _ => MIt.erase upd T fuel (n + 1) j'

/-- `compare_exchange` of a growing table's reference, `migration_table_iterator.hpp:104-114` with
`base_refresh_ptr` (124-132): after a migration the copy is replaced by a fresh one.  `none` =
dereference of an `end()` iterator. -/
def MIt.compareExchange (upd : Bool) (T : VTbl K V) (i : MIt K V) (val : V) :
    Option (Tbl K V × Bool) :=
  let j := (i.refreshPtr T).1
  match j.it.ptr with
  | none => none
  | some p =>
    match Growt.compareExchange upd (T.tbl p) j.it.copy val with
    | none => none
    | some r => some (T.tbl.set p r.1, r.2.2)

/-! ## Facts about searching -/

theorem lookup_good {E : Env K} (hE : E.OK) {t : Tbl K V} (hI : Inv E t) (hr : HasRoom E t) (k : K) :
    (∃ p v, lookup E t k = some (p, t p) ∧ p < E.M.total ∧ (t p).c = .live k v) ∨
    (lookup E t k = none ∧ ∀ p v, p < E.M.total → (t p).c ≠ .live k v) := by
  obtain ⟨t', r, hrun, -, pc, hpc, hsafe, hstep⟩ := runStart_good (op := .find k) hE hI hr
  have hl : lookup E t k = r.it := by simp [lookup, hrun]
  rw [hl]
  cases pc with
  | act i att curr => exact hpc.2.1.2.elim
  | load i att =>
    have hin := Passed.inBounds hE hI hpc
    simp only [step, hin, if_true, afterLoad] at hstep
    have h2 := congrArg Prod.snd hstep
    simp only at h2
    cases he : (t (E.M.remap i)).isEmpty with
    | true =>
      simp only [he, if_true] at h2
      cases h2
      right
      refine ⟨rfl, fun p v hp => hI.absent hpc ?_ hp⟩
      exact Cell.isEmpty_iff.1 he
    | false =>
      cases hk : (t (E.M.remap i)).hasKey k with
      | false => simp [he, hk] at h2
      | true =>
        simp only [he, hk, if_true, Bool.false_eq_true, if_false] at h2
        cases h2
        left
        obtain ⟨v, hv⟩ := Cell.hasKey_iff.1 hk
        exact ⟨_, v, rfl, hin, hv⟩

/-- `lookup` shows exactly the stored dictionary. -/
theorem lookup_stores {E : Env K} (hE : E.OK) {t : Tbl K V} (hI : Inv E t) (hr : HasRoom E t)
    {d : Dict K V} (hs : Stores E t d) (k : K) :
    (lookup E t k).bind (fun x => x.2.val?) = d k := by
  rcases lookup_good hE hI hr k with ⟨p, v, h1, h2, h3⟩ | ⟨h1, h2⟩
  · rw [h1, (hs k v).2 ⟨p, h2, h3⟩]
    simp [Cell.val?, h3]
  · rw [h1]
    cases hd : d k with
    | none => rfl
    | some v => obtain ⟨p, hp, hc⟩ := (hs k v).1 hd; exact absurd hc (h2 p v hp)

/-- The three ways a plain `insert` running alone can end: inserted in an empty slot (the returned
copy is that empty slot), key found, or refused as full. -/
theorem insert_alone {E : Env K} (hE : E.OK) {t : Tbl K V} (hI : Inv E t) (hn : NoMarks t)
    (hr : HasRoom E t) (k : K) (d : V) :
    ∃ t' r, run E (.insert k d) (enough E) (start E (Op.insert k d : Op K V)) t = .done t' r ∧
    ((∃ p, p < E.M.total ∧ t p = Cell.emptyCell ∧ t' = t.set p (Cell.liveCell k d) ∧
        r = ⟨some .SUCCESS_IN, some (p, Cell.emptyCell)⟩ ∧
        ∀ q v, q < E.M.total → (t q).c ≠ .live k v) ∨
     (∃ p v, p < E.M.total ∧ (t p).c = .live k v ∧ t' = t ∧
        r = ⟨some .UNSUCCESS_ALREADY_USED, some (p, t p)⟩) ∨
     (t' = t ∧ r = ⟨some .UNSUCCESS_FULL, none⟩ ∧ ∀ q v, q < E.M.total → (t q).c ≠ .live k v)) := by
  obtain ⟨t', r, hrun, -, pc, hpc, hsafe, hstep⟩ := runStart_good (op := .insert k d) hE hI hr
  refine ⟨t', r, hrun, ?_⟩
  cases pc with
  | act i att curr =>
    have hin := Passed.inBounds hE hI hpc.1
    simp only [step, hin, if_true, actStep, casStep] at hstep
    by_cases hc : t (E.M.remap i) = curr
    · simp only [hc, if_true, Prod.mk.injEq, Out.done.injEq] at hstep
      obtain ⟨h1, h2⟩ := hstep
      have hce : curr = Cell.emptyCell := by
        have h3 := hpc.2.1.1; have h4 := hpc.2.1.2.1
        rw [Cell.eta curr, h3, h4]; rfl
      subst hce
      left
      exact ⟨_, hin, hc, h1.symm, h2.symm, fun q v hq => hI.absent hpc.1 (by rw [hc]; rfl) hq⟩
    · simp [hc] at hstep
  | load i att =>
    have hin := Passed.inBounds hE hI hpc
    simp only [step, hin, if_true, afterLoad, hn (E.M.remap i), Bool.false_eq_true, if_false] at hstep
    obtain ⟨h1, h2⟩ := Prod.mk.injEq .. ▸ hstep
    right
    cases he : (t (E.M.remap i)).isEmpty with
    | true =>
      simp only [he, if_true, retEnd] at h2
      cases htf : tooFar E (E.M.remap i) with
      | false => simp [htf] at h2
      | true =>
        simp only [htf, if_true, Out.done.injEq] at h2
        exact .inr ⟨h1.symm, h2.symm, fun q v hq => hI.absent hpc (Cell.isEmpty_iff.1 he) hq⟩
    | false =>
      cases hk : (t (E.M.remap i)).hasKey k with
      | false => simp [he, hk] at h2
      | true =>
        simp only [he, hk, if_true, Bool.false_eq_true, if_false, Out.done.injEq] at h2
        obtain ⟨v, hv⟩ := Cell.hasKey_iff.1 hk
        exact .inl ⟨_, v, hin, hv, h1.symm, h2.symm⟩

end
end Growt
