import Verif.SeqHeap
import Verif.Props.SeqLin

/-!
# The sequential table with elements on the heap (C58, C59)
-/

set_option linter.unusedSectionVars false

namespace Growt
section
variable {K V : Type} [DecidableEq K] [DecidableEq V] [Inhabited V]
open SeqHeap

/-- The slots and the heap hold exactly the elements of `d`, each in its own block, and no other block
is allocated. (specification, no code) -/
def SeqHeap.Holds (T : Tab K) (H : Heap K V) (d : Dict K V) : Prop :=
  (∀ k v, d k = some v ↔ ∃ p, p < T.E.M.total ∧ T.t p ≠ 0 ∧ H (ptrOf (T.t p)) = some (k, v)) ∧
  (∀ p q, p < T.E.M.total → q < T.E.M.total → T.t p ≠ 0 → T.t q ≠ 0 →
    ptrOf (T.t p) = ptrOf (T.t q) → p = q) ∧
  ∀ a x, H a = some x → ∃ p, p < T.E.M.total ∧ T.t p ≠ 0 ∧ ptrOf (T.t p) = a

/-- A table that can come about: it stands for a table of the model `SeqTable` in good order.
(specification, no code) -/
def SeqHeap.Valid (T : Tab K) (H : Heap K V) (d : Dict K V) : Prop :=
  ∃ s : SeqTable.St K V, SeqTable.Good s d ∧ Own T H (fun _ => False) s

theorem SeqHeap.Valid.holds {T : Tab K} {H : Heap K V} {d : Dict K V} (h : Valid T H d) :
    Holds T H d := by
  obtain ⟨s, hg, ho⟩ := h
  have hE := ho.E
  refine ⟨fun k v => ?_, by rw [hE]; exact ho.inj, fun a x hx => ?_⟩
  · rw [hg.stores k v, hE]
    constructor
    · rintro ⟨p, hp, hv⟩
      obtain ⟨h1, h2⟩ := (ho.cell p hp).live hv
      exact ⟨p, hp, h1, h2⟩
    · rintro ⟨p, hp, hz, hb⟩
      obtain ⟨k', v', g1, g2, -⟩ := (ho.cell p hp).block hz
      rw [hb] at g1; cases g1
      exact ⟨p, hp, by rw [g2]; rfl⟩
  · rw [hE]
    rcases ho.all a x hx with g | g
    · exact g.elim
    · exact g

theorem SeqHeap.execAll_sim {A : Alloc K V} (hA : A.OK) {f : Nat} : ∀ (ops : List (SeqTable.Op K V))
    (T : Tab K) (H : Heap K V) (s s' : SeqTable.St K V) (l : List (SRes V)),
    (∀ op ∈ ops, op.noErase = true) → Own T H (fun _ => False) s →
    SeqTable.execAll f s ops = .ok (s', l) →
    execAll A f T H ops = .nomem ∨
      ∃ T' H', execAll A f T H ops = .ok (T', H', l.map (·.ok)) ∧ Own T' H' (fun _ => False) s' := by
  intro ops
  induction ops with
  | nil =>
    intro T H s s' l _ ho hr
    cases hr
    exact .inr ⟨T, H, rfl, ho⟩
  | cons op ops ih =>
    intro T H s s' l hno ho hr
    simp only [SeqTable.execAll] at hr
    cases h1 : SeqTable.exec f s op with
    | oob => simp only [h1] at hr; cases hr
    | timeout => simp only [h1] at hr; cases hr
    | ok y =>
      obtain ⟨s1, x⟩ := y
      simp only [h1] at hr
      cases h2 : SeqTable.execAll f s1 ops with
      | oob => simp only [h2] at hr; cases hr
      | timeout => simp only [h2] at hr; cases hr
      | ok z =>
        obtain ⟨s2, l2⟩ := z
        simp only [h2] at hr; cases hr
        rcases exec_sim hA ho f op h1 with hn | ⟨T1, H1, p, e1, e2, -⟩
        · exact .inl (by simp only [execAll, hn])
        · have e2' : Own T1 H1 (fun _ => False) s1 := by
            refine e2.congr fun a => ?_
            have := hno op (by simp)
            cases op <;> simp_all [left, SeqTable.Op.noErase]
          rcases ih T1 H1 s1 s' l2 (fun o ho => hno o (by simp [ho])) e2' h2 with hn | ⟨T2, H2, g1, g2⟩
          · exact .inl (by simp only [execAll, e1, hn])
          · exact .inr ⟨T2, H2, by simp only [execAll, e1, g1, List.map_cons], g2⟩

/-! ## C58 -/

/-- **C58, the part that holds.**  Every sequence of find, insert, update and insert_or_update calls on
a new sequential table with heap elements (circular probing, any hash function, any allocator) either
ends with a failed `malloc` or completes without undefined behaviour; the calls report what an ideal map
reports, every element is in exactly one block, no other block is allocated, and the destructor frees
every block - once, since freeing a block that is not allocated would be undefined behaviour.
(Missing: `erase`, for which the statement is false, see `C58_erase_leaks`.) -/
theorem C58_freed_once_partial {A : Alloc K V} (hA : A.OK) (cm : Bool) {h : K → Nat}
    (hh : ∀ x, h x < 2 ^ 64) {k : Nat} (hk : 9 ≤ k) (hk' : k ≤ 63) (ops : List (SeqTable.Op K V))
    (hno : ∀ op ∈ ops, op.noErase = true) (hfew : ops.length < 2 ^ 40) {f : Nat}
    (hf : 2 ^ k + 4 * ops.length + 2 ≤ f) :
    execAll A f (Tab.new cm true h k) (fun _ => none) ops = .nomem ∨
    ∃ T' H', execAll A f (Tab.new cm true h k) (fun _ => none) ops =
        .ok (T', H', (SOp.semAll (ops.map SeqTable.Op.toSpec) fun _ => none).2.map (·.ok)) ∧
      Holds T' H' (SOp.semAll (ops.map SeqTable.Op.toSpec) fun _ => none).1 ∧
      destroy T' H' = some fun _ => none := by
  have htot : (SeqTable.St.new cm true h k : SeqTable.St K V).E.M.total = 2 ^ k := by
    have hw : (Mapper.mk' cm true (2 ^ k) 0).WF k := Mapper.wf_mk' hk hk'
    show (Mapper.mk' cm true (2 ^ k) 0).total = _
    rw [hw.total_eq]; simp [Mapper.mk']
  obtain ⟨s', h1, h2⟩ := SeqTable.execAll_good (B := 2 ^ k + 4 * ops.length) hf ops _ _
    (SeqTable.Good.new cm hh hk hk') hno (by rw [htot]; omega) (by simp only [SeqTable.St.new]; omega)
    (by simp only [SeqTable.St.new]; omega)
  rcases execAll_sim hA ops _ _ _ _ _ hno (Own.new cm true h k) h1 with hn | ⟨T', H', g1, g2⟩
  · exact .inl hn
  · obtain ⟨H'', d1, d2, -⟩ := g2.destroy
    refine .inr ⟨T', H', g1, SeqHeap.Valid.holds ⟨s', h2, g2⟩, ?_⟩
    rw [d1]
    congr 1
    funext a
    exact d2 a (fun h => h)

theorem SeqHeap.erase_heap {f : Nat} {T T' : Tab K} {H H' : Heap K V} {k : K} {b : Bool} {p : Nat}
    (h : SeqHeap.erase f T H k = .ok (T', H', b, p)) : H' = H := by
  unfold SeqHeap.erase at h
  split at h
  · split at h <;> cases h
    rfl
  · cases h; rfl
  all_goals cases h

/-- The second loop of `erase` ends when there is an empty slot ahead. -/
theorem SeqTable.eraseLoop_ends {E : Env K} (hE : E.OK) (hcp : E.M.cp = true) : ∀ n f (t : Tbl K V) i j,
    n < f → (t (E.M.remap (j + n))).c = .empty → E.M.remap (j + n) ≠ i →
    ∃ t', SeqTable.eraseLoop E f t i j = .ok t' := by
  obtain ⟨k, hw⟩ := hE.wf
  have hlt : ∀ j, E.M.remap j < E.M.total := fun j => hw.remap_lt_cp hcp j
  have hstep : ∀ j n, E.M.remap (E.M.remap j + 1 + n) = E.M.remap (j + (n + 1)) := by
    intro j n
    simp only [hw.remap_cp hcp]
    rw [Nat.add_assoc, Nat.mod_add_mod, Nat.add_comm 1 n]
  intro n
  induction n with
  | zero =>
    intro f t i j hf he hi
    obtain ⟨f, rfl⟩ : ∃ g, f = g + 1 := ⟨f - 1, by omega⟩
    have he' : (t (E.M.remap j)).c = .empty := he
    exact ⟨t, by simp only [SeqTable.eraseLoop, hlt, if_true, he']⟩
  | succ n ih =>
    intro f t i j hf he hi
    obtain ⟨f, rfl⟩ : ∃ g, f = g + 1 := ⟨f - 1, by omega⟩
    have hnext : j + 1 + n = j + (n + 1) := by omega
    simp only [SeqTable.eraseLoop, hlt, if_true]
    cases hc : (t (E.M.remap j)).c with
    | empty => exact ⟨t, rfl⟩
    | deleted v =>
      simp only
      exact ih f t i (j + 1) (by omega) (by rw [hnext]; exact he) (by rw [hnext]; exact hi)
    | live x v =>
      simp only
      have hne : E.M.remap (j + (n + 1)) ≠ E.M.remap j := fun e => by rw [e, hc] at he; cases he
      split
      · refine ih f _ _ _ (by omega) ?_ (by rw [hstep]; exact hne)
        rw [hstep]
        simp only [Tbl.set, hne, hi, if_false]
        exact he
      · exact ih f t i (j + 1) (by omega) (by rw [hnext]; exact he) (by rw [hnext]; exact hi)

/-- `erase` of a present key comes to an end. -/
theorem SeqTable.erase_ends {s : SeqTable.St K V} {d : Dict K V} (hs : SeqTable.Good s d) {k : K} {v : V}
    (hk : d k = some v) {f : Nat} (hf : 2 * s.E.M.total + 1 ≤ f) :
    ∃ s', SeqTable.exec f s (.erase k) = .ok (s', ⟨true, none⟩) := by
  rcases hs.probe k (f := f) (by omega) with ⟨j, w, h1, h2, h3, h4⟩ | ⟨j, -, -, -, h4, -⟩
  · obtain ⟨n, hw⟩ := hs.ok.wf
    have htot : s.E.M.total = 2 ^ n := by rw [hw.total_eq]; simp [hs.cp]
    obtain ⟨e, he, hee⟩ := hs.room hs.cp
    generalize hpe : s.E.M.remap j = p at *
    have hne : e ≠ p := fun h => by rw [h, h2] at hee; cases hee
    have hrem : s.E.M.remap (p + 1 + (e + s.E.M.total - (p + 1))) = e := by
      have : p + 1 + (e + s.E.M.total - (p + 1)) = e + s.E.M.total := by omega
      rw [this, hw.remap_cp hs.cp, htot, Nat.add_mod_right, Nat.mod_eq_of_lt (by rw [← htot]; exact he)]
    obtain ⟨t', ht⟩ := SeqTable.eraseLoop_ends hs.ok hs.cp (e + s.E.M.total - (p + 1)) f
      (s.t.set p Cell.emptyCell) p (p + 1) (by omega) (by
        rw [hrem]; simp only [Tbl.set, hne, if_false]; exact hee) (by rw [hrem]; exact hne)
    exact ⟨{ s with t := t' }, by simp only [SeqTable.exec, SeqTable.erase, h4, ht]⟩
  · rw [h4] at hk; cases hk

/-- **C58 is violated by `erase`.**  Whatever table (in any state, with any elements) erases an element:
its block is still allocated after the table has been destroyed. -/
theorem C58_erase_leaks {A : Alloc K V} (hA : A.OK) {T : Tab K} {H : Heap K V} {d : Dict K V}
    (h : Valid T H d) {k : K} {v : V} (hk : d k = some v) {f : Nat} (hf : 2 * T.E.M.total + 1 ≤ f) :
    ∃ T' H' p H'' a, exec A f T H (.erase k) = .ok (T', H', true, p) ∧ destroy T' H' = some H'' ∧
      H'' a = some (k, v) := by
  obtain ⟨s, hg, ho⟩ := h
  obtain ⟨s', hs⟩ := SeqTable.erase_ends hg hk (f := f) (by rw [← ho.E]; exact hf)
  rcases exec_sim hA ho f _ hs with hn | ⟨T', H', p, e1, e2, -, e4, -, -⟩
  · simp only [exec, SeqHeap.erase] at hn
    rcases hg.probe k (f := f) (by rw [← ho.E]; omega) with ⟨j, w, h1, h2, h3, h4⟩ | ⟨j, -, -, -, h4, -⟩
    · obtain ⟨TE, Tt, Tn, Tv⟩ := T
      obtain rfl : TE = s.E := ho.E
      have hpw := probe_sim (t := Tt) (H := H) ho.cell k f _ h4
      simp only [hpw] at hn
      split at hn <;> cases hn
      rename_i hn
      exact absurd hn (eraseLoop_not_nomem _ _ _ _)
    · rw [h4] at hk; cases hk
  · obtain ⟨hp, hz, hkey⟩ := e4 k rfl rfl
    have hH : H' = H := SeqHeap.erase_heap e1
    subst hH
    obtain ⟨H'', d1, -, d3⟩ := e2.destroy
    obtain ⟨w, hw⟩ := Cell.hasKey_iff.1 hkey
    obtain ⟨-, hb⟩ := (ho.cell p hp).live hw
    have hwv : w = v := by
      have := (hg.stores k w).2 ⟨p, hp, hw⟩
      rw [hk] at this; cases this; rfl
    subst hwv
    refine ⟨T', H', p, H'', ptrOf (T.t p), e1, d1, ?_⟩
    rw [d3 _ (.inr ⟨rfl, rfl, rfl⟩)]
    exact hb

/-! ## C59 -/

/-- Below the threshold no call grows the table. -/
theorem SeqTable.exec_version {f : Nat} {s s' : SeqTable.St K V} {op : SeqTable.Op K V} {r : SRes V}
    (h : SeqTable.exec f s op = .ok (s', r)) (hn : s.n + 1 ≤ SeqTable.thresh s.E) :
    s'.version = s.version := by
  have hb : ¬ s.n + 1 > SeqTable.thresh s.E := by omega
  cases op with
  | find k =>
    simp only [SeqTable.exec, SeqTable.find] at h
    split at h <;> cases h <;> rfl
  | insert k v =>
    cases f with
    | zero => cases h
    | succ f =>
      simp only [SeqTable.exec, SeqTable.insert, hb, if_false] at h
      split at h <;> cases h <;> rfl
  | update k u =>
    simp only [SeqTable.exec, SeqTable.update] at h
    split at h <;> cases h <;> rfl
  | insertOrUpdate k v u =>
    cases f with
    | zero => cases h
    | succ f =>
      simp only [SeqTable.exec, SeqTable.insertOrUpdate, hb, if_false] at h
      split at h <;> cases h <;> rfl
  | erase k =>
    simp only [SeqTable.exec, SeqTable.erase] at h
    split at h
    · split at h <;> cases h
      rfl
    all_goals cases h
    rfl

/-- **C59, the part that holds.**  A call other than `erase` that does not grow the table - in particular
every such call below the threshold - leaves every element in its slot and its block: the address of
every element stays the same, and so does its key. -/
theorem C59_addresses_stay_partial {A : Alloc K V} (hA : A.OK) {T : Tab K} {H : Heap K V} {d : Dict K V}
    (h : Valid T H d) (op : SeqTable.Op K V) (hop : op.noErase = true) {f : Nat}
    (hf : T.E.M.total + 4 * (T.n + 1) + 2 ≤ f) (hn : T.n + 1 < 2 ^ 40) :
    exec A f T H op = .nomem ∨
    ∃ T' H' b p, exec A f T H op = .ok (T', H', b, p) ∧ Valid T' H' (op.toSpec.sem d).1 ∧
      (T.n + 1 ≤ SeqTable.thresh T.E → T'.version = T.version) ∧
      (T'.version = T.version → ∀ q, q < T.E.M.total → T.t q ≠ 0 →
        T'.t q = T.t q ∧ ∀ k v, H (ptrOf (T.t q)) = some (k, v) → ∃ w, H' (ptrOf (T.t q)) = some (k, w)) := by
  obtain ⟨s, hg, ho⟩ := h
  obtain ⟨s', h1, h2, -, -⟩ := SeqTable.exec_good hg op hop (f := f) (B := T.E.M.total + 4 * (T.n + 1))
    (by rw [ho.E]; omega) (by rw [ho.n]; omega) (by rw [← ho.n]; exact hn) hf
  rcases exec_sim hA ho f op h1 with hn | ⟨T', H', p, e1, e2, -, -, -, e6⟩
  · exact .inl hn
  · refine .inr ⟨T', H', _, p, e1, ⟨s', h2, ?_⟩, fun ht => ?_, ?_⟩
    · refine e2.congr fun a => ?_
      cases op <;> simp_all [left, SeqTable.Op.noErase]
    · rw [e2.version, ho.version]
      exact SeqTable.exec_version h1 (by rw [← ho.n, ← ho.E]; exact ht)
    · intro hv q hq hz
      obtain ⟨g0, g1, g2⟩ := e6 (by intro k hk; rw [hk] at hop; cases hop) hv
      have hE : s'.E = T.E := by rw [← e2.E, g0]
      exact ⟨g1 q (by rw [hE]; exact hq) hz, fun k v => g2 _ k v⟩

/-- **C59 is violated when the table grows.**  An insertion that grows the table - the number of elements
reaches the threshold - releases the blocks of all elements: every address taken before points to memory
that is not allocated any more.  (The slots promise otherwise: `allows_referential_integrity = true`,
`seq_complex_slot.hpp:45`.) -/
theorem C59_growth_moves_all {A : Alloc K V} (hA : A.OK) {T : Tab K} {H : Heap K V} {d : Dict K V}
    (h : Valid T H d) {k : K} (hk : d k = none) (v : V) (hbig : T.n + 1 > SeqTable.thresh T.E)
    (hn : T.n + 1 < 2 ^ 40) {f : Nat} (hf : 2 * T.E.M.total + 2 ≤ f) :
    exec A f T H (.insert k v) = .nomem ∨
    ∃ T' H' p, exec A f T H (.insert k v) = .ok (T', H', true, p) ∧ Valid T' H' (d.put k v) ∧
      ∀ q, q < T.E.M.total → T.t q ≠ 0 → H' (ptrOf (T.t q)) = none := by
  obtain ⟨s, hg, ho⟩ := h
  obtain ⟨TE, Tt, Tn, Tv⟩ := T
  obtain rfl : TE = s.E := ho.E
  obtain rfl : Tn = s.n := ho.n
  simp only at hbig hn hf
  obtain ⟨f, rfl⟩ : ∃ g, f = g + 1 := ⟨f - 1, by omega⟩
  obtain ⟨tgt, g1, g2, g3, g4, g5, g6, g7⟩ := SeqTable.grow_good hg (f := f) hbig hn (by omega)
  obtain ⟨s', i1, i2, i3, i4, -⟩ := SeqTable.insert_small g2 k v (f := f)
    (by show tgt.E.M.total + 1 ≤ f; omega) (fun _ => g5)
  have hsem : ((SOp.insert k v).sem d) = (d.put k v, ⟨true, some v⟩) := by simp only [SOp.sem, hk]
  rw [hsem] at i1 i2
  rcases hg.probe k (f := f + 1) (by omega) with ⟨j, w, -, -, h3, -⟩ | ⟨j, h1, h2, h3, -, h5⟩
  · rw [hk] at h3; cases h3
  simp only [exec, SeqHeap.insert, insertWith]
  cases hAH : A H with
  | none => exact .inl rfl
  | some a =>
    simp only
    obtain ⟨ha0, -, haN⟩ := hA H a hAH
    have ho1 := ho.alloc haN (k, v)
    have hpw := probe_sim (t := Tt) (H := H.set a (some (k, v))) ho1.cell k (f + 1) _ h5
    have hHa : (H.set a (some (k, v))) a = some (k, v) := by simp [Heap.set]
    simp only [insertIntern, ptrOf_mkWord, hHa, hpw, hbig, if_true]
    rcases grow_sim hA (insertIntern_sim hA f) ho1 g1 with hno | ⟨T1, H1, e1, e2, e3, e4, e5, e6⟩
    · exact .inl (by simp only [hno])
    · simp only [e1]
      have e2' : Own { T1 with n := T1.n - 1 } H1 (fun b => False ∨ b = a) { tgt with n := s.n } :=
        ⟨e2.E, by show T1.n - 1 = s.n; rw [e2.n]; rfl, e2.version, e2.cell, e2.apart, e2.inj, e2.ext, e2.all⟩
      have hh : tgt.E.h k = s.E.h k := by rw [g3]
      have := insertIntern_sim hA f { T1 with n := T1.n - 1 } H1 (fun _ => False) { tgt with n := s.n } a k v
        s' _ e2' (fun h => h) ha0 (by rw [e3 a (.inr rfl)]; exact hHa) i1
      simp only [hh] at this
      rcases this with hno | ⟨T', H', b, p', c1, c2⟩
      · exact .inl (by simp only [hno])
      · have hb : b = true := c2.flag
        subst hb
        have hver : T'.version = T1.version := by
          rw [c2.own.version, i4]; exact e2.version.symm
        refine .inr ⟨T', H', p', by simp only [c1], ⟨s', i2, c2.own.congr (by simp)⟩, ?_⟩
        intro q hq hz
        exact (c2.stay hver).2.2.1 _ (e6 q hq hz)

/-- **C59 is violated by iterators and `operator[]`.**  `table[k] = v` on a table with heap elements does
not change the element: it overwrites the slot behind the slot of `k`, or memory behind the slots. -/
theorem C59_index_overwrites_neighbour {A : Alloc K Nat} (hA : A.OK) {T : Tab K} {H : Heap K Nat}
    {d : Dict K Nat} (h : Valid T H d) (k : K) (v : Nat) {f : Nat}
    (hf : T.E.M.total + 4 * (T.n + 1) + 2 ≤ f) (hn : T.n + 1 < 2 ^ 40) :
    SeqHeap.insert A f T H k default = .nomem ∨
    ∃ T' H' b p, SeqHeap.insert A f T H k default = .ok (T', H', b, p) ∧
      Holds T' H' (match d k with | some _ => d | none => d.put k default) ∧
      (T'.E.M.total ≤ p + 1 → indexAssign A f T H k v = .bad) ∧
      (p + 1 < T'.E.M.total →
        indexAssign A f T H k v = .ok ({ T' with t := setW T'.t (p + 1) v }, H') ∧
        (ptrOf v ≠ 0 → H' (ptrOf v) = none → destroy { T' with t := setW T'.t (p + 1) v } H' = none)) := by
  obtain ⟨s, hg, ho⟩ := h
  obtain ⟨s', h1, h2, -, -⟩ := SeqTable.exec_good hg (.insert k default) rfl (f := f)
    (B := T.E.M.total + 4 * (T.n + 1)) (by rw [ho.E]; omega) (by rw [ho.n]; omega)
    (by rw [← ho.n]; exact hn) hf
  rcases exec_sim hA ho f _ h1 with hno | ⟨T', H', p, e1, e2, -⟩
  · exact .inl hno
  · have hval : Valid T' H' ((SeqTable.Op.insert k default).toSpec.sem d).1 :=
      ⟨s', h2, e2.congr (by simp [left])⟩
    have hins : SeqHeap.insert A f T H k default = .ok (T', H', _, p) := e1
    refine .inr ⟨T', H', _, p, hins, ?_, ?_, ?_⟩
    · have := hval.holds
      cases hd : d k with
      | none => simpa only [SeqTable.Op.toSpec, SOp.sem, hd] using this
      | some w => simpa only [SeqTable.Op.toSpec, SOp.sem, hd] using this
    · intro hp
      have : ¬ p + 1 < T'.E.M.total := by omega
      simp only [indexAssign, hins, assignSecond, this, if_false]
    · intro hp
      refine ⟨by simp only [indexAssign, hins, assignSecond, hp, if_true], fun hv hH => ?_⟩
      have hw : setW T'.t (p + 1) v (p + 1) = v := by simp [setW]
      refine cleanup_bad (p := p + 1) ?_ _ _ (List.mem_range.2 hp) ?_
      · show ptrOf (setW T'.t (p + 1) v (p + 1)) ≠ 0
        rw [hw]; exact hv
      · show H' (ptrOf (setW T'.t (p + 1) v (p + 1))) = none
        rw [hw]; exact hH

/-! ## The hypotheses can be met -/

/-- An allocator with 50 blocks. (example, no code) -/
def SeqHeap.exAlloc : Alloc Nat Nat := fun H => (List.range 51).find? fun a => a != 0 && (H a).isNone

theorem SeqHeap.exAlloc_ok : exAlloc.OK := by
  intro H a ha
  have h1 := List.find?_some ha
  have h2 := List.mem_of_find?_eq_some ha
  simp only [Bool.and_eq_true, bne_iff_ne, ne_eq, Option.isNone_iff_eq_none] at h1
  exact ⟨h1.1, by have := List.mem_range.1 h2; omega, h1.2⟩

/-- The table, the heap and the reports after a run (only used in the examples). (example, no code) -/
def SeqHeap.after (r : Res (Tab Nat × Heap Nat Nat × List Bool)) : Option (Tab Nat × Heap Nat Nat × List Bool) :=
  match r with
  | .ok x => some x
  | _ => none

/-- The run of the examples: two elements, one insertion that fails and releases its block, an update.
(example, no code) -/
def SeqHeap.exRun : Option (Tab Nat × Heap Nat Nat × List Bool) :=
  after (execAll exAlloc 600 (Tab.new true true (fun x : Nat => x % 2 ^ 64) 9) (fun _ => none)
    [.insert 3 30, .insert 515 50, .insert 3 31, .update 3 ⟨(· + 1), id, none⟩, .find 515])

/-- C58: the run completes; the third insertion has released its block 3; the destructor frees all. -/
example : SeqHeap.exRun.map (·.2.2) = some [true, true, false, true, true] ∧
    SeqHeap.exRun.map (fun x => (List.range 5).map x.2.1) =
      some [none, some (3, 31), some (515, 50), none, none] ∧
    SeqHeap.exRun.bind (fun x => (destroy x.1 x.2.1).map fun H => (List.range 5).map H) =
      some [none, none, none, none, none] := by decide +kernel

/-- Every unmarked table in good order can be held in words and blocks: slot `p` uses block `p + 1`. -/
theorem SeqHeap.Own.of {s : SeqTable.St K V} {d : Dict K V} (h : SeqTable.Good s d)
    (hm : ∀ p, (s.t p).marked = false) : ∃ T H, Own T H (fun _ => False) s := by
  let t : Nat → Nat := fun p => match (s.t p).c with
    | .live k _ => mkWord (p + 1) (s.E.h k)
    | _ => 0
  let H : Heap K V := fun a => if a = 0 ∨ s.E.M.total < a then none else match (s.t (a - 1)).c with
    | .live k v => some (k, v)
    | _ => none
  have hc : ∀ p, (t p = 0 ∧ s.t p = Cell.emptyCell) ∨
      ∃ k v, t p = mkWord (p + 1) (s.E.h k) ∧ s.t p = Cell.liveCell k v := by
    intro p
    have hmp := hm p
    have hcl := h.clean p
    rcases hx : s.t p with ⟨m, c⟩
    rw [hx] at hmp hcl
    simp only at hmp hcl
    subst hmp
    cases c with
    | empty => exact .inl ⟨by simp only [t, hx], rfl⟩
    | live k v => exact .inr ⟨k, v, by simp only [t, hx], rfl⟩
    | deleted v => exact absurd rfl (hcl v)
  have hp1 : ∀ p, t p ≠ 0 → ptrOf (t p) = p + 1 := by
    intro p hz
    rcases hc p with ⟨h0, -⟩ | ⟨k, v, h1, -⟩
    · exact absurd h0 hz
    · rw [h1, ptrOf_mkWord]
  refine ⟨⟨s.E, t, s.n, s.version⟩, H, ⟨rfl, rfl, rfl, ?_, fun _ _ _ => id, ?_, fun _ hx => hx.elim, ?_⟩⟩
  · intro p hp
    rcases hc p with h0 | ⟨k, v, h1, h2⟩
    · exact .inl h0
    · refine .inr ⟨p + 1, k, v, by omega, h1, ?_, h2⟩
      have : ¬ (p + 1 = 0 ∨ s.E.M.total < p + 1) := by omega
      simp only [H, this, if_false, Nat.add_sub_cancel, h2, Cell.liveCell]
  · intro p q _ _ hzp hzq he
    have e1 : p + 1 = q + 1 := by rw [← hp1 p hzp, ← hp1 q hzq]; exact he
    omega
  · intro a x hx
    refine .inr ?_
    simp only [H] at hx
    split at hx
    · cases hx
    · rename_i ha
      obtain ⟨p, rfl⟩ : ∃ p, a = p + 1 := ⟨a - 1, by omega⟩
      have hz : t p ≠ 0 := by
        rcases hc p with ⟨-, h0⟩ | ⟨k, v, h1, -⟩
        · simp only [Nat.add_sub_cancel, h0, Cell.emptyCell] at hx; cases hx
        · rw [h1]; exact mkWord_ne_zero (by omega) _
      exact ⟨p, by omega, hz, hp1 p hz⟩

/-- Tables with 512 slots and any number of elements below the growth threshold. -/
theorem SeqHeap.exValid (m : Nat) (hm : m ≤ 340) :
    ∃ T H, ∃ d : Dict Nat Nat, Valid T H d ∧ T.n = m ∧ T.E.M.total = 512 ∧
      (∀ k, m ≤ k → d k = none) ∧ ∀ k, k < m → d k = some (k + 7) := by
  have key : ∀ m, m ≤ 340 → ∃ s : SeqTable.St Nat Nat, ∃ d, SeqTable.Good s d ∧
      s.E = (SeqTable.St.new true true (fun x : Nat => x % 2 ^ 64) 9 : SeqTable.St Nat Nat).E ∧ s.n = m ∧
      (∀ p, (s.t p).marked = false) ∧ (∀ p, m ≤ p → s.t p = Cell.emptyCell) ∧
      (∀ k, m ≤ k → d k = none) ∧ ∀ k, k < m → d k = some (k + 7) := by
    intro m
    induction m with
    | zero =>
      intro _
      exact ⟨_, _, SeqTable.Good.new true (fun x => Nat.mod_lt _ (Nat.two_pow_pos 64)) (by omega) (by omega), rfl,
        rfl, fun _ => rfl, fun _ _ => rfl, fun _ _ => rfl, fun _ hk => absurd hk (Nat.not_lt_zero _)⟩
    | succ m ih =>
      intro hm
      obtain ⟨s, d, h1, h2, h3, h4, h5, h6, h7⟩ := ih (by omega)
      have hmap : s.E.M.map (s.E.h m) = m := by
        rw [h2]
        show (m % 2 ^ 64) &&& (2 ^ 9 - 1) = m
        rw [Nat.and_two_pow_sub_one_eq_mod]; omega
      have hrem : s.E.M.remap m = m := by
        rw [h2]
        show m &&& (2 ^ 9 - 1) = m
        rw [Nat.and_two_pow_sub_one_eq_mod]; omega
      have htot : s.E.M.total = 512 := by rw [h2]; rfl
      have hth : SeqTable.thresh s.E = 340 := by rw [SeqTable.thresh, htot]
      have hpass : Passed s.E s.t m m := by
        have := Passed.start s.E s.t m
        rwa [hmap] at this
      have g := h1.put_new (m + 7) hpass (by rw [hrem, htot]; omega) (by rw [hrem, h5 m (Nat.le_refl _)]; rfl)
        (by rw [hth, h3]; omega)
      rw [hrem] at g
      refine ⟨_, _, g, h2, by show s.n + 1 = m + 1; rw [h3], fun p => ?_, fun p hp => ?_, fun k hk => ?_,
        fun k hk => ?_⟩
      · show (Tbl.set s.t m _ p).marked = false
        unfold Tbl.set; split
        · rfl
        · exact h4 p
      · show Tbl.set s.t m _ p = _
        have : p ≠ m := by omega
        simp only [Tbl.set, this, if_false]
        exact h5 p (by omega)
      · have : k ≠ m := by omega
        simp only [Dict.put, this, if_false]
        exact h6 k (by omega)
      · by_cases hkm : k = m
        · simp [Dict.put, hkm]
        · simp only [Dict.put, hkm, if_false]
          exact h7 k (by omega)
  obtain ⟨s, d, h1, h2, h3, h4, h5, h6, h7⟩ := key m hm
  obtain ⟨T, H, ho⟩ := Own.of h1 h4
  exact ⟨T, H, d, ⟨s, h1, ho⟩, by rw [ho.n, h3], by rw [ho.E, h2]; rfl, h6, h7⟩

/-- `C58_erase_leaks` applies: a table with ten elements, one is erased. -/
example : ∃ T H, ∃ d : Dict Nat Nat, Valid T H d ∧ ∃ T' H' p H'' a,
    exec SeqHeap.exAlloc 1100 T H (.erase 4) = .ok (T', H', true, p) ∧ destroy T' H' = some H'' ∧
      H'' a = some (4, 11) := by
  obtain ⟨T, H, d, h, -, ht, -, h2⟩ := SeqHeap.exValid 10 (by omega)
  exact ⟨T, H, d, h, C58_erase_leaks SeqHeap.exAlloc_ok h (h2 4 (by omega)) (by omega)⟩

/-- `C59_growth_moves_all` applies: a table with 340 elements in 512 slots. -/
example : ∃ T H, ∃ d : Dict Nat Nat, Valid T H d ∧ d 1000 = none ∧ d 339 = some 346 ∧
    T.n + 1 > SeqTable.thresh T.E ∧ T.n + 1 < 2 ^ 40 ∧ 2 * T.E.M.total + 2 ≤ 2000 := by
  obtain ⟨T, H, d, h, hn, ht, h1, h2⟩ := SeqHeap.exValid 340 (by omega)
  exact ⟨T, H, d, h, h1 _ (by omega), h2 _ (by omega), by rw [SeqTable.thresh, ht, hn]; omega, by omega,
    by omega⟩

/-- `C59_addresses_stay_partial` applies, and the call does not grow the table. -/
example : ∃ T H, ∃ d : Dict Nat Nat, Valid T H d ∧ d 99 = some 106 ∧ T.n + 1 ≤ SeqTable.thresh T.E ∧
    T.E.M.total + 4 * (T.n + 1) + 2 ≤ 1000 ∧ T.n + 1 < 2 ^ 40 := by
  obtain ⟨T, H, d, h, hn, ht, h1, h2⟩ := SeqHeap.exValid 100 (by omega)
  exact ⟨T, H, d, h, h2 _ (by omega), by rw [SeqTable.thresh, ht, hn]; omega, by omega, by omega⟩

/-- `table[3] = 2621440` (which is `40 * 2^16`) in the run above: the element 3 keeps its value 31, the
word of the slot behind it - of the element 515 - is overwritten, and the destructor frees block 40, which
nobody has allocated. (example, no code) -/
def SeqHeap.exIndex : Option (Tab Nat × Heap Nat Nat) :=
  exRun.bind fun x => match indexAssign exAlloc 600 x.1 x.2.1 3 2621440 with
    | .ok y => some y
    | _ => none

example : SeqHeap.exIndex.map (fun x => (x.2 1, x.1.t 4, (destroy x.1 x.2).isNone)) =
    some (some (3, 31), 2621440, true) := by decide +kernel

end
end Growt
