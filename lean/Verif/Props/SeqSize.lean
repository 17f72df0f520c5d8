import Verif.Props.SeqLin

/-!
# The size of the sequential table (C88)

`_n_elem` counts insertions; `erase` (`data-structures/seq_linear.hpp:509-538`) does not decrement it.
-/

set_option linter.unusedSectionVars false

namespace Growt
namespace SeqTable
section
variable {K V : Type} [DecidableEq K] [DecidableEq V] [Inhabited V]

/-! ### Specification -/

/-- The list names exactly the keys of the map, each once. (specification, no code) -/
def KeysOf (d : Dict K V) (ks : List K) : Prop := ks.Nodup ∧ ∀ x, x ∈ ks ↔ (d x).isSome = true

/-- Insert and erase the same key `m` times. (specification, no code) -/
def churn (k : K) (v : V) : Nat → List (Op K V)
  | 0 => []
  | m + 1 => .insert k v :: .erase k :: churn k v m

/-! ### Proof -/

theorem KeysOf.put {d : Dict K V} {ks : List K} (h : KeysOf d ks) {k : K} (v : V) (hk : d k = none) :
    KeysOf (d.put k v) (k :: ks) := by
  refine ⟨List.nodup_cons.2 ⟨fun hm => ?_, h.1⟩, fun x => ?_⟩
  · have := (h.2 k).1 hm
    rw [hk] at this
    cases this
  · by_cases hx : x = k
    · subst hx; simp [Dict.put]
    · simp [Dict.put, hx, h.2 x]

theorem KeysOf.over {d : Dict K V} {ks : List K} (h : KeysOf d ks) {k : K} (v : V) {w : V} (hk : d k = some w) :
    KeysOf (d.put k v) ks := by
  refine ⟨h.1, fun x => ?_⟩
  by_cases hx : x = k
  · subst hx; simp [Dict.put, h.2 x, hk]
  · simp [Dict.put, hx, h.2 x]

/-- `insert`, with the number of elements and the size. -/
theorem insert_exact {s : St K V} {d : Dict K V} (h : Good s d) (k : K) (v : V) {f B : Nat}
    (hB : s.E.M.total ≤ B) (hB' : 4 * (s.n + 1) ≤ B) (hn : s.n + 1 < 2 ^ 40) (hf : B + 2 ≤ f) :
    ∃ s', SeqTable.insert f s k v = .ok (s', ((SOp.insert k v).sem d).2) ∧
      Good s' ((SOp.insert k v).sem d).1 ∧ s'.n = s.n + (if d k = none then 1 else 0) ∧
      s'.E.M.total ≤ max s.E.M.total (4 * s'.n) := by
  by_cases hsmall : d k = none → s.n + 1 ≤ thresh s.E
  · obtain ⟨s', h1, h2, h3, -, h5⟩ := insert_small h k v (f := f) (by omega) hsmall
    exact ⟨s', h1, h2, h5, by rw [h3]; omega⟩
  · have hd : d k = none := Classical.byContradiction fun hc => hsmall fun h => absurd h hc
    have hbig : s.n + 1 > thresh s.E := by
      apply Classical.byContradiction; intro hc; exact hsmall fun _ => by omega
    obtain ⟨f, rfl⟩ : ∃ g, f = g + 1 := ⟨f - 1, by omega⟩
    rcases h.probe k (f := f + 1) (by omega) with ⟨j, w, h1, h2, h3, h4⟩ | ⟨j, h1, h2, h3, h4, h5⟩
    · rw [hd] at h3; cases h3
    · have hle : s.E.M.total ≤ 2 * (s.n + 1) := by
        have : s.n + 1 > s.E.M.total * 666 / 1000 := hbig
        omega
      obtain ⟨tgt, g1, g2, g3, g4, g5, g6, g7⟩ := grow_good h (f := f) hbig hn (by omega)
      obtain ⟨s', i1, i2, i3, -, i5⟩ := insert_small g2 k v (f := f)
        (by show tgt.E.M.total + 1 ≤ f; omega) (fun _ => g5)
      have i5' : s'.n = s.n + (if d k = none then 1 else 0) := i5
      refine ⟨s', ?_, i2, i5', ?_⟩
      · simp only [SeqTable.insert, h5, hbig, if_true, g1, Nat.add_sub_cancel]
        exact i1
      · rw [i5', if_pos hd, i3]
        show tgt.E.M.total ≤ _
        omega

/-- `insert_or_update`, with the number of elements and the size. -/
theorem insertOrUpdate_exact {s : St K V} {d : Dict K V} (h : Good s d) (k : K) (v : V) (u : UpdFn V) {f B : Nat}
    (hB : s.E.M.total ≤ B) (hB' : 4 * (s.n + 1) ≤ B) (hn : s.n + 1 < 2 ^ 40) (hf : B + 2 ≤ f) :
    ∃ s', SeqTable.insertOrUpdate f s k v u =
        .ok (s', ((SOp.insertOrModify k v fun w => (u.upd w, u.upd w)).sem d).2) ∧
      Good s' ((SOp.insertOrModify k v fun w => (u.upd w, u.upd w)).sem d).1 ∧
      s'.n = s.n + (if d k = none then 1 else 0) ∧ s'.E.M.total ≤ max s.E.M.total (4 * s'.n) := by
  have small : ∀ {s : St K V} {d : Dict K V} {f : Nat}, Good s d → s.E.M.total + 1 ≤ f →
      (d k = none → s.n + 1 ≤ thresh s.E) →
      ∃ s', SeqTable.insertOrUpdate f s k v u =
          .ok (s', ((SOp.insertOrModify k v fun w => (u.upd w, u.upd w)).sem d).2) ∧
        Good s' ((SOp.insertOrModify k v fun w => (u.upd w, u.upd w)).sem d).1 ∧ s'.E = s.E ∧
        s'.n = s.n + (if d k = none then 1 else 0) := by
    intro s d f h hf hfew
    obtain ⟨f, rfl⟩ : ∃ g, f = g + 1 := ⟨f - 1, by omega⟩
    rcases h.probe k hf with ⟨j, w, h1, h2, h3, h4⟩ | ⟨j, h1, h2, h3, h4, h5⟩
    · obtain ⟨g1, g2⟩ := h.update u h1 h2
      refine ⟨{ s with t := s.t.set (s.E.M.remap j) (nonAtomicUpdate k (s.t (s.E.M.remap j)) u).1 }, ?_,
        (by simp only [SOp.sem, h3]; exact g1), rfl, by simp [h3]⟩
      simp only [SeqTable.insertOrUpdate, h4, SOp.sem, h3, g2]
    · have hn := hfew h4
      refine ⟨{ s with t := s.t.set (s.E.M.remap j) (Cell.liveCell k v), n := s.n + 1 }, ?_,
        (by simp only [SOp.sem, h4]; exact h.put_new v h1 h2 h3 hn), rfl, by simp [h4]⟩
      have : ¬ s.n + 1 > thresh s.E := by omega
      simp only [SeqTable.insertOrUpdate, h5, SOp.sem, h4, this, if_false]
  by_cases hsmall : d k = none → s.n + 1 ≤ thresh s.E
  · obtain ⟨s', h1, h2, h3, h5⟩ := small h (f := f) (by omega) hsmall
    exact ⟨s', h1, h2, h5, by rw [h3]; omega⟩
  · have hd : d k = none := Classical.byContradiction fun hc => hsmall fun h => absurd h hc
    have hbig : s.n + 1 > thresh s.E := by
      apply Classical.byContradiction; intro hc; exact hsmall fun _ => by omega
    obtain ⟨f, rfl⟩ : ∃ g, f = g + 1 := ⟨f - 1, by omega⟩
    rcases h.probe k (f := f + 1) (by omega) with ⟨j, w, h1, h2, h3, h4⟩ | ⟨j, h1, h2, h3, h4, h5⟩
    · rw [hd] at h3; cases h3
    · have hle : s.E.M.total ≤ 2 * (s.n + 1) := by
        have : s.n + 1 > s.E.M.total * 666 / 1000 := hbig
        omega
      obtain ⟨tgt, g1, g2, g3, g4, g5, g6, g7⟩ := grow_good h (f := f) hbig hn (by omega)
      obtain ⟨s', i1, i2, i3, i5⟩ := small g2 (f := f) (by show tgt.E.M.total + 1 ≤ f; omega) (fun _ => g5)
      have i5' : s'.n = s.n + (if d k = none then 1 else 0) := i5
      refine ⟨s', ?_, i2, i5', ?_⟩
      · simp only [SeqTable.insertOrUpdate, h5, hbig, if_true, g1, Nat.add_sub_cancel]
        exact i1
      · rw [i5', if_pos hd, i3]
        show tgt.E.M.total ≤ _
        omega

/-- One call without `erase`. -/
theorem exec_size {s : St K V} {d : Dict K V} (h : Good s d) {ks : List K} (hks : KeysOf d ks) (hlen : ks.length = s.n)
    (op : Op K V) (hop : op.noErase = true) {f B : Nat}
    (hB : s.E.M.total ≤ B) (hB' : 4 * (s.n + 1) ≤ B) (hn : s.n + 1 < 2 ^ 40) (hf : B + 2 ≤ f) :
    ∃ s' ks', exec f s op = .ok (s', (op.toSpec.sem d).2) ∧ Good s' (op.toSpec.sem d).1 ∧
      KeysOf (op.toSpec.sem d).1 ks' ∧ ks'.length = s'.n ∧ s.n ≤ s'.n ∧ s'.n ≤ s.n + 1 ∧
      s'.E.M.total ≤ max s.E.M.total (4 * s'.n) := by
  cases op with
  | find k =>
    refine ⟨s, ks, ?_, h, hks, hlen, Nat.le_refl _, Nat.le_succ _, by omega⟩
    rcases h.probe k (f := f) (by omega) with ⟨j, w, h1, h2, h3, h4⟩ | ⟨j, h1, h2, h3, h4, h5⟩
    · simp [exec, SeqTable.find, h4, Op.toSpec, SOp.sem, h3, Cell.val?, h2]
    · simp [exec, SeqTable.find, h5, Op.toSpec, SOp.sem, h4]
  | insert k v =>
    obtain ⟨s', h1, h2, h3, h4⟩ := insert_exact h k v hB hB' hn hf
    rcases Option.eq_none_or_eq_some (d k) with hd | ⟨w, hd⟩
    · simp only [hd, if_true] at h3
      refine ⟨s', k :: ks, h1, h2, ?_, by simp [hlen, h3], by omega, by omega, h4⟩
      simp only [Op.toSpec, SOp.sem, hd]
      exact hks.put v hd
    · simp only [hd, reduceCtorEq, if_false] at h3
      refine ⟨s', ks, h1, h2, ?_, by simp [hlen, h3], by omega, by omega, h4⟩
      simp only [Op.toSpec, SOp.sem, hd]
      exact hks
  | update k u =>
    rcases h.probe k (f := f) (by omega) with ⟨j, w, h1, h2, h3, h4⟩ | ⟨j, h1, h2, h3, h4, h5⟩
    · obtain ⟨g1, g2⟩ := h.update u h1 h2
      refine ⟨{ s with t := s.t.set (s.E.M.remap j) (nonAtomicUpdate k (s.t (s.E.M.remap j)) u).1 },
        ks, ?_, ?_, ?_, hlen, Nat.le_refl _, Nat.le_succ _, by show s.E.M.total ≤ _; omega⟩
      · simp only [exec, SeqTable.update, h4, Op.toSpec, SOp.sem, h3, g2]
      · simp only [Op.toSpec, SOp.sem, h3]; exact g1
      · simp only [Op.toSpec, SOp.sem, h3]; exact hks.over _ h3
    · refine ⟨s, ks, ?_, ?_, ?_, hlen, Nat.le_refl _, Nat.le_succ _, by omega⟩
      · simp only [exec, SeqTable.update, h5, Op.toSpec, SOp.sem, h4]
      · simp only [Op.toSpec, SOp.sem, h4]; exact h
      · simp only [Op.toSpec, SOp.sem, h4]; exact hks
  | insertOrUpdate k v u =>
    obtain ⟨s', h1, h2, h3, h4⟩ := insertOrUpdate_exact h k v u hB hB' hn hf
    rcases Option.eq_none_or_eq_some (d k) with hd | ⟨w, hd⟩
    · simp only [hd, if_true] at h3
      refine ⟨s', k :: ks, h1, h2, ?_, by simp [hlen, h3], by omega, by omega, h4⟩
      simp only [Op.toSpec, SOp.sem, hd]
      exact hks.put v hd
    · simp only [hd, reduceCtorEq, if_false] at h3
      refine ⟨s', ks, h1, h2, ?_, by simp [hlen, h3], by omega, by omega, h4⟩
      simp only [Op.toSpec, SOp.sem, hd]
      exact hks.over _ hd
  | erase k => cases hop

theorem execAll_size {f B : Nat} (hf : B + 2 ≤ f) : ∀ (ops : List (Op K V))
    (s : St K V) (d : Dict K V) (ks : List K), Good s d → KeysOf d ks → ks.length = s.n →
    (∀ op ∈ ops, op.noErase = true) →
    s.E.M.total ≤ B → 4 * (s.n + ops.length) ≤ B → s.n + ops.length < 2 ^ 40 →
    ∃ s' ks', execAll f s ops = .ok (s', (SOp.semAll (ops.map Op.toSpec) d).2) ∧
      KeysOf (SOp.semAll (ops.map Op.toSpec) d).1 ks' ∧ s.n ≤ ks'.length ∧
      s'.E.M.total ≤ max s.E.M.total (4 * ks'.length) := by
  intro ops
  induction ops with
  | nil => intro s d ks h hk hl _ _ _ _; exact ⟨s, ks, rfl, hk, by omega, by omega⟩
  | cons op ops ih =>
    intro s d ks h hk hl hno hB hB' hn
    simp only [List.length_cons] at hB' hn
    obtain ⟨s1, ks1, h1, h2, h3, h4, h5, h6, h7⟩ := exec_size h hk hl op (hno op (by simp)) hB (by omega) (by omega) hf
    obtain ⟨s2, ks2, g1, g2, g3, g4⟩ := ih s1 _ ks1 h2 h3 h4 (fun o ho => hno o (by simp [ho]))
      (by omega) (by omega) (by omega)
    exact ⟨s2, ks2, by simp only [execAll, h1, g1, List.map_cons, SOp.semAll], g2, by omega, by omega⟩

/-- **C88, the part that holds.**  After every sequence of calls other than `erase` the table has at most four slots per
element, or still its initial size - for every hash function and every initial size.  (Missing: sequences with `erase`,
where the statement is false, see `C88_erased_keys_count`.) -/
theorem C88_size_partial (cm : Bool) {h : K → Nat} (hh : ∀ x, h x < 2 ^ 64) {k : Nat}
    (hk : 9 ≤ k) (hk' : k ≤ 63) (ops : List (Op K V)) (hno : ∀ op ∈ ops, op.noErase = true)
    (hfew : ops.length < 2 ^ 40) {f : Nat} (hf : 2 ^ k + 4 * ops.length + 2 ≤ f) :
    ∃ s' ks, execAll f (St.new cm true h k) ops = .ok (s', (SOp.semAll (ops.map Op.toSpec) fun _ => none).2) ∧
      KeysOf (SOp.semAll (ops.map Op.toSpec) fun _ => none).1 ks ∧
      s'.E.M.total ≤ max (2 ^ k) (4 * ks.length) := by
  have htot : (St.new cm true h k : St K V).E.M.total = 2 ^ k := by
    have hw : (Mapper.mk' cm true (2 ^ k) 0).WF k := Mapper.wf_mk' hk hk'
    show (Mapper.mk' cm true (2 ^ k) 0).total = _
    rw [hw.total_eq]; simp [Mapper.mk']
  obtain ⟨s', ks, h1, h2, -, h4⟩ := execAll_size (B := 2 ^ k + 4 * ops.length) hf ops _ _ []
    (Good.new cm hh hk hk') ⟨List.nodup_nil, by simp⟩ rfl hno (by rw [htot]; omega) (by simp only [St.new]; omega)
    (by simp only [St.new]; omega)
  rw [htot] at h4
  exact ⟨s', ks, h1, h2, h4⟩

/-- Erasing the only element: the slots are empty, the counter keeps its value. -/
theorem erase_only {s : St K V} {d : Dict K V} (h : Good s d) {k : K} {v : V} (hd : d k = some v)
    (honly : ∀ x, x ≠ k → d x = none) {f : Nat} (hf : s.E.M.total + 1 ≤ f) :
    ∃ s', SeqTable.erase f s k = .ok (s', ⟨true, none⟩) ∧ Good s' (fun _ => none) ∧ s'.E = s.E ∧ s'.n = s.n := by
  rcases h.probe k hf with ⟨j, w, h1, h2, h3, h4⟩ | ⟨j, h1, h2, h3, h4, h5⟩
  · have hempty : ∀ q, q < s.E.M.total → ((s.t.set (s.E.M.remap j) Cell.emptyCell) q).c = .empty := by
      intro q hq
      unfold Tbl.set
      split
      · rfl
      · rename_i hne
        cases hc : (s.t q).c with
        | empty => rfl
        | deleted x => exact absurd hc (h.clean q x)
        | live x y =>
          have hx := (h.stores x y).2 ⟨q, hq, hc⟩
          have hxk : x = k := Classical.byContradiction fun hne => by rw [honly x hne] at hx; cases hx
          subst hxk
          exact absurd (h.inv.unique hq h1 hc h2) hne
    obtain ⟨n, hw⟩ := h.ok.wf
    have hlt := hw.remap_lt_cp h.cp (s.E.M.remap j + 1)
    obtain ⟨g, rfl⟩ : ∃ g, f = g + 1 := ⟨f - 1, by omega⟩
    refine ⟨{ s with t := s.t.set (s.E.M.remap j) Cell.emptyCell }, ?_, ⟨h.ok, h.cp, ⟨?_, ?_⟩, ?_, ?_, ?_, h.few⟩,
      rfl, rfl⟩
    · simp only [SeqTable.erase, h4, eraseLoop, hlt, if_true, hempty _ hlt]
    · intro p x y hp hc
      rw [hempty p hp] at hc
      cases hc
    · intro hc
      rw [h.cp] at hc
      cases hc
    · intro p x
      show ((s.t.set (s.E.M.remap j) Cell.emptyCell) p).c ≠ _
      unfold Tbl.set
      split
      · intro hc; cases hc
      · exact h.clean p x
    · intro x y
      refine ⟨fun hc => (by cases hc), ?_⟩
      rintro ⟨i, hi, hc⟩
      rw [hempty i hi] at hc
      cases hc
    · show occupied s.E.M.total (s.t.set (s.E.M.remap j) Cell.emptyCell) ≤ s.n
      have : occupied s.E.M.total (s.t.set (s.E.M.remap j) Cell.emptyCell) = 0 := by
        unfold occupied
        rw [List.countP_eq_zero]
        intro p hp
        simp [Cell.isEmpty, hempty p (List.mem_range.1 hp)]
      omega
  · rw [hd] at h4; cases h4

theorem churn_size {f B : Nat} (hf : B + 2 ≤ f) (k : K) (v : V) : ∀ (m : Nat) (s : St K V),
    Good s (fun _ => none) → s.E.M.total ≤ B → 4 * (s.n + m) ≤ B → s.n + m < 2 ^ 40 →
    ∃ s', execAll f s (churn k v m) = .ok (s', (SOp.semAll ((churn k v m).map Op.toSpec) fun _ => none).2) ∧
      (SOp.semAll ((churn k v m).map Op.toSpec) fun _ => none).1 = (fun _ => none) ∧
      Good s' (fun _ => none) ∧ s'.n = s.n + m := by
  intro m
  induction m with
  | zero => intro s h _ _ _; exact ⟨s, rfl, rfl, h, rfl⟩
  | succ m ih =>
    intro s h hB hB' hn
    obtain ⟨s1, h1, h2, h3, h4⟩ := insert_exact h k v hB (by omega) (by omega) hf
    simp only [SOp.sem, if_true] at h1 h2 h3
    obtain ⟨s2, g1, g2, g3, g4⟩ := erase_only h2 (k := k) (v := v) (by simp [Dict.put])
      (fun x hx => by simp [Dict.put, hx]) (f := f) (by omega)
    obtain ⟨s3, i1, i2, i3, i4⟩ := ih s2 g2 (by rw [g3]; omega) (by omega) (by omega)
    have hdel : (Dict.put (fun _ => none) k v : Dict K V).del k = fun _ => none := by
      funext x; simp only [Dict.del, Dict.put]; split <;> rfl
    have e1 : (SOp.semAll ((churn k v (m + 1)).map Op.toSpec) (fun _ => none : Dict K V)) =
        ((SOp.semAll ((churn k v m).map Op.toSpec) fun _ => none).1,
          ⟨true, some v⟩ :: ⟨true, none⟩ :: (SOp.semAll ((churn k v m).map Op.toSpec) fun _ => none).2) := by
      simp only [churn, List.map_cons, Op.toSpec, SOp.semAll, SOp.sem]
      rw [show (Dict.put (fun _ => none) k v : Dict K V) k = some v by simp [Dict.put]]
      simp only [hdel]
    refine ⟨s3, ?_, by rw [e1]; exact i2, i3, by omega⟩
    rw [e1]
    simp only [churn, execAll, exec, h1, g1, i1]

/-- **C88 is violated.**  Insert and erase one key `m` times: every call answers as on an ideal map, there is never more
than one element, in the end there is none - and the table has at least `1.5 m` slots.  (`erase` does not decrement
`_n_elem`.)  For every key, hash function, mapping and initial size. -/
theorem C88_erased_keys_count (cm : Bool) {h : K → Nat} (hh : ∀ x, h x < 2 ^ 64) {k : Nat}
    (hk : 9 ≤ k) (hk' : k ≤ 63) (x : K) (v : V) {m : Nat} (hm : m < 2 ^ 40) {f : Nat} (hf : 2 ^ k + 4 * m + 2 ≤ f) :
    ∃ s', execAll f (St.new cm true h k) (churn x v m) =
        .ok (s', (SOp.semAll ((churn x v m).map Op.toSpec) fun _ => none).2) ∧
      Stores s'.E s'.t (fun _ => none) ∧
      (SOp.semAll ((churn x v m).map Op.toSpec) fun _ => none).1 = (fun _ => none) ∧
      3 * m ≤ 2 * s'.E.M.total := by
  have htot : (St.new cm true h k : St K V).E.M.total = 2 ^ k := by
    have hw : (Mapper.mk' cm true (2 ^ k) 0).WF k := Mapper.wf_mk' hk hk'
    show (Mapper.mk' cm true (2 ^ k) 0).total = _
    rw [hw.total_eq]; simp [Mapper.mk']
  obtain ⟨s', h1, h2, h3, h4⟩ := churn_size (B := 2 ^ k + 4 * m) hf x v m _ (Good.new cm hh hk hk')
    (by rw [htot]; omega) (by simp only [St.new]; omega) (by simp only [St.new]; omega)
  refine ⟨s', h1, h3.stores, h2, ?_⟩
  have h5 := h3.few
  rw [h4] at h5
  simp only [St.new, thresh, Nat.zero_add] at h5
  omega

/-- A million insertions and erasures of one key in a table of 512 slots: at least 1500000 slots in the end. -/
theorem C88_not_vacuous : ∃ s', execAll 5000000 (St.new false true (fun x : Nat => x * 2 ^ 40 % 2 ^ 64) 9)
      (churn 7 70 1000000) = .ok (s', (SOp.semAll ((churn 7 70 1000000).map Op.toSpec) fun _ => none).2) ∧
    1500000 ≤ s'.E.M.total := by
  obtain ⟨s', h1, -, -, h4⟩ := C88_erased_keys_count (K := Nat) (V := Nat) false (h := fun x => x * 2 ^ 40 % 2 ^ 64)
    (fun x => Nat.mod_lt _ (Nat.two_pow_pos 64)) (k := 9) (by omega) (by omega) 7 70 (m := 1000000) (by omega)
    (f := 5000000) (by omega)
  exact ⟨s', h1, by omega⟩

/-- 400 insertions: the theorem gives at most 1600 slots. -/
example : ∃ s' ks, execAll 3000 (St.new false true (fun x : Nat => x * 2 ^ 40 % 2 ^ 64) 9)
      ((List.range 400).map fun i => Op.insert i (i + 1)) =
        .ok (s', (SOp.semAll (((List.range 400).map fun i => Op.insert i (i + 1)).map Op.toSpec) fun _ => none).2) ∧
      KeysOf (SOp.semAll (((List.range 400).map fun i => Op.insert i (i + 1)).map Op.toSpec) fun _ => none).1 ks ∧
      s'.E.M.total ≤ max (2 ^ 9) (4 * ks.length) :=
  C88_size_partial false (fun x => Nat.mod_lt _ (Nat.two_pow_pos 64)) (by omega) (by omega) _
    (by simp [Op.noErase]) (by rw [List.length_map, List.length_range]; omega)
    (by rw [List.length_map, List.length_range]; omega)

end
end SeqTable
end Growt
