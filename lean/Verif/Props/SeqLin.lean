import Verif.SeqLin

/-!
# Properties of the sequential table (C45, C46)
-/

set_option linter.unusedSectionVars false

namespace Growt
section
variable {K V : Type} [DecidableEq K] [DecidableEq V] [Inhabited V]
open SeqTable

/-! ## C45 -/

/-- The call of the ideal map. (specification, no code) -/
def SeqTable.Op.toSpec : SeqTable.Op K V → SOp K V
  | .find k => .find k
  | .insert k d => .insert k d
  | .update k u => .modify k fun w => (u.upd w, u.upd w)
  | .insertOrUpdate k d u => .insertOrModify k d fun w => (u.upd w, u.upd w)
  | .erase k => .erase k

/-- Not a call of `erase`. (specification, no code) -/
def SeqTable.Op.noErase : SeqTable.Op K V → Bool
  | .erase _ => false
  | _ => true

/-- Execution of a sequence of calls on an ideal map, with the results. (specification, no code) -/
def SOp.semAll : List (SOp K V) → Dict K V → Dict K V × List (SRes V)
  | [], d => (d, [])
  | op :: ops, d => ((SOp.semAll ops (op.sem d).1).1, (op.sem d).2 :: (SOp.semAll ops (op.sem d).1).2)

theorem SeqTable.exec_good {s : St K V} {d : Dict K V} (h : Good s d) (op : SeqTable.Op K V)
    (hop : op.noErase = true) {f B : Nat}
    (hB : s.E.M.total ≤ B) (hB' : 4 * (s.n + 1) ≤ B) (hn : s.n + 1 < 2 ^ 40) (hf : B + 2 ≤ f) :
    ∃ s', exec f s op = .ok (s', (op.toSpec.sem d).2) ∧ Good s' (op.toSpec.sem d).1 ∧
      s'.E.M.total ≤ B ∧ s'.n ≤ s.n + 1 := by
  cases op with
  | find k =>
    refine ⟨s, ?_, h, hB, Nat.le_succ _⟩
    rcases h.probe k (f := f) (by omega) with ⟨j, w, h1, h2, h3, h4⟩ | ⟨j, h1, h2, h3, h4, h5⟩
    · simp [exec, SeqTable.find, h4, SeqTable.Op.toSpec, SOp.sem, h3, Cell.val?, h2]
    · simp [exec, SeqTable.find, h5, SeqTable.Op.toSpec, SOp.sem, h4]
  | insert k v =>
    obtain ⟨s', h1, h2, -, h4, h5⟩ := insert_good h k v hB hB' hn hf
    exact ⟨s', h1, h2, h4, h5⟩
  | update k u =>
    rcases h.probe k (f := f) (by omega) with ⟨j, w, h1, h2, h3, h4⟩ | ⟨j, h1, h2, h3, h4, h5⟩
    · obtain ⟨g1, g2⟩ := h.update u h1 h2
      refine ⟨{ s with t := s.t.set (s.E.M.remap j) (nonAtomicUpdate k (s.t (s.E.M.remap j)) u).1 },
        ?_, ?_, hB, Nat.le_succ _⟩
      · simp only [exec, SeqTable.update, h4, SeqTable.Op.toSpec, SOp.sem, h3, g2]
      · simp only [SeqTable.Op.toSpec, SOp.sem, h3]; exact g1
    · refine ⟨s, ?_, ?_, hB, Nat.le_succ _⟩
      · simp only [exec, SeqTable.update, h5, SeqTable.Op.toSpec, SOp.sem, h4]
      · simp only [SeqTable.Op.toSpec, SOp.sem, h4]; exact h
  | insertOrUpdate k v u =>
    obtain ⟨s', h1, h2, -, h4, h5⟩ := insertOrUpdate_good h k v u hB hB' hn hf
    exact ⟨s', h1, h2, h4, h5⟩
  | erase k => cases hop

theorem SeqTable.execAll_good {f B : Nat} (hf : B + 2 ≤ f) : ∀ (ops : List (SeqTable.Op K V))
    (s : St K V) (d : Dict K V), Good s d → (∀ op ∈ ops, op.noErase = true) →
    s.E.M.total ≤ B → 4 * (s.n + ops.length) ≤ B → s.n + ops.length < 2 ^ 40 →
    ∃ s', execAll f s ops = .ok (s', (SOp.semAll (ops.map SeqTable.Op.toSpec) d).2) ∧
      Good s' (SOp.semAll (ops.map SeqTable.Op.toSpec) d).1 := by
  intro ops
  induction ops with
  | nil => intro s d h _ _ _ _; exact ⟨s, rfl, h⟩
  | cons op ops ih =>
    intro s d h hno hB hB' hn
    simp only [List.length_cons] at hB' hn
    obtain ⟨s1, h1, h2, h3, h4⟩ := exec_good h op (hno op (by simp)) hB (by omega) (by omega) hf
    obtain ⟨s2, g1, g2⟩ := ih s1 _ h2 (fun o ho => hno o (by simp [ho])) h3 (by omega) (by omega)
    exact ⟨s2, by simp only [execAll, h1, g1, List.map_cons, SOp.semAll], g2⟩

theorem SeqTable.Good.new (cm : Bool) {h : K → Nat} (hh : ∀ x, h x < 2 ^ 64) {k : Nat} (hk : 9 ≤ k)
    (hk' : k ≤ 63) : Good (St.new cm true h k : St K V) (fun _ => none) := by
  refine ⟨⟨⟨k, Mapper.wf_mk' hk hk'⟩, hh⟩, rfl, Inv.emptyTbl _, ?_, Stores.emptyTbl _, ?_, Nat.zero_le _⟩
  · intro p v; simp [St.new, emptyTbl, Cell.emptyCell]
  · simp [St.new, occupied_empty]

/-- **C45.**  Every sequence of find, insert, update and insert_or_update calls on a new sequential
table with circular probing completes without an access outside the allocation, returns exactly what
an ideal map returns, and leaves a table that stores exactly that map - for every hash function,
every initial size, any number of growth steps.  (Less than `2^40` calls: the size stays
representable.  The bound for `f` is the number of iterations that any loop may need.) -/
theorem C45_sequential_table_is_map (cm : Bool) {h : K → Nat} (hh : ∀ x, h x < 2 ^ 64) {k : Nat}
    (hk : 9 ≤ k) (hk' : k ≤ 63) (ops : List (SeqTable.Op K V)) (hno : ∀ op ∈ ops, op.noErase = true)
    (hfew : ops.length < 2 ^ 40) {f : Nat} (hf : 2 ^ k + 4 * ops.length + 2 ≤ f) :
    ∃ s', execAll f (St.new cm true h k) ops =
        .ok (s', (SOp.semAll (ops.map SeqTable.Op.toSpec) fun _ => none).2) ∧
      Stores s'.E s'.t (SOp.semAll (ops.map SeqTable.Op.toSpec) fun _ => none).1 := by
  have htot : (St.new cm true h k : St K V).E.M.total = 2 ^ k := by
    have hw : (Mapper.mk' cm true (2 ^ k) 0).WF k := Mapper.wf_mk' hk hk'
    show (Mapper.mk' cm true (2 ^ k) 0).total = _
    rw [hw.total_eq]; simp [Mapper.mk']
  obtain ⟨s', h1, h2⟩ := execAll_good (B := 2 ^ k + 4 * ops.length) hf ops _ _ (Good.new cm hh hk hk')
    hno (by rw [htot]; omega) (by simp only [St.new]; omega) (by simp only [St.new]; omega)
  exact ⟨s', h1, h2.stores⟩

/-! ## C46 -/

/-- **C46, the part that holds.**  If no probe sequence wraps around (the last slot is empty) and for
every stored key the hash value is its home slot, then `erase(k)` returns whether `k` was present,
afterwards the table stores the same elements without `k`, and `find` works for every key.
(Missing: tables without these two conditions, where the statement is false - see
`C46_erase_loses_key`, `C46_erase_moves_key`.) -/
theorem C46_erase_partial {s : St K V} {d : Dict K V} (hs : Good s d)
    (hlast : (s.t (s.E.M.total - 1)).c = .empty)
    (hraw : ∀ x v, d x = some v → s.E.h x = s.E.M.map (s.E.h x)) (k : K) {f : Nat}
    (hf : s.E.M.total + 1 ≤ f) :
    ∃ s', SeqTable.erase f s k = .ok (s', ⟨(d k).isSome, none⟩) ∧ Stores s'.E s'.t (d.del k) ∧
      ∀ x, SeqTable.find f s' x = .ok (s', ⟨(d.del k x).isSome, d.del k x⟩) := by
  have hfind : ∀ (t' : Tbl K V), Inv s.E t' → HasRoom s.E t' → Stores s.E t' (d.del k) →
      ∀ x, SeqTable.find f { s with t := t' } x =
        .ok ({ s with t := t' }, ⟨(d.del k x).isSome, d.del k x⟩) := by
    intro t' hI hr hst x
    rcases probe_ends hs.ok hI hr (k := x) f _ (Passed.start _ _ _) (by omega) with
      ⟨j, v, h1, h2, h3⟩ | ⟨j, h1, h2, h3, h4⟩
    · simp only [SeqTable.find, h3, hst.of_live h1 h2, Cell.val?, h2]; rfl
    · simp only [SeqTable.find, h4, hst.of_absent (fun p v hp => hI.absent h1 h3 hp)]; rfl
  rcases hs.probe k hf with ⟨j, w, h1, h2, h3, h4⟩ | ⟨j, h1, h2, h3, h4, h5⟩
  · have hH := Hole.start hs.ok hs.cp hs.inv hs.clean hlast
      (fun p x v hp hv => hraw x v ((hs.stores x v).2 ⟨p, hp, hv⟩)) h1 h2
    have hst : Stores s.E (s.t.set (s.E.M.remap j) Cell.emptyCell) (d.del k) := by
      apply hs.stores.del
      · intro a b hab; simp [Cell.emptyCell] at hab
      · exact ⟨w, h2⟩
      · intro q v hq hv; exact hs.inv.unique hq h1 hv h2
    obtain ⟨t', g1, g2, g3, g4, g5⟩ := eraseLoop_good hs.ok hs.cp f _ _ _ hH hst (by omega)
    obtain ⟨n, hw⟩ := hs.ok.wf
    have := hw.addr_pos; have := hw.addr_le_total
    refine ⟨{ s with t := t' }, by simp only [SeqTable.erase, h4, g1, h3]; rfl, g3, ?_⟩
    exact hfind t' g2 (fun _ => ⟨_, by omega, g5⟩) g3
  · have hdel : d.del k = d := by
      funext x; simp only [Dict.del]; split
      · rename_i hx; subst hx; exact h4.symm
      · rfl
    have hst : Stores s.E s.t (d.del k) := by rw [hdel]; exact hs.stores
    exact ⟨s, by simp only [SeqTable.erase, h5, h4]; rfl, hst, hfind s.t hs.inv hs.room hst⟩

/-- A run of `erase` that loses a key: `b` was inserted behind `a`, with a hash value above its home
slot. -/
theorem SeqTable.loses {M : Mapper} {h : K → Nat} {a b : K} (hab : a ≠ b) (x y : V) (f : Nat)
    {p q r : Nat} (ha : M.map (h a) = p) (hb : M.map (h b) = p) (hp : M.remap p = p)
    (hq : M.remap (p + 1) = q) (hr : M.remap (p + 1 + 1) = r) (hpt : p < M.total) (hqt : q < M.total)
    (hrt : r < M.total) (hpq : q ≠ p) (hpr : r ≠ p) (hqr : r ≠ q) (hraw : ¬ h b ≤ p)
    (h2 : 2 ≤ M.total * 666 / 1000) :
    ∃ s' : St K V, execAll (f + 2) ⟨⟨M, h, false⟩, emptyTbl, 0, 0⟩
        [.insert a x, .insert b y, .erase a, .find b] =
      .ok (s', [⟨true, some x⟩, ⟨true, some y⟩, ⟨true, none⟩, ⟨false, none⟩]) := by
  have e1 : ¬ 1 > M.total * 666 / 1000 := by omega
  have e2 : ¬ 2 > M.total * 666 / 1000 := by omega
  have hpq' : p ≠ q := Ne.symm hpq
  simp [execAll, exec, SeqTable.insert, SeqTable.find, SeqTable.erase, eraseLoop, probe, thresh, ha, hb,
    hp, hq, hr, hpt, hqt, hrt, hpq, hpr, hqr, hpq', hraw, emptyTbl, Tbl.set, Cell.emptyCell, Cell.liveCell,
    Cell.hasKey, Cell.isEmpty, hab, e1, e2]

/-- A run of `erase` that moves a key away from its home: the slot of `a` is the last one, the slot
of `b` the first one. -/
theorem SeqTable.moves {M : Mapper} {h : K → Nat} {a b : K} (x y : V) (f : Nat)
    {p : Nat} (ha : M.map (h a) = p) (hb : M.map (h b) = 0) (hp : M.remap p = p)
    (h0 : M.remap 0 = 0) (h1 : M.remap 1 = 1) (hq : M.remap (p + 1) = 0) (hpt : p < M.total)
    (h1p : 1 < p) (hraw : h b ≤ p) (h2 : 2 ≤ M.total * 666 / 1000) :
    ∃ s' : St K V, execAll (f + 2) ⟨⟨M, h, false⟩, emptyTbl, 0, 0⟩
        [.insert a x, .insert b y, .erase a, .find b] =
      .ok (s', [⟨true, some x⟩, ⟨true, some y⟩, ⟨true, none⟩, ⟨false, none⟩]) := by
  have e1 : ¬ 1 > M.total * 666 / 1000 := by omega
  have e2 : ¬ 2 > M.total * 666 / 1000 := by omega
  have g1 : p ≠ 0 := by omega
  have g2 : 0 ≠ p := by omega
  have g3 : 1 ≠ p := by omega
  have g4 : 0 < M.total := by omega
  have g5 : 1 < M.total := by omega
  simp [execAll, exec, SeqTable.insert, SeqTable.find, SeqTable.erase, eraseLoop, probe, thresh, ha, hb,
    hp, hq, h0, h1, hpt, g1, g2, g3, g4, g5, hraw, emptyTbl, Tbl.set, Cell.emptyCell, Cell.liveCell,
    Cell.hasKey, Cell.isEmpty, e1, e2]

/-- **C46 is violated.**  On a table with linear mapping (the default configuration), whenever two
different keys have the same hash value, not 0: after inserting both and erasing the first, the
second is not found.  (`erase` compares the hash value, not the home slot, with the number of the
freed slot.) -/
theorem C46_erase_loses_key {h : K → Nat} (hh : ∀ x, h x < 2 ^ 64) {k : Nat} (hk : 9 ≤ k)
    (hk' : k ≤ 63) {a b : K} (hab : a ≠ b) (heq : h a = h b) (h0 : h a ≠ 0) (x y : V) {f : Nat}
    (hf : 2 ≤ f) :
    ∃ s' : St K V, execAll f (St.new false true h k) [.insert a x, .insert b y, .erase a, .find b] =
      .ok (s', [⟨true, some x⟩, ⟨true, some y⟩, ⟨true, none⟩, ⟨false, none⟩]) := by
  obtain ⟨f, rfl⟩ : ∃ g, f = g + 2 := ⟨f - 2, by omega⟩
  have hw : (Mapper.mk' false true (2 ^ k) 0).WF k := Mapper.wf_mk' hk hk'
  have hcp : (Mapper.mk' false true (2 ^ k) 0).cp = true := rfl
  have h512 : 2 ^ 9 ≤ 2 ^ k := Nat.pow_le_pow_right (by omega) hk
  have htot : (Mapper.mk' false true (2 ^ k) 0).total = 2 ^ k := by rw [hw.total_eq]; simp
  have hma : (Mapper.mk' false true (2 ^ k) 0).map (h a) < (Mapper.mk' false true (2 ^ k) 0).total :=
    Nat.lt_of_lt_of_le (hw.map_lt (hh a)) hw.addr_le_total
  have hne : ∀ c i, c < 2 ^ k → 0 < i → i < 2 ^ k → (c + i) % 2 ^ k ≠ c := by
    intro c i h1 h2 h3 h4
    by_cases h5 : c + i < 2 ^ k
    · rw [Nat.mod_eq_of_lt h5] at h4; omega
    · rw [Nat.mod_eq_sub_mod (by omega), Nat.mod_eq_of_lt (by omega)] at h4; omega
  refine loses hab x y f rfl (by rw [heq]) (remap_small hw hcp hma) rfl rfl hma
    (hw.remap_lt_cp hcp _) (hw.remap_lt_cp hcp _) ?_ ?_ ?_ ?_ (by rw [htot]; omega)
  · rw [hw.remap_cp hcp]; exact hne _ 1 (by omega) (by omega) (by omega)
  · rw [hw.remap_cp hcp]; exact hne _ 2 (by omega) (by omega) (by omega)
  · rw [hw.remap_cp hcp, hw.remap_cp hcp]
    intro he
    apply hne (((Mapper.mk' false true (2 ^ k) 0).map (h a) + 1) % 2 ^ k) 1
      (Nat.mod_lt _ (by omega)) (by omega) (by omega)
    rw [Nat.add_mod, Nat.mod_mod, ← Nat.add_mod]
    exact he
  · rw [hw.map_lin rfl, heq]
    rw [heq] at h0
    have : 2 ^ 1 ≤ 2 ^ (64 - k) := Nat.pow_le_pow_right (by omega) (by omega)
    have := Nat.div_lt_self (Nat.pos_of_ne_zero h0) (show 1 < 2 ^ (64 - k) by omega)
    omega

/-- **C46 is violated** also when hash values are home slots, by wrapping around: `a` in the last
slot, `b` (with another home) in the first.  Erasing `a` moves `b` to the last slot, where it is not
found. -/
theorem C46_erase_moves_key {h : K → Nat} {k : Nat} (hk : 9 ≤ k)
    (hk' : k ≤ 63) {a b : K} (ha : h a = 2 ^ k - 1) (hb : h b = 0) (x y : V) {f : Nat}
    (hf : 2 ≤ f) :
    ∃ s' : St K V, execAll f (St.new true true h k) [.insert a x, .insert b y, .erase a, .find b] =
      .ok (s', [⟨true, some x⟩, ⟨true, some y⟩, ⟨true, none⟩, ⟨false, none⟩]) := by
  obtain ⟨f, rfl⟩ : ∃ g, f = g + 2 := ⟨f - 2, by omega⟩
  have hw : (Mapper.mk' true true (2 ^ k) 0).WF k := Mapper.wf_mk' hk hk'
  have hcp : (Mapper.mk' true true (2 ^ k) 0).cp = true := rfl
  have h512 : 2 ^ 9 ≤ 2 ^ k := Nat.pow_le_pow_right (by omega) hk
  have htot : (Mapper.mk' true true (2 ^ k) 0).total = 2 ^ k := by rw [hw.total_eq]; simp
  refine moves x y f (p := 2 ^ k - 1) ?_ ?_ ?_ ?_ ?_ ?_ (by omega) (by omega) (by omega)
    (by rw [htot]; omega)
  · rw [hw.map_cyc rfl, ha, Nat.mod_eq_of_lt (by omega)]
  · rw [hw.map_cyc rfl, hb]; exact Nat.zero_mod _
  · exact remap_small hw hcp (by omega)
  · exact remap_small hw hcp (by omega)
  · exact remap_small hw hcp (by omega)
  · rw [hw.remap_cp hcp, Nat.sub_add_cancel (by omega), Nat.mod_self]

/-- The ideal map would have found the key. -/
example : (SOp.semAll [.insert 1 10, .insert 2 20, .erase 1, .find 2]
    (fun _ => none : Dict Nat Nat)).2 = [⟨true, some 10⟩, ⟨true, some 20⟩, ⟨true, none⟩, ⟨true, some 20⟩] := by
  decide

/-! ## The hypotheses can be met -/

/-- C45 applies to runs that grow: 400 insertions into 512 slots exceed the threshold 340. -/
example : ∃ s', execAll 3000 (St.new false true (fun x : Nat => x * 2 ^ 40 % 2 ^ 64) 9)
      ((List.range 400).map fun i => SeqTable.Op.insert i (i + 1)) =
        .ok (s', (SOp.semAll (((List.range 400).map fun i => SeqTable.Op.insert i (i + 1)).map
          SeqTable.Op.toSpec) fun _ => none).2) ∧
      Stores s'.E s'.t (SOp.semAll (((List.range 400).map fun i => SeqTable.Op.insert i (i + 1)).map
          SeqTable.Op.toSpec) fun _ => none).1 :=
  C45_sequential_table_is_map false (fun x => Nat.mod_lt _ (Nat.two_pow_pos 64)) (by omega) (by omega) _
    (by simp [SeqTable.Op.noErase]) (by rw [List.length_map, List.length_range]; omega)
    (by rw [List.length_map, List.length_range]; omega)

/-- C46: two keys with the home 5; erasing the first moves the second back, and it is found. -/
example : ∃ s : St Nat Nat, ∃ s', (s.t 5).c = .live 1 10 ∧ (s.t 6).c = .live 2 20 ∧
    SeqTable.erase 600 s 1 = .ok (s', ⟨true, none⟩) ∧
    SeqTable.find 600 s' 2 = .ok (s', ⟨true, some 20⟩) ∧
    SeqTable.find 600 s' 1 = .ok (s', ⟨false, none⟩) := by
  have g0 : Good (St.new true true (fun _ => 5) 9 : St Nat Nat) (fun _ => none) :=
    Good.new true (fun _ => by omega) (by omega) (by omega)
  have g1 := g0.put_new (k := 1) (j := 5) 10 (Passed.start _ _ _) (by decide) rfl (by decide)
  have g2 := g1.put_new (k := 2) (j := 6) 20
    ⟨by decide, fun i h1 h2 => by
      have : i = 5 := by
        have : 5 ≤ i := h1
        omega
      subst this
      refine ⟨?_, ?_⟩
      · show (Cell.liveCell 1 10).c ≠ _
        simp [Cell.liveCell]
      · intro w hw
        have : (Cell.liveCell 1 10 : Cell Nat Nat).c = .live 2 w := hw
        simp [Cell.liveCell] at this⟩ (by decide) rfl (by decide)
  obtain ⟨s', h1, h2, h3⟩ := C46_erase_partial g2 rfl
    (fun _ _ _ => show 5 = (Mapper.mk' true true (2 ^ 9) 0).map 5 by decide) 1 (f := 600) (by decide)
  exact ⟨_, s', rfl, rfl, h1, h3 2, h3 1⟩

end
end Growt
