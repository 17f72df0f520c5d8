import Verif.MigIter
import Verif.SlotBits
import Verif.Props.Conc

/-!
# Properties of iterators, ranges and references (C10, C39-C44)
-/

set_option linter.unusedSectionVars false

namespace Growt
section
variable {K V : Type} [DecidableEq K] [DecidableEq V] [Inhabited V]

/-- The pairs shown by a sequence of presented copies. (specification, no code) -/
def pairs (l : List (Nat × Cell K V)) : List (Option (K × V)) := l.map fun x => shownPair x.2

/-- The list shows exactly the dictionary: only elements, no key twice, and exactly the pairs of
`d`. (specification, no code) -/
def Shows (l : List (Nat × Cell K V)) (d : Dict K V) : Prop :=
  ∃ es : List (K × V), pairs l = es.map some ∧ (es.map Prod.fst).Nodup ∧
    ∀ k v, (k, v) ∈ es ↔ d k = some v

theorem vis_elements {t : Tbl K V} (hn : NoMarks t) (a n : Nat) :
    ∃ es : List (K × V), pairs (vis t a n) = es.map some ∧
      (∀ k v, (k, v) ∈ es ↔ ∃ p, a ≤ p ∧ p < a + n ∧ (t p).c = .live k v) := by
  induction n generalizing a with
  | zero =>
    refine ⟨[], rfl, fun k v => ⟨by simp, ?_⟩⟩
    rintro ⟨p, h1, h2, _⟩; omega
  | succ n ih =>
    obtain ⟨es, h1, h2⟩ := ih (a + 1)
    rw [vis_cons]
    by_cases hp : presents (t a) = true
    · obtain ⟨k0, v0, hc⟩ := (presents_nomarks hn).1 hp
      refine ⟨(k0, v0) :: es, ?_, fun k v => ?_⟩
      · simp only [hp, if_true]
        simp only [pairs, List.cons_append, List.nil_append, List.map_cons] at h1 ⊢
        rw [h1]; simp [shownPair, hc]
      · simp only [List.mem_cons, h2]
        constructor
        · rintro (h | ⟨p, h3, h4, h5⟩)
          · cases h; exact ⟨a, by omega, by omega, hc⟩
          · exact ⟨p, by omega, by omega, h5⟩
        · rintro ⟨p, h3, h4, h5⟩
          by_cases hpa : p = a
          · subst hpa; rw [hc] at h5; cases h5; exact .inl rfl
          · exact .inr ⟨p, by omega, by omega, h5⟩
    · refine ⟨es, by simpa [hp] using h1, fun k v => ?_⟩
      rw [h2]
      constructor
      · rintro ⟨p, h3, h4, h5⟩; exact ⟨p, by omega, by omega, h5⟩
      · rintro ⟨p, h3, h4, h5⟩
        by_cases hpa : p = a
        · subst hpa; exact absurd ((presents_nomarks hn).2 ⟨k, v, h5⟩) hp
        · exact ⟨p, by omega, by omega, h5⟩

theorem vis_keys_nodup {E : Env K} {t : Tbl K V} (hI : Inv E t) (hn : NoMarks t) :
    ∀ n a, a + n ≤ E.M.total → ∀ es : List (K × V), pairs (vis t a n) = es.map some →
      (es.map Prod.fst).Nodup := by
  intro n
  induction n with
  | zero => intro a _ es h; cases es with
    | nil => simp
    | cons => simp [pairs, vis] at h
  | succ n ih =>
    intro a ha es h
    rw [vis_cons] at h
    by_cases hp : presents (t a) = true
    · obtain ⟨k0, v0, hc⟩ := (presents_nomarks hn).1 hp
      simp only [hp, if_true, pairs, List.cons_append, List.nil_append, List.map_cons] at h
      cases es with
      | nil => simp at h
      | cons e es =>
        simp only [List.map_cons, List.cons.injEq] at h
        obtain ⟨h0, h1⟩ := h
        have he : e = (k0, v0) := by
          simp [shownPair, hc] at h0; exact h0.symm
        subst he
        simp only [List.map_cons, List.nodup_cons]
        refine ⟨?_, ih (a + 1) (by omega) es h1⟩
        intro hmem
        obtain ⟨⟨k1, v1⟩, hm, hk⟩ := List.mem_map.1 hmem
        simp only at hk; subst hk
        obtain ⟨es', h3, h4⟩ := vis_elements hn (a + 1) n
        have hes : es' = es := by
          have h5 : es'.map some = es.map some := by rw [← h3, ← h1]; rfl
          exact List.map_inj_right (fun _ _ h => Option.some.inj h) |>.1 h5
        rw [← hes] at hm
        obtain ⟨p, h6, h7, h8⟩ := (h4 _ _).1 hm
        have := hI.unique (p := a) (q := p) (by omega) (by omega) hc h8
        omega
    · simp only [hp] at h
      exact ih (a + 1) (by omega) es (by simpa using h)

/-- **C39.**  On every table that satisfies the table invariant, iterating from `begin()` to `end()`
ends and shows exactly the stored elements, each exactly once. -/
theorem C39_iteration_exactly_once {E : Env K} {t : Tbl K V} (hI : Inv E t) (hn : NoMarks t)
    {d : Dict K V} (hs : Stores E t d) :
    ∃ l, BIt.walk t (E.M.total + 1) (BIt.begin E t) = some l ∧ Shows l d := by
  refine ⟨_, begin_spec E t _ (Nat.lt_succ_self _), ?_⟩
  obtain ⟨es, h1, h2⟩ := vis_elements hn 0 E.M.total
  refine ⟨es, h1, vis_keys_nodup hI hn _ _ (by omega) es h1, fun k v => ?_⟩
  rw [h2, hs k v]
  constructor
  · rintro ⟨p, -, h, h'⟩; exact ⟨p, by omega, h'⟩
  · rintro ⟨p, h, h'⟩; exact ⟨p, by omega, by omega, h'⟩

/-- **C39** after any sequence of calls by one thread. -/
theorem C39_after_calls {E : Env K} (hE : E.OK) (ops : List (Op K V))
    (hfew : E.M.cp = true → insertCalls ops < E.M.total) :
    ∃ l t' d', runOps E ops emptyTbl = some (l, t') ∧ Explained E.m (fun _ => none) l d' ∧
      ∃ seen, BIt.walk t' (E.M.total + 1) (BIt.begin E t') = some seen ∧ Shows seen d' := by
  obtain ⟨l, t', d', h1, -, h3, h4, h5, h6, -⟩ := runOps_good hE ops emptyTbl (fun _ => none)
    (Inv.emptyTbl E) (fun _ => rfl) (Stores.emptyTbl E)
    (by intro hc; rw [occupied_empty]; simpa using hfew hc)
  exact ⟨l, t', d', h1, h3, C39_iteration_exactly_once h5 h6 h4⟩

/-- **C39** after any concurrent execution (the iterating thread then works undisturbed). -/
theorem C39_after_concurrent {T : Type} [DecidableEq T] {E : Env K} (hE : E.OK) {ok : Op K V → Prop}
    (hmix : Mix E.m ok) {l : List (TEv T K V)} {s : CSt T K V}
    (h : Exec (CStep E ok) CSt.init l s) :
    ∃ d, Legal (boundedObj E.m) (fun _ => none) (effects l) d ∧
      ∃ seen, BIt.walk s.tbl (E.M.total + 1) (BIt.begin E s.tbl) = some seen ∧ Shows seen d := by
  obtain ⟨-, d, h1, h2⟩ := exec_explained hE hmix h
  have hI := CInv.reach hE hmix h
  exact ⟨d, h1, C39_iteration_exactly_once hI.inv hI.nomarks h2⟩

/-- **C40, one range**: iterating over `range(a, b)` ends - for all bounds, also beyond the
capacity - and yields exactly the presented slots with index from `a` up to and excluding `b`, in
increasing order without repetition, with the contents of these slots. -/
theorem C40_range_exact (E : Env K) (t : Tbl K V) (a b : Nat) :
    ∃ l, BIt.walk t (E.M.total + 1) (BIt.range E t a b) = some l ∧ (l.map Prod.fst).Nodup ∧
      ∀ p c, (p, c) ∈ l ↔ a ≤ p ∧ p < b ∧ p < E.M.total ∧ presents (t p) = true ∧ c = t p := by
  refine ⟨_, range_spec E t a b _ (Nat.lt_succ_self _), vis_pos_nodup _ _ _, fun p c => ?_⟩
  rw [mem_vis]
  simp only
  constructor
  · rintro ⟨h1, h2, h3, h4⟩; exact ⟨h1, by omega, by omega, h3, h4⟩
  · rintro ⟨h1, h2, h3, h4, h5⟩; exact ⟨h1, by omega, h4, h5⟩

/-- The ranges between consecutive cut points. (specification, no code) -/
def cuts (a : Nat) : List Nat → List (Nat × Nat)
  | [] => []
  | b :: l => (a, b) :: cuts b l

/-- Increasing cut points that end at or beyond `n`. (specification, no code) -/
def Covers (n : Nat) : Nat → List Nat → Prop
  | a, [] => n ≤ a
  | a, b :: l => a ≤ b ∧ Covers n b l

/-- **C40, partition**: the ranges between any increasing cut points `0 ≤ b₁ ≤ b₂ ≤ …` that reach
the capacity yield together exactly what the iteration from `begin()` to `end()` yields, in the
same order. -/
theorem C40_ranges_partition (E : Env K) (t : Tbl K V) (bs : List Nat)
    (hc : Covers E.M.total 0 bs) :
    ∃ ls l, (cuts 0 bs).mapM (fun r => BIt.walk t (E.M.total + 1) (BIt.range E t r.1 r.2)) = some ls ∧
      BIt.walk t (E.M.total + 1) (BIt.begin E t) = some l ∧ ls.flatten = l := by
  have key : ∀ bs a, Covers E.M.total a bs → ∃ ls,
      (cuts a bs).mapM (fun r => BIt.walk t (E.M.total + 1) (BIt.range E t r.1 r.2)) = some ls ∧
      ls.flatten = vis t a (E.M.total - a) := by
    intro bs
    induction bs with
    | nil =>
      intro a h
      have : E.M.total - a = 0 := by simp only [Covers] at h; omega
      exact ⟨[], rfl, by rw [this]; rfl⟩
    | cons b bs ih =>
      intro a h
      obtain ⟨hab, hb⟩ := h
      obtain ⟨ls, h1, h2⟩ := ih b hb
      refine ⟨vis t a (min b E.M.total - a) :: ls, ?_, ?_⟩
      · simp [cuts, List.mapM_cons, range_spec E t a b _ (Nat.lt_succ_self _), h1]
      · rw [List.flatten_cons, h2]
        by_cases hle : b ≤ E.M.total
        · have e1 : min b E.M.total - a = b - a := by omega
          have e2 : E.M.total - a = (b - a) + (E.M.total - b) := by omega
          have e3 : vis t b (E.M.total - b) = vis t (a + (b - a)) (E.M.total - b) := by
            congr 1; omega
          rw [e1, e2, e3, vis_append]
        · have e1 : min b E.M.total - a = E.M.total - a := by omega
          have e2 : E.M.total - b = 0 := by omega
          rw [e1, e2, vis_zero, List.append_nil]
  obtain ⟨ls, h1, h2⟩ := key bs 0 hc
  exact ⟨ls, _, h1, begin_spec E t _ (Nat.lt_succ_self _), by simpa using h2⟩

/-- **C41 (partial: no migration in progress).**  In every state of every concurrent execution, a
slot that an iterator would present holds an element that is in the map at that instant.
Missing: tables being migrated, where it is false. -/
theorem C41_presented_is_present_partial {T : Type} [DecidableEq T] {E : Env K} (hE : E.OK)
    {ok : Op K V → Prop} (hmix : Mix E.m ok) {l : List (TEv T K V)} {s : CSt T K V}
    (h : Exec (CStep E ok) CSt.init l s) :
    ∃ d, Legal (boundedObj E.m) (fun _ => none) (effects l) d ∧
      ∀ p, p < E.M.total → presents (s.tbl p) = true →
        ∃ k v, shownPair (s.tbl p) = some (k, v) ∧ d k = some v := by
  obtain ⟨-, d, h1, h2⟩ := exec_explained hE hmix h
  have hI := CInv.reach hE hmix h
  refine ⟨d, h1, fun p hp hpr => ?_⟩
  obtain ⟨k, v, hc⟩ := (presents_nomarks hI.nomarks).1 hpr
  exact ⟨k, v, by simp [shownPair, hc], (h2 k v).2 ⟨p, hp, hc⟩⟩

/-- **C41 (violated by the code)**: once a migration has marked the tombstone of an erased element,
iteration presents it, as an element with the tombstone key (`2^63 - 1`, or `2^31 - 1`). -/
theorem C41_marked_tombstone_presented (b : Nat) (hb : 1 ≤ b) :
    presents (Cell.deletedCell.mark : Cell K V) = true ∧
    (WSlot.deleted b : WSlot V).isDeleted b = true ∧
    ((WSlot.deleted b : WSlot V).marked b).isEmpty b = false ∧
    ((WSlot.deleted b : WSlot V).marked b).isDeleted b = false ∧
    ((WSlot.deleted b : WSlot V).marked b).getKey true b = 2 ^ b - 1 := by
  have h2 : 2 ≤ 2 ^ b := by simpa using Nat.pow_le_pow_right (n := 2) (by omega) hb
  have hlt : 2 ^ b - 1 < 2 ^ b := by omega
  refine ⟨rfl, by simp [WSlot.isDeleted, WSlot.deleted], ?_, ?_, ?_⟩
  · simp only [WSlot.marked, WSlot.deleted, WSlot.isEmpty, and_mask, or_bit_mod,
      Nat.mod_eq_of_lt hlt]
    simp; omega
  · simp only [WSlot.marked, WSlot.deleted, WSlot.isDeleted, or_bit hlt]
    simp
  · simp only [WSlot.marked, WSlot.deleted, WSlot.getKey, if_true, and_mask, or_bit_mod,
      Nat.mod_eq_of_lt hlt]

/-- **C41 (violated by the code), as an execution**: key 7 is inserted and erased; when a migration
marks its slot, `begin()` presents that slot. -/
theorem C41_erased_slot_presented :
    ∃ (l : List (Op Nat Nat × Ret Nat Nat)) (t : Tbl Nat Nat),
      runOps exM [.insert 7 70, .erase 7] emptyTbl = some (l, t) ∧
      presents (t 7) = false ∧ presents ((t.set 7 (t 7).mark) 7) = true ∧
      (t.set 7 (t 7).mark 7).c = .deleted 0 := by
  have h : ((runOps exM [.insert 7 70, .erase 7] (emptyTbl : Tbl Nat Nat)).map
      fun x => (presents (x.2 7), presents ((x.2.set 7 (x.2 7).mark) 7),
        decide ((x.2.set 7 (x.2 7).mark 7).c = .deleted 0))) = some (false, true, true) := by
    decide +kernel
  cases hr : runOps exM [.insert 7 70, .erase 7] (emptyTbl : Tbl Nat Nat) with
  | none => rw [hr] at h; cases h
  | some x =>
    rw [hr] at h
    simp only [Option.map_some, Option.some.injEq, Prod.mk.injEq, decide_eq_true_eq] at h
    exact ⟨x.1, x.2, rfl, h⟩

/-- **C42 (partial: the current element is still in the table).**  After any number of migrations, if
the key of the iterator's element is in the current table, incrementing the iterator leads to
`end()` or to a slot of the current table that holds an element.
Missing: the case that the element was erased in the meantime, where it is false. -/
theorem C42_increment_partial {T : VTbl K V} (hE : T.E.OK) (hI : Inv T.E T.tbl)
    (hn : NoMarks T.tbl) (hr : HasRoom T.E T.tbl) {i : MIt K V} {k : K}
    (hv : T.version ≠ i.version) (hk : keyOf i.it.copy = some k)
    (hpres : ∃ p v, p < T.E.M.total ∧ (T.tbl p).c = .live k v) :
    ∃ j, i.next T = some j ∧ (j.it.ptr = none ∨ ∃ q k' v', j.it.ptr = some q ∧ q < T.E.M.total ∧
      (T.tbl q).c = .live k' v' ∧ j.it.copy = T.tbl q) := by
  rcases lookup_good hE hI hr k with ⟨p, v, h1, h2, h3⟩ | ⟨-, h2⟩
  · simp only [MIt.next, MIt.refreshPtr, hv, if_false, hk, Option.bind_some, h1, BIt.next]
    refine ⟨_, rfl, ?_⟩
    simp only
    rcases advance_spec T.tbl T.E.M.total (T.E.M.total - (p + 1)) (p + 1) (T.tbl p) (by omega) with
      ⟨h4, -⟩ | ⟨q, h4, h5, h6, h7, h8⟩
    · left; simp [h4]
    · right
      have hmem : (q, T.tbl q) ∈ vis T.tbl (p + 1) (T.E.M.total - (p + 1)) := by
        rw [h8]; simp
      obtain ⟨k', v', hc⟩ := (presents_nomarks hn).1 (mem_vis.1 hmem).2.2.1
      refine ⟨q, k', v', ?_, h6, hc, h7⟩
      rw [h4]; simp; omega
  · obtain ⟨p, v, hp, hc⟩ := hpres
    exact absurd hc (h2 p v hp)

/-- **C42 (violated by the code)**: if the table was migrated and the iterator's element erased, then
incrementing the iterator is arithmetic on a null pointer - for every table and every such
iterator. -/
theorem C42_increment_after_erase {T : VTbl K V} (hE : T.E.OK) (hI : Inv T.E T.tbl)
    (hr : HasRoom T.E T.tbl) {i : MIt K V} (hv : T.version ≠ i.version)
    (habs : ∀ k, keyOf i.it.copy = some k → ∀ p v, p < T.E.M.total → (T.tbl p).c ≠ .live k v) :
    i.next T = none := by
  have : (keyOf i.it.copy).bind (lookup T.E T.tbl) = none := by
    cases hk : keyOf i.it.copy with
    | none => rfl
    | some k =>
      rcases lookup_good hE hI hr k with ⟨p, v, h1, h2, h3⟩ | ⟨h1, -⟩
      · exact absurd h3 (habs k hk p v h2)
      · exact h1
  simp [MIt.next, MIt.refreshPtr, hv, this, BIt.next, BIt.endIt]

/-- **C43 (partial: the element is unchanged).**  If the slot still holds what the iterator copied,
`erase()` returns at the first attempt and leaves a tombstone.  If a failed attempt refreshes the
copy (4 byte keys and values), it also returns once the slot is not changed between two attempts. -/
theorem C43_erase_terminates_partial (upd : Bool) (xs : Nat → Cell K V) (copy : Cell K V) :
    (xs 0 = copy → eraseLoop upd xs 1 0 copy = some 0 ∧
      (eraseIfUnchanged upd (xs 0) copy).1 = Cell.deletedCell) ∧
    (∀ n, xs n = xs (n + 1) → ∃ m, m ≤ n + 1 ∧ eraseLoop true xs (n + 2) 0 copy = some m) := by
  constructor
  · intro h; simp [eraseLoop, eraseIfUnchanged, casIt, h]
  · have key : ∀ n j c, xs (j + n) = xs (j + n + 1) →
        ∃ m, m ≤ j + n + 1 ∧ eraseLoop true xs (n + 2) j c = some m := by
      intro n
      induction n with
      | zero =>
        intro j c h
        by_cases h0 : xs j = c
        · exact ⟨j, by omega, by simp [eraseLoop, eraseIfUnchanged, casIt, h0]⟩
        · refine ⟨j + 1, by omega, ?_⟩
          have h1 : xs (j + 1) = xs j := by simpa using h.symm
          simp [eraseLoop, eraseIfUnchanged, casIt, h0, h1]
      | succ n ih =>
        intro j c h
        by_cases h0 : xs j = c
        · exact ⟨j, by omega, by simp [eraseLoop, eraseIfUnchanged, casIt, h0]⟩
        · obtain ⟨m, hm, h2⟩ := ih (j + 1) (xs j) (by
            have e1 : j + 1 + n = j + (n + 1) := by omega
            rw [e1]; exact h)
          refine ⟨m, by omega, ?_⟩
          rw [eraseLoop]
          simp [eraseIfUnchanged, casIt, h0, h2]
    intro n h
    obtain ⟨m, hm, h2⟩ := key n 0 copy (by simpa using h)
    exact ⟨m, by omega, h2⟩

/-- **C43 (violated by the code)**: on 8 byte keys and values, if the slot was changed once since the
iterator was created (and does not return to exactly the old content), `erase()` never returns. -/
theorem C43_erase_never_returns (xs : Nat → Cell K V) (copy : Cell K V) (h : ∀ n, xs n ≠ copy) :
    ∀ fuel n, eraseLoop false xs fuel n copy = none := by
  intro fuel
  induction fuel with
  | zero => intro n; rfl
  | succ f ih => intro n; simp [eraseLoop, eraseIfUnchanged, casIt, h n, ih]

/-- **C43 (violated by the code)**: `erase()` on an iterator of a growing table never returns, in no
state whatsoever - not even if it removed the element. -/
theorem C43_growing_erase_never_returns (upd : Bool) (T : Nat → VTbl K V) :
    ∀ fuel n (i : MIt K V), MIt.erase upd T fuel n i = none := by
  intro fuel
  induction fuel with
  | zero => intro n i; rfl
  | succ f ih => intro n i; exact ih _ _

/-- **C44 (partial: first attempt, tables that were not migrated since).**  `erase_if_unchanged` and
`compare_exchange` on an element succeed if and only if the slot holds exactly the key and value
(and mark) copied by the iterator; on success the element is removed, resp. has the new value, and the
slot is not marked; on failure nothing changes.
Missing: after a migration, and (4 byte keys and values) repeated attempts; both false. -/
theorem C44_conditional_partial (upd : Bool) (x copy : Cell K V) (val : V) {k : K} {v : V}
    (hc : copy.c = .live k v) :
    ((eraseIfUnchanged upd x copy).2.2 = true ↔ x = copy) ∧
    (x = copy → (eraseIfUnchanged upd x copy).1 = ⟨false, .deleted default⟩) ∧
    (x ≠ copy → (eraseIfUnchanged upd x copy).1 = x) ∧
    ∃ r, compareExchange upd x copy val = some r ∧ (r.2.2 = true ↔ x = copy) ∧
      (x = copy → r.1 = ⟨false, .live k val⟩) ∧ (x ≠ copy → r.1 = x) := by
  unfold eraseIfUnchanged compareExchange casIt
  rw [hc]
  refine ⟨?_, ?_, ?_, ?_⟩
  · split <;> simp_all
  · intro h; simp [h, Cell.deletedCell]
  · intro h; simp [h]
  · refine ⟨_, rfl, ?_, ?_, ?_⟩
    · by_cases h : x = copy <;> simp [h]
    · intro h; simp [h, Cell.liveCell]
    · intro h; simp [h]

/-- **C44 (violated by the code)**: with 4 byte keys and values a failed attempt silently refreshes
the copy, so that repeating it succeeds on the changed value. -/
theorem C44_second_attempt_succeeds (x copy : Cell K V) (h : x ≠ copy) :
    (eraseIfUnchanged true x copy).2.2 = false ∧
    (eraseIfUnchanged true x (eraseIfUnchanged true x copy).2.1).2.2 = true := by
  simp [eraseIfUnchanged, casIt, h]

/-- **C44 (violated by the code)**: after a migration, `erase_if_unchanged` and `compare_exchange` of
a growing table succeed whatever the value of the element is by then - for every table that
contains the key. -/
theorem C44_after_migration (upd : Bool) {T : VTbl K V} (hE : T.E.OK) (hI : Inv T.E T.tbl)
    (hr : HasRoom T.E T.tbl) {i : MIt K V} {k : K} (hv : T.version ≠ i.version)
    (hk : keyOf i.it.copy = some k) (hpres : ∃ p v, p < T.E.M.total ∧ (T.tbl p).c = .live k v) :
    (∃ t', i.eraseIfUnchanged upd T = some (t', true)) ∧
    ∀ val, ∃ t', i.compareExchange upd T val = some (t', true) := by
  rcases lookup_good hE hI hr k with ⟨p, v, h1, h2, h3⟩ | ⟨-, h2⟩
  · have hj : i.refreshPtr T = (⟨T.version, ⟨T.tbl p, some p, T.E.M.total⟩⟩, true) := by
      simp [MIt.refreshPtr, hv, hk, h1]
    constructor
    · have hk2 : keyOf (T.tbl p) = some k := by simp [keyOf, h3]
      simp [MIt.eraseIfUnchanged, hj, hk, hk2, eraseIfUnchanged, casIt]
    · intro val
      simp [MIt.compareExchange, hj, compareExchange, h3, casIt]
  · obtain ⟨p, v, hp, hc⟩ := hpres
    exact absurd hc (h2 p v hp)

/-- **C44 for growing tables (partial: tables that were not migrated since).**  As `C44_conditional_partial`, for the
iterators of growing tables: the slot to which the iterator points decides, and no other slot changes. -/
theorem C44_growing_partial (upd : Bool) {T : VTbl K V} {i : MIt K V} (hv : T.version = i.version) {p : Nat}
    (hp : i.it.ptr = some p) {k : K} {v : V} (hc : i.it.copy.c = .live k v) (val : V) :
    (T.tbl p = i.it.copy →
      i.eraseIfUnchanged upd T = some (T.tbl.set p ⟨false, .deleted default⟩, true) ∧
      i.compareExchange upd T val = some (T.tbl.set p ⟨false, .live k val⟩, true)) ∧
    (T.tbl p ≠ i.it.copy →
      i.eraseIfUnchanged upd T = some (T.tbl, false) ∧ i.compareExchange upd T val = some (T.tbl, false)) := by
  have hj : i.refreshPtr T = (i, false) := by simp [MIt.refreshPtr, hv]
  have hself : T.tbl.set p (T.tbl p) = T.tbl := by
    funext q
    by_cases hq : q = p <;> simp [Tbl.set, hq]
  constructor <;> intro h
  · simp [MIt.eraseIfUnchanged, MIt.compareExchange, hj, hp, eraseIfUnchanged, compareExchange, casIt, h, hc,
      Cell.deletedCell, Cell.liveCell]
  · simp [MIt.eraseIfUnchanged, MIt.compareExchange, hj, hp, eraseIfUnchanged, compareExchange, casIt, h, hc, hself]

/-- **C10 (partial: key present before, or slots without marks).**  Without concurrent access,
`handle[k] = v` stores `v` (or the insertion is refused because the probe sequence is full) if `k`
was present before or if the table's slots are not markable (synchronised growth).
Missing: asynchronous growth and absent key, where it is false. -/
theorem C10_bracket_assign_partial {E : Env K} (hE : E.OK) {t : Tbl K V} (hI : Inv E t)
    (hn : NoMarks t) (hr : HasRoom E t) {d : Dict K V} (hs : Stores E t d) (k : K) (v : V)
    (hcase : d k ≠ none ∨ E.m = false) :
    (∃ t', bracketAssign E t k v = some t' ∧ Stores E t' (d.put k v)) ∨
    (d k = none ∧ ∃ t', run E (.insert k default) (enough E)
      (start E (Op.insert k default : Op K V)) t = .done t' ⟨some .UNSUCCESS_FULL, none⟩) := by
  obtain ⟨t', r, hrun, h⟩ := insert_alone hE hI hn hr k default
  have hb : bracketAssign E t k v = match r.it with
      | some (p, c) => some (assignRef E.m k t' p c v)
      | none => none := by simp only [bracketAssign, hrun]; rfl
  rw [hb]
  rcases h with ⟨p, hp, he, rfl, rfl, habs⟩ | ⟨p, w, hp, hc, rfl, rfl⟩ | ⟨rfl, rfl, habs⟩
  · left
    refine ⟨_, rfl, ?_⟩
    have hdk : d k = none := hs.of_absent (fun q w hq => habs q w hq)
    have hm : E.m = false := by simpa [hdk] using hcase
    have hset : assignRef E.m k (t.set p (Cell.liveCell k default)) p Cell.emptyCell v
        = t.set p (Cell.liveCell k v) := by
      funext q
      by_cases hq : q = p <;>
        simp [assignRef, hm, atomicUpdate, overwriteFn, Tbl.set, hq, Cell.setMapped, Cell.liveCell]
    rw [hset]
    exact hs.put hp rfl (.inl (by rw [he]; rfl)) (fun q w hq hw => absurd hw (habs q w hq))
  · left
    refine ⟨_, rfl, ?_⟩
    have hset : assignRef E.m k t' p (t' p) v = t'.set p ⟨(t' p).marked, .live k v⟩ := by
      unfold assignRef
      congr 1
      cases hm : E.m <;> simp [atomicUpdate, overwriteFn, Cell.setMapped, hc]
    rw [hset]
    exact hs.put hp rfl (.inr ⟨w, hc⟩) (fun q w' hq hw => hI.unique hq hp hw hc)
  · right
    exact ⟨hs.of_absent (fun q w hq => habs q w hq), _, hrun⟩

/-- **C10 (violated by the code)**: with asynchronous growth (markable slots), for every table, every
absent key and every value, `handle[k] = v` leaves the default value stored, not `v`, if it
inserted the key. -/
theorem C10_bracket_assign_lost {E : Env K} (hE : E.OK) (hm : E.m = true) {t t' : Tbl K V}
    (hI : Inv E t) (hn : NoMarks t) (hr : HasRoom E t) {d : Dict K V} (hs : Stores E t d) (k : K)
    (v : V) (habs : d k = none) (hb : bracketAssign E t k v = some t') :
    Stores E t' (d.put k default) := by
  obtain ⟨t1, r, hrun, h⟩ := insert_alone hE hI hn hr k default
  simp only [bracketAssign, hrun] at hb
  rcases h with ⟨p, hp, he, rfl, rfl, ha⟩ | ⟨p, w, hp, hc, rfl, rfl⟩ | ⟨rfl, rfl, -⟩
  · simp only [Option.some.injEq] at hb
    subst hb
    have hset : assignRef E.m k (t.set p (Cell.liveCell k default)) p Cell.emptyCell v
        = t.set p (Cell.liveCell k default) := by
      funext q
      by_cases hq : q = p <;>
        simp [assignRef, hm, atomicUpdate, Tbl.set, hq, Cell.liveCell, Cell.emptyCell]
    rw [hset]
    exact hs.put hp rfl (.inl (by rw [he]; rfl)) (fun q w hq hw => absurd hw (ha q w hq))
  · have := hs.of_live hp hc
    simp [habs] at this
  · cases hb

end

/-! ## Concrete cases -/

/-- Calls that leave the elements 5 ↦ 50 and 9 ↦ 93 and a tombstone. (example, no code) -/
def exOps : List (Op Nat Nat) :=
  [.insert 5 50, .insert 7 70, .insert 9 90, .erase 7, .update 9 (incFn 3)]

/-- The table after these calls, on 512 + 1024 slots with or without markable slots. -/
theorem exTbl (E : Env Nat) (hE : E = exE ∨ E = exM) : ∃ l t d,
    runOps E exOps emptyTbl = some (l, t) ∧ Inv E t ∧ NoMarks t ∧ Stores E t d ∧ HasRoom E t := by
  have hok : E.OK := by rcases hE with rfl | rfl <;> first | exact exE_ok | exact exM_ok
  have hcp : E.M.cp = false := by rcases hE with rfl | rfl <;> rfl
  obtain ⟨l, t', d', h1, -, -, h4, h5, h6, -⟩ := runOps_good hok exOps emptyTbl (fun _ => none)
    (Inv.emptyTbl E) (fun _ => rfl) (Stores.emptyTbl E) (by intro h; rw [hcp] at h; cases h)
  exact ⟨l, t', d', h1, h5, h6, h4, by intro h; rw [hcp] at h; cases h⟩

/-- C39, C40: the iteration over that table yields the two elements; the range of the first eight
slots yields the first one, the remaining range the second one. -/
example : (runOps exE exOps emptyTbl).bind (fun x =>
    (BIt.walk x.2 1537 (BIt.begin exE x.2)).map fun l => l.map fun y => (y.1, shownPair y.2)) =
    some [(5, some (5, 50)), (9, some (9, 93))] := by
  decide +kernel

example : (runOps exE exOps emptyTbl).map (fun x =>
    ((BIt.walk x.2 1537 (BIt.range exE x.2 0 8)).map fun l => l.map fun y => y.1,
     (BIt.walk x.2 1537 (BIt.range exE x.2 8 5000)).map fun l => l.map fun y => y.1)) =
    some (some [5], some [9]) := by
  decide +kernel

example : Covers exE.M.total 0 [8, 700, 700, 1536] := by
  refine ⟨by decide, by decide, by decide, by decide, ?_⟩
  show exE.M.total ≤ 1536
  decide

/-- C42, C44: an iterator that was created at version 0 on the element 5 ↦ 40, while the current
table (version 1) holds 5 ↦ 50, meets the hypotheses; the element 7 was erased. -/
example : ∃ T : VTbl Nat Nat, T.E.OK ∧ Inv T.E T.tbl ∧ NoMarks T.tbl ∧ HasRoom T.E T.tbl ∧
    T.version ≠ (⟨0, ⟨Cell.liveCell 5 40, some 5, 1536⟩⟩ : MIt Nat Nat).version ∧
    keyOf (Cell.liveCell 5 40 : Cell Nat Nat) = some 5 ∧
    (∃ p v, p < T.E.M.total ∧ (T.tbl p).c = .live 5 v) ∧
    ∀ k, keyOf (Cell.liveCell 7 70 : Cell Nat Nat) = some k → ∀ p v, p < T.E.M.total →
      (T.tbl p).c ≠ .live k v := by
  obtain ⟨l, t, d, h1, h2, h3, h4, h5⟩ := exTbl exM (.inr rfl)
  have h : ((runOps exM exOps (emptyTbl : Tbl Nat Nat)).map fun x =>
      (decide ((x.2 5).c = .live 5 50),
       (lookup exM x.2 7).isNone)) = some (true, true) := by decide +kernel
  rw [h1] at h
  simp only [Option.map_some, Option.some.injEq, Prod.mk.injEq, decide_eq_true_eq] at h
  refine ⟨⟨exM, t, 1⟩, exM_ok, h2, h3, h5, Nat.one_ne_zero, rfl, ⟨5, 50, (by decide : 5 < exM.M.total), h.1⟩, ?_⟩
  intro k hk p v hp hc
  have hk7 : k = 7 := by simpa [keyOf, Cell.liveCell] using hk.symm
  subst hk7
  rcases lookup_good exM_ok h2 h5 7 with ⟨p, v, h6, -⟩ | ⟨-, h6⟩
  · rw [h6] at h; simp at h
  · exact h6 p v hp hc

/-- C10: on that table with markable slots `handle[6] = 60` leaves `6 ↦ 0`, `handle[5] = 60` works;
without markable slots both work. -/
example : (runOps exM exOps emptyTbl).map (fun x =>
      ((bracketAssign exM x.2 6 60).map fun t => (t 6).c, (bracketAssign exM x.2 5 60).map fun t => (t 5).c)) =
    some (some (.live 6 0), some (.live 5 60)) ∧
  (runOps exE exOps emptyTbl).map (fun x =>
      ((bracketAssign exE x.2 6 60).map fun t => (t 6).c, (bracketAssign exE x.2 5 60).map fun t => (t 5).c)) =
    some (some (.live 6 60), some (.live 5 60)) := by
  decide +kernel

/-- C44: an iterator on the element 5 ↦ 50 of a table that was not migrated meets the hypotheses; `compare_exchange`
succeeds with the right copy and fails with another one. -/
example : let T : VTbl Nat Nat := ⟨exM, fun p => if p = 5 then Cell.liveCell 5 50 else Cell.emptyCell, 1⟩
    let i : Nat → MIt Nat Nat := fun v => ⟨1, ⟨Cell.liveCell 5 v, some 5, 1536⟩⟩
    ((i 50).compareExchange false T 60).map (fun r => (r.1 5, r.2)) = some (Cell.liveCell 5 60, true) ∧
    ((i 40).compareExchange false T 60).map (fun r => (r.1 5, r.2)) = some (Cell.liveCell 5 50, false) := by
  decide +kernel

/-- C43: the slot was changed once, from value 1 to value 2, and then stays. -/
example : ∀ n, (fun _ => Cell.liveCell 5 2 : Nat → Cell Nat Nat) n ≠ Cell.liveCell 5 1 := by
  intro n; simp [Cell.liveCell]

end Growt
