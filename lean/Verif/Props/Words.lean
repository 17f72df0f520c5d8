import Verif.Torn
import Verif.Props.Conc

/-!
# Properties of the bounded table on machine words (C70) and of loads in two halves (C71)

`b = 63` is `simple_slot`, `b = 31` is `single_word_slot`.
-/

set_option linter.unusedSectionVars false

namespace Growt
namespace Words
section
variable {T V : Type} [DecidableEq T] [DecidableEq V] [Inhabited V]

/-! ## C70 -/

/-- **C70 (partial: without the key `2^b` on tables without marks).**  The bounded table on machine words, used by any
number of threads, is linearizable with respect to the ideal map on all legal keys: the results, and the key and
the value that every returned iterator shows, are those of the ideal map.
Missing: on tables without marks the key `2^b` (`C70_key_2_63_lost`), and keys both erased and updated (C05). -/
theorem C70_words_linearizable_partial {b : Nat} (hb : 1 ≤ b) {E : Env Nat} (hE : E.OK) {ok : Op Nat V → Prop}
    (hmix : Mix E.m ok) (hok : ∀ op, ok op → LegalKey E.m b op.key) {l : List (WEv T V)} {s : WSt T V}
    (h : Exec (WStep true b E ok) WSt.init l s) : Linearizable (wordObj E.m b) (visible l) :=
  linearizable_words hb hE hmix hok h

/-- **C70 for tables with marks**: all safe calls, all keys of the documentation. -/
theorem C70_words_markable {b : Nat} (hb : 1 ≤ b) {E : Env Nat} (hE : E.OK) (hm : E.m = true)
    {l : List (WEv T V)} {s : WSt T V}
    (h : Exec (WStep true b E fun op => op.isSafe ∧ 0 < op.key ∧ op.key < 2 ^ b ∧ op.key ≠ 2 ^ b - 1) WSt.init l s) :
    Linearizable (wordObj true b) (visible l) := by
  have := C70_words_linearizable_partial (ok := fun op => op.isSafe ∧ 0 < op.key ∧ op.key < 2 ^ b ∧ op.key ≠ 2 ^ b - 1)
    hb hE (by
      rw [hm]
      exact ⟨fun op h => mix_markable.safe op h.1, by simp⟩)
    (fun op h => by rw [hm]; exact ((C34_legal_keys b op.key).1).2 h.2) h
  rwa [hm] at this

/-- **C70**: at every time the words of the table are those of the cells of an execution of the table on cells (C02-C08)
with the same calls and results. -/
theorem C70_words_are_cells {b : Nat} (hb : 1 ≤ b) {E : Env Nat} (hE : E.OK) {ok : Op Nat V → Prop}
    (hmix : Mix E.m ok) (hok : ∀ op, ok op → LegalKey E.m b op.key) {l : List (WEv T V)} {s : WSt T V}
    (h : Exec (WStep true b E ok) WSt.init l s) :
    ∃ (l' : List (TEv T Nat V)) (s' : CSt T Nat V), Exec (CStep E ok) CSt.init l' s' ∧ l = l'.map (encEv b) ∧
      ∀ p, s.tbl p = encode b (s'.tbl p) ∧ LegalCell E.m b (s'.tbl p) := by
  obtain ⟨l', s', h1, h2, h3, -, h5⟩ := sim hb hE hmix hok h
  exact ⟨l', s', h1, h2, fun p => ⟨by rw [h3]; rfl, h5 p⟩⟩

/-- **C70, unsafe updates (partial: no concurrent access).**  `non_atomic_update` on the words of an element leaves
the words of the element with the new value, keeps the mark, and shows the key and the value returned by the
function.  Missing: concurrent calls, which race. -/
theorem C70_unsafe_partial {b : Nat} (hb : 1 ≤ b) {m : Bool} {c : Cell Nat V} (hc : LegalCell m b c) {k : Nat} {v : V}
    (hl : c.c = .live k v) (f : UpdFn V) :
    unsafeW m b (encode b c) f = (encode b ⟨c.marked, .live k (f.upd v)⟩, ⟨k, f.ret v⟩) := by
  have h1 := (layout_faithful hb hc).2.2.2.2.2 k v hl
  have h2 : (encode b c).data = v := by
    show c.mapped = v
    simp [Cell.mapped, hl]
  have h3 : encode b ⟨c.marked, .live k (f.upd v)⟩ = ⟨(encode b c).key, f.upd v⟩ := by
    have := encode_setMapped (b := b) (x := c) (by rw [hl]; intro h; cases h) (f.upd v)
    rw [← this]
    simp [Cell.setMapped, hl]
  unfold unsafeW
  rw [h1, h2, h3]

/-- The first slot of a key is inside the table and not too far away. -/
theorem home_slot {E : Env Nat} (hE : E.OK) (k : Nat) : E.M.remap (E.M.map (E.h k)) < E.M.total ∧
    tooFar E (E.M.remap (E.M.map (E.h k))) = false := by
  obtain ⟨n, hw⟩ := hE.wf
  have h1 := hw.map_lt (hE.hash k)
  have h2 := hw.addr_le_total
  refine ⟨?_, ?_⟩
  · cases hcp : E.M.cp
    · rw [Mapper.remap_lin hcp]; omega
    · exact hw.remap_lt_cp hcp _
  · unfold tooFar
    cases hcp : E.M.cp
    · rw [Mapper.remap_lin hcp]; simp; omega
    · rfl

/-- The slot in which a key is put first. (specification, no code) -/
def home (E : Env Nat) (k : Nat) : Nat := E.M.remap (E.M.map (E.h k))

/-- Insertion of any key in the empty table. -/
theorem first_insert_words {b : Nat} {E : Env Nat} (hE : E.OK) (k : Nat) (v : V) :
    stepW b E (.insert k v) (.load (E.M.map (E.h k)) 0) (fun _ => .empty) =
      ((fun _ => .empty), .cont (.act (E.M.map (E.h k)) 0 .empty)) ∧
    stepW b E (.insert k v) (.act (E.M.map (E.h k)) 0 .empty) (fun _ => .empty) =
      (WTbl.set (fun _ => .empty) (home E k) ⟨k, v⟩,
        .done ⟨some .SUCCESS_IN, some (home E k, .empty)⟩) := by
  obtain ⟨hp, hf⟩ := home_slot hE k
  have h1 : (WSlot.empty : WSlot V).isMarked E.m b = false := by
    cases E.m <;> simp [WSlot.isMarked, WSlot.empty]
  have h2 : (WSlot.empty : WSlot V).isEmpty b = true := by simp [WSlot.isEmpty, WSlot.empty]
  constructor
  · simp [stepW, hp, afterLoadW, hf, h1, h2]
  · simp [stepW, hp, actW, casW, home]

/-- **C70 (violated by the code)**: on a table without marks an insertion of the key `2^b` succeeds and is lost: the
same thread does not find it afterwards. -/
theorem C70_key_2_63_lost {b : Nat} {E : Env Nat} (hE : E.OK) {ok : Op Nat V → Prop}
    (v : V) (hok : ok (.insert (2 ^ b) v) ∧ ok (.find (2 ^ b))) (i : T) :
    ∃ (l : List (WEv T V)) (s : WSt T V), Exec (WStep true b E ok) WSt.init l s ∧
      visible l = [.call i (.insert (2 ^ b) v), .ret i (.insert (2 ^ b) v) ⟨some .SUCCESS_IN, some (home E (2 ^ b), .empty)⟩,
        .call i (.find (2 ^ b)), .ret i (.find (2 ^ b)) ⟨none, none⟩] ∧
      ¬ Linearizable (wordObj E.m b) (visible l) := by
  obtain ⟨hp, hf⟩ := home_slot hE (2 ^ b)
  obtain ⟨s1, s2⟩ := first_insert_words (b := b) hE (2 ^ b) v
  have s3 : stepW b E (.find (2 ^ b)) (.load (E.M.map (E.h (2 ^ b))) 0)
      (WTbl.set (fun _ => .empty) (home E (2 ^ b)) ⟨2 ^ b, v⟩) =
      (WTbl.set (fun _ => .empty) (home E (2 ^ b)) ⟨2 ^ b, v⟩, .done ⟨none, none⟩) := by
    have := C34_key_2_63_lost b v
    simp only [stepW, hp, if_true, afterLoadW, home, WTbl.set, this]
  have e1 : Exec (WStep true b E ok) (WSt.init : WSt T V) [.call i (.insert (2 ^ b) v)] _ := .vis .init (.call rfl hok.1)
  have e2 := Exec.silent e1 (.cont (i := i) (setAt_same _ _ _) s1)
  have e3 := Exec.vis e2 (.done (i := i) (setAt_same _ _ _) s2)
  have e4 := Exec.vis e3 (.ret (i := i) (setAt_same _ _ _))
  have e5 := Exec.vis e4 (.call (i := i) (setAt_same _ _ _) hok.2)
  have e6 := Exec.vis e5 (.done (i := i) (setAt_same _ _ _) s3)
  have e7 := Exec.vis e6 (.ret (i := i) (setAt_same _ _ _))
  refine ⟨_, _, e7, rfl, not_linearizable ?_⟩
  show NoLin (wordObj E.m b) _ _ [.call i (.insert (2 ^ b) v), .ret i (.insert (2 ^ b) v) ⟨some .SUCCESS_IN, some (home E (2 ^ b), .empty)⟩,
        .call i (.find (2 ^ b)), .ret i (.find (2 ^ b)) ⟨none, none⟩]
  refine .call (fun _ => ?_) (fun j o r d h => by simp at h)
  refine .ret (fun h => by simp at h) (fun j o r d h hl => ?_)
  by_cases hj : j = i
  · subst hj
    simp only [setAt_same, Phase.called.injEq] at h
    subst h
    -- the insertion has taken effect
    refine .ret (fun h => ?_) (fun j' o r d h => ?_)
    · simp only [setAt_same, Phase.effected.injEq, true_and] at h
      subst h
      have hd : d (2 ^ b) = some v := by
        rcases hl with ⟨rfl, -, -⟩ | ⟨c, -, h, -⟩
        · simp [Op.toSpec, SOp.sem, wordObj, Dict.put]
        · cases h
      refine .call (fun _ => ?_) (fun j' o r d h => ?_)
      · refine .ret (fun h => by simp at h) (fun j' o r d' h hl' => ?_)
        by_cases hj' : j' = j
        · subst hj'
          simp only [setAt_same, Phase.called.injEq] at h
          subst h
          refine .ret (fun h => ?_) (fun j2 o2 r2 d2 h => ?_)
          · simp only [setAt_same, Phase.effected.injEq, true_and] at h
            subst h
            exfalso
            rcases hl' with ⟨-, h2, -⟩ | ⟨c, h, -⟩
            · simp [Op.toSpec, SOp.sem, WRet.ok, hd] at h2
            · exact h
          · by_cases h2 : j2 = j'
            · subst h2; simp at h
            · simp [setAt_other h2] at h
        · simp [setAt_other hj'] at h
      · by_cases h2 : j' = j
        · subst h2; simp at h
        · simp [setAt_other h2] at h
    · by_cases h2 : j' = j
      · subst h2; simp at h
      · simp [setAt_other h2] at h
  · simp [setAt_other hj] at h

/-! ## C71 -/

/-- **C71 (partial: without the values shown by `find` and `insert`).**  Even if the halves of a slot
are loaded one after the other, in any order, the table is linearizable with respect to the ideal map: every
call reports success or failure rightly, every iterator shows the key of its call, and every update works on the
right value and shows it.  Missing: the values shown by `find` and by an unsuccessful `insert`
(`C71_torn_find`, `C71_torn_values`), and keys both erased and updated on tables without marks (C05). -/
theorem C71_torn_loads_partial {whole : Bool} {b : Nat} (hb : 1 ≤ b) {E : Env Nat} (hE : E.OK) {ok : Op Nat V → Prop}
    (hmix : Mix E.m ok) (hok : ∀ op, ok op → LegalKey E.m b op.key)
    {l : List (WEv T V)} {s : WSt T V} (h : Exec (WStep whole b E ok) WSt.init l s) :
    Linearizable (seenObj E.m) ((visible l).map (seeEv E.m b)) :=
  linearizable_torn hb hE hmix hok h

/-- **C71 for tables with marks**: all safe calls, all keys of the documentation. -/
theorem C71_torn_markable {whole : Bool} {b : Nat} (hb : 1 ≤ b) {E : Env Nat} (hE : E.OK) (hm : E.m = true)
    {l : List (WEv T V)} {s : WSt T V}
    (h : Exec (WStep whole b E fun op => op.isSafe ∧ 0 < op.key ∧ op.key < 2 ^ b ∧ op.key ≠ 2 ^ b - 1) WSt.init l s) :
    Linearizable (seenObj true) ((visible l).map (seeEv true b)) := by
  have := C71_torn_loads_partial (ok := fun op => op.isSafe ∧ 0 < op.key ∧ op.key < 2 ^ b ∧ op.key ≠ 2 ^ b - 1)
    hb hE (by
      rw [hm]
      exact ⟨fun op h => mix_markable.safe op h.1, by simp⟩)
    (fun op h => by rw [hm]; exact ((C34_legal_keys b op.key).1).2 h.2) h
  rwa [hm] at this

/-- **C71, the values**: `find(k)` and an unsuccessful `insert(k, _)` show the default value, or a value that `k` had in
the slot at some time during the call. -/
theorem C71_torn_values {whole : Bool} {b : Nat} (hb : 1 ≤ b) {E : Env Nat} (hE : E.OK) {ok : Op Nat V → Prop}
    (hmix : Mix E.m ok) (hok : ∀ op, ok op → LegalKey E.m b op.key)
    {l : List (WEv T V)} {s : WSt T V} (h : Exec (WStep whole b E ok) WSt.init l s) {i : T} {op : Op Nat V} {r : WRet V}
    (hi : s.thr i = .fin op r) (hop : (∃ k, op = .find k) ∨ (∃ k d, op = .insert k d) ∧ r.ok op = false)
    {p : Nat} {w : WSlot V} (hr : r.it = some (p, w)) :
    w.data = default ∨ ∃ (l1 l2 : List (WEv T V)) (s1 : WSt T V), l = l1 ++ l2 ∧
      Exec (WStep whole b E ok) WSt.init l1 s1 ∧ (∀ op', .call i op' ∉ l2) ∧ s1.tbl p = ⟨op.key, w.data⟩ := by
  obtain ⟨t, -, -, hV⟩ := torn_values hb hE hmix hok h
  have := hV i
  rw [hi] at this
  exact this hop p w hr

/-- In a linearizable history whose calls are lookups of `k` and insertions of `(k, v)`, lookups show only `v`. -/
theorem lin_finds {m : Bool} {b k : Nat} {v : V} {l : List (WEv T V)} {p q : T → Phase (Op Nat V) (WRet V)}
    {d d' : Dict Nat V} (hw : WellFormed p l q) (hl : Legal (wordObj m b) d (effects l) d')
    (hc : ∀ i o, Ev.call i o ∈ l → o = .find k ∨ o = .insert k v)
    (hp : ∀ i o, p i = .called o → o = .find k ∨ o = .insert k v) (hd : d k = none ∨ d k = some v)
    (he : ∀ i r, p i = .effected (.find k) r → ∀ x, r.shown m b = some x → x.2 = v) :
    ∀ i r, Ev.ret i (.find k) r ∈ l → ∀ x, r.shown m b = some x → x.2 = v := by
  induction hw generalizing d with
  | nil => intro i r h; simp at h
  | @call p q p' i o l h hq hf hw ih =>
    have hc' : ∀ j o, Ev.call j o ∈ l → o = .find k ∨ o = .insert k v := fun j o h => hc j o (List.mem_cons_of_mem _ h)
    intro j r hj
    refine ih hl hc' ?_ hd ?_ j r (by simpa using hj)
    · intro j' o' h'
      by_cases hji : j' = i
      · subst hji; rw [hq] at h'; cases h'; exact hc j' o (by simp)
      · rw [hf _ hji] at h'; exact hp j' o' h'
    · intro j' r' h'
      by_cases hji : j' = i
      · subst hji; rw [hq] at h'; cases h'
      · rw [hf _ hji] at h'; exact he j' r' h'
  | @lin p q p' i o r0 l h hq hf hw ih =>
    have hc' : ∀ j o, Ev.call j o ∈ l → o = .find k ∨ o = .insert k v := fun j o h => hc j o (List.mem_cons_of_mem _ h)
    intro j r hj
    cases hl with
    | @cons _ d1 _ _ _ _ hleg hl =>
      have hd1 : (d1 k = none ∨ d1 k = some v) ∧
          (o = .find k → ∀ x, r0.shown m b = some x → x.2 = v) := by
        rcases hp i o h with rfl | rfl
        · rcases hleg with ⟨rfl, -, h3⟩ | ⟨c, hm, -⟩
          · rcases h3 with ⟨⟨_, _, h3⟩, -⟩ | h3
            · cases h3
            · refine ⟨hd, fun _ x hx => ?_⟩
              rw [h3] at hx
              rcases hd with hd | hd <;> simp [Op.toSpec, SOp.sem, hd] at hx
              rw [← hx]
          · exact hm.elim
        · refine ⟨?_, fun h => by cases h⟩
          rcases hleg with ⟨rfl, -, -⟩ | ⟨c, -, -, rfl, -⟩
          · rcases hd with hd | hd <;> simp [Op.toSpec, SOp.sem, hd, Dict.put]
          · exact hd
      refine ih hl hc' ?_ hd1.1 ?_ j r (by simpa using hj)
      · intro j' o' h'
        by_cases hji : j' = i
        · subst hji; rw [hq] at h'; cases h'
        · rw [hf _ hji] at h'; exact hp j' o' h'
      · intro j' r' h'
        by_cases hji : j' = i
        · subst hji; rw [hq] at h'; cases h'; exact hd1.2 rfl
        · rw [hf _ hji] at h'; exact he j' r' h'
  | @ret p q p' i o r0 l h hq hf hw ih =>
    have hc' : ∀ j o, Ev.call j o ∈ l → o = .find k ∨ o = .insert k v := fun j o h => hc j o (List.mem_cons_of_mem _ h)
    intro j r hj
    rcases List.mem_cons.1 hj with hj | hj
    · cases hj
      exact he _ _ h
    · refine ih hl hc' ?_ hd ?_ j r hj
      · intro j' o' h'
        by_cases hji : j' = i
        · subst hji; rw [hq] at h'; cases h'
        · rw [hf _ hji] at h'; exact hp j' o' h'
      · intro j' r' h'
        by_cases hji : j' = i
        · subst hji; rw [hq] at h'; cases h'
        · rw [hf _ hji] at h'; exact he j' r' h'

theorem mem_visible_call {O R : Type} {l : List (Ev T O R)} {i : T} {o : O} (h : Ev.call i o ∈ l) :
    Ev.call i o ∈ visible l := by
  induction l with
  | nil => simp at h
  | cons e l ih =>
    rcases List.mem_cons.1 h with h' | h'
    · subst h'; simp [visible]
    · cases e <;> simp [visible, ih h']

theorem mem_of_visible {O R : Type} {l : List (Ev T O R)} {e : Ev T O R} (h : e ∈ visible l) : e ∈ l := by
  induction l with
  | nil => simp [visible] at h
  | cons e' l ih =>
    cases e' with
    | lin i o r => exact List.mem_cons_of_mem _ (ih h)
    | call i o =>
      rcases List.mem_cons.1 h with h | h
      · subst h; simp
      · exact List.mem_cons_of_mem _ (ih h)
    | ret i o r =>
      rcases List.mem_cons.1 h with h | h
      · subst h; simp
      · exact List.mem_cons_of_mem _ (ih h)

/-- **C71 (violated by the code if a load is not one access)**: in every table, for every legal key `k` and every value
`v` other than the default one, a lookup that meets the insertion of `(k, v)` can show the default value for `k`,
which nobody has ever stored. -/
theorem C71_torn_find {b : Nat} (hb : 1 ≤ b) {E : Env Nat} (hE : E.OK) {ok : Op Nat V → Prop} {k : Nat}
    (hk : LegalKey E.m b k) {v : V} (hv : v ≠ default) (hok : ok (.insert k v) ∧ ok (.find k)) {i j : T} (hij : i ≠ j) :
    ∃ (l : List (WEv T V)) (s : WSt T V), Exec (WStep false b E ok) WSt.init l s ∧
      visible l = [.call i (.find k), .call j (.insert k v),
        .ret j (.insert k v) ⟨some .SUCCESS_IN, some (home E k, .empty)⟩,
        .ret i (.find k) ⟨none, some (home E k, ⟨k, default⟩)⟩] ∧
      ¬ Linearizable (wordObj E.m b) (visible l) := by
  obtain ⟨hp, hf⟩ := home_slot hE k
  obtain ⟨s1, s2⟩ := first_insert_words (b := b) hE k v
  have hlc : LegalCell E.m b (Cell.liveCell k (default : V)) :=
    ⟨fun h => (by cases h), fun k' v' h => (by cases h; exact hk)⟩
  have hfa := layout_faithful hb hlc
  have hemp : (⟨k, default⟩ : WSlot V).isEmpty b = false := hfa.1
  have hcmp : (⟨k, default⟩ : WSlot V).compareKey E.m b k = true := by
    have := hfa.2.2.2.2.1 k hk
    rw [show (Cell.liveCell k (default : V)).hasKey k = true by simp [Cell.hasKey, Cell.liveCell]] at this
    exact this
  have hgk : (⟨k, default⟩ : WSlot V).getKey E.m b = k := hfa.2.2.2.2.2 k default rfl
  have s3 : stepW b E (.find k) (.half (E.M.map (E.h k)) 0 (.data default))
      (WTbl.set (fun _ => .empty) (home E k) ⟨k, v⟩) =
      (WTbl.set (fun _ => .empty) (home E k) ⟨k, v⟩, .done ⟨none, some (home E k, ⟨k, default⟩)⟩) := by
    simp only [stepW, hp, if_true, afterLoadW, home, WTbl.set, Half.join, hemp, hcmp]
    rfl
  have hji := Ne.symm hij
  have e1 : Exec (WStep false b E ok) (WSt.init : WSt T V) [.call i (.find k)] _ := .vis .init (.call rfl hok.2)
  have e2 := Exec.silent e1 (.first (i := i) (x := .data default) rfl (setAt_same _ _ _) hp (.inr rfl))
  have e3 := Exec.vis e2 (.call (i := j) (by
    show setAt _ i _ j = _
    rw [setAt_other hji]
    show setAt _ i _ j = _
    rw [setAt_other hji]; rfl) hok.1)
  have e4 := Exec.silent e3 (.cont (i := j) (setAt_same _ _ _) s1)
  have e5 := Exec.vis e4 (.done (i := j) (setAt_same _ _ _) s2)
  have e6 := Exec.vis e5 (.ret (i := j) (setAt_same _ _ _))
  have e7 := Exec.vis e6 (.done (i := i) (by
    show setAt _ j _ i = _
    rw [setAt_other hij]
    show setAt _ j _ i = _
    rw [setAt_other hij]
    show setAt _ j _ i = _
    rw [setAt_other hij]
    show setAt _ j _ i = _
    rw [setAt_other hij]
    exact setAt_same _ _ _) s3)
  have e8 := Exec.vis e7 (.ret (i := i) (setAt_same _ _ _))
  refine ⟨_, _, e8, rfl, ?_⟩
  rintro ⟨l, q, d', h1, h2, h3⟩
  have h1 : visible l = [.call i (.find k), .call j (.insert k v),
        .ret j (.insert k v) ⟨some .SUCCESS_IN, some (home E k, .empty)⟩,
        .ret i (.find k) ⟨none, some (home E k, ⟨k, default⟩)⟩] := h1
  have := lin_finds (k := k) (v := v) h2 h3 (fun x o hx => by
      have := mem_visible_call hx
      rw [h1] at this
      simp at this
      rcases this with h | h
      · exact .inl h.2
      · exact .inr h.2) (fun _ _ h => by cases h) (.inl rfl) (fun _ _ h => by cases h) i _
    (mem_of_visible (by rw [h1]; simp : Ev.ret i (.find k) ⟨none, some (home E k, ⟨k, default⟩)⟩ ∈ visible l))
    (k, default) (by simp [WRet.shown, hgk])
  exact hv this.symm

/-- A torn `erase_if`: it loads the mapped half of an empty slot, then the key half after the insertion of exactly the
element that it is to remove, and reports that the element is not there.  (That is right: it was not there when the
call began.) -/
theorem torn_erase_if {b : Nat} (hb : 1 ≤ b) {E : Env Nat} (hE : E.OK) {ok : Op Nat V → Prop} {k : Nat}
    (hk : LegalKey E.m b k) {v : V} (hv : v ≠ default) (hok : ok (.insert k v) ∧ ok (.eraseIf k v)) {i j : T} (hij : i ≠ j) :
    ∃ (l : List (WEv T V)) (s : WSt T V), Exec (WStep false b E ok) WSt.init l s ∧
      visible l = [.call i (.eraseIf k v), .call j (.insert k v),
        .ret j (.insert k v) ⟨some .SUCCESS_IN, some (home E k, .empty)⟩,
        .ret i (.eraseIf k v) ⟨some .UNSUCCESS_NOT_FOUND, none⟩] := by
  obtain ⟨hp, hf⟩ := home_slot hE k
  obtain ⟨s1, s2⟩ := first_insert_words (b := b) hE k v
  have hlc : LegalCell E.m b (Cell.liveCell k (default : V)) :=
    ⟨fun h => (by cases h), fun k' v' h => (by cases h; exact hk)⟩
  have hfa := layout_faithful hb hlc
  have hemp : (⟨k, default⟩ : WSlot V).isEmpty b = false := hfa.1
  have hmar : (⟨k, default⟩ : WSlot V).isMarked E.m b = false := hfa.2.1
  have hcmp : (⟨k, default⟩ : WSlot V).compareKey E.m b k = true := by
    have := hfa.2.2.2.2.1 k hk
    rw [show (Cell.liveCell k (default : V)).hasKey k = true by simp [Cell.hasKey, Cell.liveCell]] at this
    exact this
  have s3 : stepW b E (.eraseIf k v) (.half (E.M.map (E.h k)) 0 (.data default))
      (WTbl.set (fun _ => .empty) (home E k) ⟨k, v⟩) =
      (WTbl.set (fun _ => .empty) (home E k) ⟨k, v⟩, .done ⟨some .UNSUCCESS_NOT_FOUND, none⟩) := by
    simp only [stepW, hp, if_true, afterLoadW, home, WTbl.set, Half.join, hemp, hcmp, hmar, retEndW]
    simp [Ne.symm hv]
  have hji := Ne.symm hij
  have e1 : Exec (WStep false b E ok) (WSt.init : WSt T V) [.call i (.eraseIf k v)] _ := .vis .init (.call rfl hok.2)
  have e2 := Exec.silent e1 (.first (i := i) (x := .data default) rfl (setAt_same _ _ _) hp (.inr rfl))
  have e3 := Exec.vis e2 (.call (i := j) (by
    show setAt _ i _ j = _
    rw [setAt_other hji]
    show setAt _ i _ j = _
    rw [setAt_other hji]; rfl) hok.1)
  have e4 := Exec.silent e3 (.cont (i := j) (setAt_same _ _ _) s1)
  have e5 := Exec.vis e4 (.done (i := j) (setAt_same _ _ _) s2)
  have e6 := Exec.vis e5 (.ret (i := j) (setAt_same _ _ _))
  have e7 := Exec.vis e6 (.done (i := i) (by
    show setAt _ j _ i = _
    rw [setAt_other hij]
    show setAt _ j _ i = _
    rw [setAt_other hij]
    show setAt _ j _ i = _
    rw [setAt_other hij]
    show setAt _ j _ i = _
    rw [setAt_other hij]
    exact setAt_same _ _ _) s3)
  have e8 := Exec.vis e7 (.ret (i := i) (setAt_same _ _ _))
  exact ⟨_, _, e8, rfl⟩

/-! ## The hypotheses can be met -/

/-- The calls of the examples meet the hypotheses, on `simple_slot`s and on `single_word_slot`s. -/
theorem example_calls {b : Nat} (hb : b = 63 ∨ b = 31) :
    Mix exM.m (fun op : Op Nat Nat => op = .insert 5 7 ∨ op = .find 5 ∨ op = .eraseIf 5 7) ∧
    ∀ op : Op Nat Nat, op = .insert 5 7 ∨ op = .find 5 ∨ op = .eraseIf 5 7 → LegalKey exM.m b op.key := by
  refine ⟨⟨?_, by simp [exM]⟩, ?_⟩
  · rintro op (rfl | rfl | rfl) <;> exact ⟨fun _ _ h => (by cases h), fun _ _ _ h => (by cases h)⟩
  · rintro op (rfl | rfl | rfl) <;> rcases hb with rfl | rfl <;>
      exact ⟨by decide, by decide, by decide, by decide, fun _ => by decide⟩

/-- An insertion and a lookup by another thread, on any table. -/
theorem insert_find_words {b : Nat} (hb : 1 ≤ b) {E : Env Nat} (hE : E.OK) {ok : Op Nat V → Prop} {k : Nat} {v : V}
    (hk : LegalKey E.m b k) (hok : ok (.insert k v) ∧ ok (.find k)) {i j : T} (hij : i ≠ j) :
    ∃ (l : List (WEv T V)) (s : WSt T V), Exec (WStep true b E ok) WSt.init l s ∧
      visible l = [.call i (.insert k v), .ret i (.insert k v) ⟨some .SUCCESS_IN, some (home E k, .empty)⟩,
        .call j (.find k), .ret j (.find k) ⟨none, some (home E k, ⟨k, v⟩)⟩] := by
  obtain ⟨hp, -⟩ := home_slot hE k
  obtain ⟨s1, s2⟩ := first_insert_words (b := b) hE k v
  have s3 : stepW b E (.find k) (.load (E.M.map (E.h k)) 0) (WTbl.set (fun _ => .empty) (home E k) ⟨k, v⟩) =
      (WTbl.set (fun _ => .empty) (home E k) ⟨k, v⟩, .done ⟨none, some (home E k, ⟨k, v⟩)⟩) := by
    have hlc : LegalCell E.m b (Cell.liveCell k v) :=
      ⟨fun h => (by cases h), fun k' v' h => (by cases h; exact hk)⟩
    have hfa := layout_faithful hb hlc
    have hemp : (⟨k, v⟩ : WSlot V).isEmpty b = false := hfa.1
    have hcmp : (⟨k, v⟩ : WSlot V).compareKey E.m b k = true := by
      have := hfa.2.2.2.2.1 k hk
      rw [show (Cell.liveCell k v).hasKey k = true by simp [Cell.hasKey, Cell.liveCell]] at this
      exact this
    simp only [stepW, hp, if_true, afterLoadW, home, WTbl.set, hemp, hcmp]
    rfl
  have hji := Ne.symm hij
  have e1 : Exec (WStep true b E ok) (WSt.init : WSt T V) [.call i (.insert k v)] _ := .vis .init (.call rfl hok.1)
  have e2 := Exec.silent e1 (.cont (i := i) (setAt_same _ _ _) s1)
  have e3 := Exec.vis e2 (.done (i := i) (setAt_same _ _ _) s2)
  have e4 := Exec.vis e3 (.ret (i := i) (setAt_same _ _ _))
  have e5 := Exec.vis e4 (.call (i := j) (by
    show setAt _ i _ j = _
    rw [setAt_other hji]
    show setAt _ i _ j = _
    rw [setAt_other hji]
    show setAt _ i _ j = _
    rw [setAt_other hji]
    show setAt _ i _ j = _
    rw [setAt_other hji]; rfl) hok.2)
  have e6 := Exec.vis e5 (.done (i := j) (setAt_same _ _ _) s3)
  have e7 := Exec.vis e6 (.ret (i := j) (setAt_same _ _ _))
  exact ⟨_, _, e7, rfl⟩

/-- **C70 is not vacuous**: one thread inserts, another one finds the element, key and value. -/
theorem C70_not_vacuous {b : Nat} (hb : b = 63 ∨ b = 31) :
    ∃ (l : List (WEv Nat Nat)) (s : WSt Nat Nat),
      Exec (WStep true b exM fun op => op = .insert 5 7 ∨ op = .find 5 ∨ op = .eraseIf 5 7) WSt.init l s ∧
      visible l = [.call 0 (.insert 5 7), .ret 0 (.insert 5 7) ⟨some .SUCCESS_IN, some (home exM 5, .empty)⟩,
        .call 1 (.find 5), .ret 1 (.find 5) ⟨none, some (home exM 5, ⟨5, 7⟩)⟩] ∧
      Linearizable (wordObj true b) (visible l) := by
  obtain ⟨h1, h2⟩ := example_calls hb
  have hb1 : 1 ≤ b := by rcases hb with rfl | rfl <;> decide
  obtain ⟨l, s, e1, e2⟩ := insert_find_words (T := Nat) (v := 7) (i := 0) (j := 1) (k := 5)
    (ok := fun op : Op Nat Nat => op = .insert 5 7 ∨ op = .find 5 ∨ op = .eraseIf 5 7) hb1 exM_ok (h2 _ (.inl rfl))
    ⟨.inl rfl, .inr (.inl rfl)⟩ (by decide)
  exact ⟨l, s, e1, e2, C70_words_linearizable_partial hb1 exM_ok h1 h2 e1⟩

/-- The hypotheses of `C70_unsafe_partial` are met: 1 is added to the value 7 of the key 5. -/
example : LegalCell true 63 (Cell.liveCell 5 7 : Cell Nat Nat) ∧
    unsafeW true 63 (encode 63 (Cell.liveCell 5 7 : Cell Nat Nat)) (incFn 1) = (⟨5, 8⟩, ⟨5, 8⟩) := by
  refine ⟨⟨fun _ => rfl, fun k v h => ?_⟩, by decide +kernel⟩
  cases h
  unfold LegalKey
  decide +kernel

/-- **C71 is not vacuous**: the hypotheses of its theorems are met by an execution with a torn lookup. -/
theorem C71_not_vacuous {b : Nat} (hb : b = 63 ∨ b = 31) :
    ∃ (l : List (WEv Nat Nat)) (s : WSt Nat Nat),
      Exec (WStep false b exM fun op => op = .insert 5 7 ∨ op = .find 5 ∨ op = .eraseIf 5 7) WSt.init l s ∧
      Ev.ret 0 (.find 5) ⟨none, some (home exM 5, ⟨5, 0⟩)⟩ ∈ visible l ∧
      ¬ Linearizable (wordObj true b) (visible l) ∧
      Linearizable (seenObj true) ((visible l).map (seeEv true b)) := by
  obtain ⟨h1, h2⟩ := example_calls hb
  have hb1 : 1 ≤ b := by rcases hb with rfl | rfl <;> decide
  obtain ⟨l, s, e1, e2, e3⟩ := C71_torn_find (T := Nat) (v := 7) (i := 0) (j := 1) (k := 5)
    (ok := fun op : Op Nat Nat => op = .insert 5 7 ∨ op = .find 5 ∨ op = .eraseIf 5 7) hb1 exM_ok (h2 _ (.inl rfl)) (by decide)
    ⟨.inl rfl, .inr (.inl rfl)⟩ (by decide)
  refine ⟨l, s, e1, ?_, e3, C71_torn_loads_partial hb1 exM_ok h1 h2 e1⟩
  rw [e2]
  simp only [List.mem_cons]
  exact .inr (.inr (.inr (.inl rfl)))

/-- **C71 is not vacuous for `erase_if`.** -/
theorem C71_erase_if_not_vacuous {b : Nat} (hb : b = 63 ∨ b = 31) :
    ∃ (l : List (WEv Nat Nat)) (s : WSt Nat Nat),
      Exec (WStep false b exM fun op => op = .insert 5 7 ∨ op = .find 5 ∨ op = .eraseIf 5 7) WSt.init l s ∧
      visible l = [.call 0 (.eraseIf 5 7), .call 1 (.insert 5 7),
        .ret 1 (.insert 5 7) ⟨some .SUCCESS_IN, some (home exM 5, .empty)⟩,
        .ret 0 (.eraseIf 5 7) ⟨some .UNSUCCESS_NOT_FOUND, none⟩] ∧
      Linearizable (seenObj true) ((visible l).map (seeEv true b)) := by
  obtain ⟨h1, h2⟩ := example_calls hb
  have hb1 : 1 ≤ b := by rcases hb with rfl | rfl <;> decide
  obtain ⟨l, s, e1, e2⟩ := torn_erase_if (T := Nat) (v := 7) (i := 0) (j := 1) (k := 5)
    (ok := fun op : Op Nat Nat => op = .insert 5 7 ∨ op = .find 5 ∨ op = .eraseIf 5 7) hb1 exM_ok (h2 _ (.inl rfl))
    (by decide) ⟨.inl rfl, .inr (.inr rfl)⟩ (by decide)
  exact ⟨l, s, e1, e2, C71_torn_loads_partial hb1 exM_ok h1 h2 e1⟩

end
end Words
end Growt
