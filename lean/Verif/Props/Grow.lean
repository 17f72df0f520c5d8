import Verif.GrowTerm
import Verif.Props.Count

/-!
# Properties of a growing table used through one handle (C23)
-/

set_option linter.unusedSectionVars false

namespace Growt
section
variable {K V : Type} [DecidableEq K] [DecidableEq V] [Inhabited V]

/-- **C23, safety part.**  Every completed sequence of calls through one handle of a new growing
table - across any number of growth steps, for every hash function, with and without marks, for
every schedule of the migrations - returned exactly what an ideal map returns; no insertion is
refused; and the table finally stores exactly that map.  The full statement also demands that every
call completes: see `C23_calls_complete_linear_partial`, `C23_calls_complete_circular_partial` and
the counterexamples `C23_equal_hashes_never_return` and `C23_circular_never_returns`.  Restrictions:
at most `2^32 / 7` insertion calls and less than `2^32` initial slots (beyond, C21 is violated), and
not circular mapping with linear probing (C22). -/
theorem C23_growing_table_is_map_partial {cm cp m upd : Bool} {h : K → Nat} {k : Nat}
    (hcombo : cm = true → cp = true) (hk : 16 ≤ k) (hk' : k < 32) (hh : ∀ x, h x < 2 ^ 64)
    {ops : List (HOp K V)} (hfew : 7 * insertCalls (opsOf ops) < 2 ^ 32)
    {l : List (Op K V × SRes V)} {s : GSt K V}
    (hrun : Calls upd (GSt.new cm cp m h k) ops l s) :
    l.map Prod.fst = opsOf ops ∧ ∃ d, ExplainedG m (fun _ => none) l d ∧ Stores s.E s.t d := by
  obtain ⟨h1, d, h2, h3, -⟩ := hrun.good (GInv.new hcombo hk hk' hh)
    (Nat.pow_lt_pow_right (by omega) hk') (by omega)
  exact ⟨h1, d, h2, h3.tab.stores⟩

/-- **C23, completion, linear probing.**  If the hash values of the inserted keys are spread (in no
size of the table more than `n + 301` of them have their home in the last `n` slots), then every
sequence of calls completes.  (Missing: the restriction on the hash function;
`C23_equal_hashes_never_return` shows that it cannot be dropped.) -/
theorem C23_calls_complete_linear_partial {m upd : Bool} {h : K → Nat} {k : Nat}
    (hk : 16 ≤ k) (hk' : k < 32) (hh : ∀ x, h x < 2 ^ 64) {S : K → Prop} (hS : Spread h S)
    {ops : List (HOp K V)} (hops : ∀ op ∈ opsOf ops, (op.toSpec true).inserts = true → S op.key)
    (hfew : 7 * insertCalls (opsOf ops) < 2 ^ 32) :
    ∃ l s, Calls upd (GSt.new false false m h k) ops l s :=
  Calls.exists_lin (Nat.pow_lt_pow_right (by omega) hk') ops
    (GInv.new (by intro h; cases h) hk hk' hh) rfl hS (fun x hx => absurd rfl hx) hops (by omega)

/-- **C23, completion, circular probing.**  Every sequence of calls completes, for every hash
function, unless at some point the element counter is exactly the growth threshold.  (Missing: that
proviso; `C23_circular_never_returns`.) -/
theorem C23_calls_complete_circular_partial {cm m upd : Bool} {h : K → Nat} {k : Nat}
    (hk : 16 ≤ k) (hk' : k < 32) (hh : ∀ x, h x < 2 ^ 64)
    (ops : List (HOp K V)) (hfew : 7 * insertCalls (opsOf ops) < 2 ^ 32) :
    (∃ l s, Calls upd (GSt.new cm true m h k) ops l s) ∨
      ∃ pre post l s, ops = pre ++ post ∧ Calls upd (GSt.new cm true m h k) pre l s ∧
        s.elements = Cnt.thresh s.E.M.total :=
  Calls.exists_cyc (Nat.pow_lt_pow_right (by omega) hk') ops
    (GInv.new (by intro _; rfl) hk hk' hh) rfl
    (by simp only [GSt.new]; exact Int.natCast_nonneg _) (by omega)

/-! ## Equal hash values -/

/-- The calls inserting the keys of a list. (example, no code) -/
def insertAll (l : List Nat) : List (HOp Nat Nat) := l.map fun i => .op (.insert i 0)

theorem opsOf_insertAll (l : List Nat) : opsOf (insertAll l) = l.map fun i => .insert i 0 := by
  induction l with
  | nil => rfl
  | cons a l ih =>
    show Op.insert a 0 :: opsOf (insertAll l) = _
    rw [ih]; rfl

theorem insertCalls_inserts (l : List Nat) :
    insertCalls (l.map fun i => (.insert i 0 : Op Nat Nat)) = l.length := by
  induction l with
  | nil => rfl
  | cons a l ih =>
    rw [List.map_cons, insertCalls_cons, ih]
    rfl

/-- After the inserts all keys are present. -/
theorem ExplainedG.inserted {m : Bool} {d d' : Dict Nat Nat} {l : List (Op Nat Nat × SRes Nat)}
    (h : ExplainedG m d l d') :
    ∀ (keys : List Nat), l.map Prod.fst = keys.map (fun i => .insert i 0) →
      ∀ i, (i ∈ keys ∨ d i ≠ none) → d' i ≠ none := by
  induction h with
  | nil d =>
    intro keys hk i hi
    cases keys with
    | nil => simpa using hi
    | cons a l => cases hk
  | @call d d' op x l _ _ ih =>
    intro keys hk i hi
    cases keys with
    | nil => cases hk
    | cons a keys =>
      simp only [List.map_cons, List.cons.injEq] at hk
      obtain ⟨rfl, hk⟩ := hk
      refine ih keys hk i ?_
      simp only [Op.toSpec, SOp.sem]
      cases hd : d a with
      | none =>
        simp only [Dict.put]
        by_cases hia : i = a
        · right; simp [hia]
        · simp only [hia, if_false]
          simp only [List.mem_cons, hia, false_or] at hi
          exact hi
      | some w =>
        simp only
        rcases hi with hi | hi
        · rcases List.mem_cons.1 hi with rfl | hi
          · right; rw [hd]; simp
          · exact .inl hi
        · exact .inr hi

/-- **C23 (violated by the code).**  If all keys have the hash value `2^64 - 1`, then on a growing
table with linear probing the call that inserts the 303rd key never returns: the base table refuses
it, the growth step makes a table of the same size (only 302 elements), and the insertion is tried
again, for ever.  This holds for every initial size and every schedule.  (The first 302 insertions
do complete, `C23_302_equal_hashes`.) -/
theorem C23_equal_hashes_never_return {m upd : Bool} {k : Nat} (hk : 16 ≤ k) (hk' : k < 32) :
    ¬ ∃ l s, Calls upd (GSt.new false false m (fun _ => 2 ^ 64 - 1) k)
      (insertAll (List.range 303)) l s := by
  rintro ⟨l, s, hrun⟩
  have hops := opsOf_insertAll (List.range 303)
  have hcalls : insertCalls (opsOf (insertAll (List.range 303))) = 303 := by
    rw [hops, insertCalls_inserts, List.length_range]
  obtain ⟨h1, d, h2, h3, h4⟩ := hrun.good (GInv.new (by intro h; cases h) hk hk' (fun _ => by decide))
    (Nat.pow_lt_pow_right (by omega) hk') (by rw [hcalls]; decide)
  rw [hops] at h1
  have hall := h2.inserted _ h1
  have hcp : s.E.M.cp = false := h4.2.2.2
  have hcm : s.E.M.cm = false := h4.2.2.1
  obtain ⟨k2, hw⟩ := h3.tab.ok.wf
  have hk2 := hw.2.1
  have hk9 := hw.1
  have hhome : ∀ x : Nat, s.E.M.map (s.E.h x) = s.E.M.addr - 1 := by
    intro x
    have hx : s.E.h x = 2 ^ 64 - 1 := by rw [h4.1]; rfl
    rw [hw.map_lin hcm, hx, hw.addr_eq]
    have e : 2 ^ 64 - 1 = (2 ^ k2 - 1) * 2 ^ (64 - k2) + (2 ^ (64 - k2) - 1) := by
      have : (2 : Nat) ^ 64 = 2 ^ k2 * 2 ^ (64 - k2) := by
        rw [← Nat.pow_add, show k2 + (64 - k2) = 64 by omega]
      rw [this, Nat.sub_mul, Nat.one_mul]
      have h1 : 0 < 2 ^ (64 - k2) := Nat.two_pow_pos _
      have h2 : 2 ^ (64 - k2) ≤ 2 ^ k2 * 2 ^ (64 - k2) := Nat.le_mul_of_pos_left _ (Nat.two_pow_pos _)
      omega
    rw [e, Nat.add_comm, Nat.add_mul_div_right _ _ (Nat.two_pow_pos _),
      Nat.div_eq_of_lt (by have : 0 < 2 ^ (64 - k2) := Nat.two_pow_pos _; omega), Nat.zero_add]
  have hpos : 0 < s.E.M.addr := by rw [hw.addr_eq]; exact Nat.two_pow_pos _
  -- every key is in one of 302 slots
  have hslot : ∀ x ∈ List.range 303, x ∈ (List.range 302).map
      (fun i => keyAt s.t 0 (s.E.M.addr - 1 + i)) := by
    intro x hx
    have hdx := hall x (.inl hx)
    obtain ⟨v, hv⟩ := Option.ne_none_iff_exists'.1 hdx
    obtain ⟨p, hp, hc⟩ := (h3.tab.stores x v).1 hv
    obtain ⟨i, hi, hpa⟩ := h3.tab.inv.reach p x v hp hc
    rw [Mapper.remap_lin hcp] at hi
    subst hi
    have hge := hpa.1
    rw [hhome] at hge
    have hle : i ≤ s.E.M.addr + 300 := by
      apply Classical.byContradiction
      intro hn
      rw [h3.tab.inv.tail hcp i (by omega)] at hc
      cases hc
    refine List.mem_map.2 ⟨i - (s.E.M.addr - 1), List.mem_range.2 (by omega), ?_⟩
    have : s.E.M.addr - 1 + (i - (s.E.M.addr - 1)) = i := by omega
    rw [this]
    unfold keyAt
    rw [hc]
  have := List.nodup_range.length_le_of_subset hslot
  simp at this

/-- 302 keys with equal hash values can be inserted (so the counterexample is tight, and the
hypotheses of `C23_calls_complete_linear_partial` are met by a bad hash function). -/
theorem C23_302_equal_hashes {m upd : Bool} {k : Nat} (hk : 16 ≤ k) (hk' : k < 32) :
    ∃ l s, Calls upd (GSt.new false false m (fun _ => 2 ^ 64 - 1) k)
      (insertAll (List.range 302)) l s := by
  have hops := opsOf_insertAll (List.range 302)
  refine C23_calls_complete_linear_partial (S := fun x => x < 302) hk hk' (fun _ => by decide) ?_ ?_ ?_
  · intro k p _ _ hp l hnd hl
    have := hnd.length_le_of_subset (l₂ := List.range 302) (fun x hx => List.mem_range.2 (hl x hx).1)
    simp at this
    omega
  · rw [hops]
    intro op hop _
    obtain ⟨i, hi, rfl⟩ := List.mem_map.1 hop
    exact List.mem_range.1 hi
  · rw [hops, insertCalls_inserts, List.length_range]; decide

/-! ## Circular probing and the exact threshold -/

/-- The calls inserting the keys of a list, with `update_numbers` after each (as when each insertion
is done through a new handle that is destroyed afterwards). (example, no code) -/
def insertFlush : List Nat → List (HOp Nat Nat)
  | [] => []
  | i :: l => .op (.insert i 0) :: .flush :: insertFlush l

theorem opsOf_insertFlush (l : List Nat) : opsOf (insertFlush l) = l.map fun i => .insert i 0 := by
  induction l with
  | nil => rfl
  | cons a l ih => simp only [insertFlush, opsOf, List.map_cons, ih]

/-- One insertion of an absent key on a table with circular probing. -/
theorem insert_cyc {upd : Bool} {A0 n : Nat} {s s' : GSt Nat Nat} {i : Nat} {x : SRes Nat}
    {d : Dict Nat Nat} (hc : Call upd (.insert i 0) s x s') (hG : GInv A0 n s d)
    (hcp : s.E.M.cp = true) (hd : d i = none) (hz : s.c = {}) :
    s'.E = s.E ∧ s'.elements = s.elements ∧ s'.c = ⟨1, 1, 0⟩ ∧ s'.dummies = s.dummies := by
  cases hc with
  | @ret _ f t' r b hrun ha =>
    exfalso
    obtain ⟨h1, h2, h3, h4, h5⟩ := run_done hG.tab.ok hG.tab.inv hG.tab.marks hG.tab.stores hrun
    obtain ⟨a1, a2, a3, a4, a5, a6, a7⟩ := react_cases h3 h4
    rcases h5 with ⟨-, -, -, -, h, -⟩ | ⟨hnf, hni, -, hag⟩
    · rw [hcp] at h; cases h
    · have hok := hag.1
      simp only [Op.toSpec, SOp.sem, hd] at hok
      have hin : r.code = some .SUCCESS_IN := by
        simp only [codesOf, List.mem_cons, List.not_mem_nil, or_false] at h3
        rcases h3 with h | h | h | h
        · exact h
        · simp [Ret.ok, h, ReturnCode.successful, ReturnCode.toNat] at hok
        · exact absurd h hnf
        · exact absurd h hni
      rw [a3.2 hin] at ha
      cases ha
  | @inserted _ _ _ t' r hrun ha hinc =>
    cases hinc with
    | quiet hq => exact ⟨rfl, rfl, by simp only [hz]; rfl, rfl⟩
    | flush hq hf => simp only [hz] at hq; exact absurd hq (by decide)
  | @deleted _ _ _ t' r hrun ha hinc =>
    exfalso
    obtain ⟨h1, h2, h3, h4, h5⟩ := run_done hG.tab.ok hG.tab.inv hG.tab.marks hG.tab.stores hrun
    obtain ⟨a1, a2, a3, a4, a5, a6, a7⟩ := react_cases h3 h4
    rw [a4.1 ha] at h3
    simp [codesOf] at h3
  | grow hrun ha hg _ =>
    exfalso
    obtain ⟨h1, h2, h3, h4, h5⟩ := run_done hG.tab.ok hG.tab.inv hG.tab.marks hG.tab.stores hrun
    obtain ⟨a1, -⟩ := react_cases h3 h4
    rcases h5 with ⟨-, -, -, -, h, -⟩ | ⟨hnf, -⟩
    · rw [hcp] at h; cases h
    · exact absurd (a1.1 ha) hnf
  | help hrun ha _ =>
    exfalso
    obtain ⟨h1, h2, h3, h4, h5⟩ := run_done hG.tab.ok hG.tab.inv hG.tab.marks hG.tab.stores hrun
    obtain ⟨-, a2, -⟩ := react_cases h3 h4
    have hinv := a2.1 ha
    rcases h5 with ⟨hfull, -⟩ | ⟨_, hni, -⟩
    · rw [hfull] at hinv; cases hinv
    · exact absurd hinv hni

/-- Inserting and flushing one by one never triggers growth. -/
theorem insertFlush_cyc {upd : Bool} {A0 : Nat} (hA : A0 < 2 ^ 32) (keys : List Nat) :
    ∀ {n : Nat} {s s' : GSt Nat Nat} {d : Dict Nat Nat} {l : List (Op Nat Nat × SRes Nat)},
    Calls upd s (insertFlush keys) l s' → GInv A0 n s d → s.E.M.cp = true → s.c = {} →
    keys.Nodup → (∀ i ∈ keys, d i = none) → 7 * (n + keys.length) < 2 ^ 32 →
    s'.E = s.E ∧ s'.elements = s.elements + keys.length ∧ s'.c = {} ∧ s'.dummies = s.dummies := by
  induction keys with
  | nil =>
    intro n s s' d l h _ _ hz _ _ _
    cases h
    exact ⟨rfl, by simp, hz, rfl⟩
  | cons i keys ih =>
    intro n s s' d l h hG hcp hz hnd hd hn
    simp only [List.length_cons] at hn
    rw [List.nodup_cons] at hnd
    have hdi := hd i (by simp)
    cases h with
    | @op _ s1 _ _ x _ l1 h1 hrest =>
      obtain ⟨e1, e2, e3, e4⟩ := insert_cyc h1 hG hcp hdi hz
      obtain ⟨g1, g2, -⟩ := h1.good hG hA (by show 7 * (n + 1) < _; omega)
      cases hrest with
      | @flush _ s2 _ _ _ h2 h3 =>
        have g3 := (h2.good g1.toF hA (by show 7 * (n + 1) < _; omega)).1
        have hs2 : s2.E = s.E ∧ s2.elements = s.elements + 1 ∧ s2.c = {} ∧
            s2.dummies = s.dummies := by
          cases h2 with
          | quiet hq => exact ⟨e1, by show s1.elements + s1.c.inserted = _; rw [e2, e3], rfl,
              by show s1.dummies + s1.c.deleted = _; rw [e4, e3]; simp⟩
          | grow ht hg =>
            have := (C33_trigger_iff _ _ _).1 ht
            rw [e3] at this
            simp only at this
            omega
        obtain ⟨i1, i2, i3, i4⟩ := ih h3 g3 (by rw [hs2.1]; exact hcp) hs2.2.2.1 hnd.2 (by
          intro j hj
          simp only [Op.toSpec, SOp.sem, hdi, Dict.put]
          have : j ≠ i := by rintro rfl; exact hnd.1 hj
          simp only [this, if_false]
          exact hd j (by simp [hj])) (by show 7 * (n + 1 + _) < _; omega)
        exact ⟨i1.trans hs2.1, by rw [i2, hs2.2.1, List.length_cons]; omega, i3,
          i4.trans hs2.2.2.2⟩

/-- **C23 (violated by the code).**  With circular probing, if the counters are flushed after every
insertion (e.g. each insertion through a short-lived handle), growth is never triggered (C33): the
table fills up completely, and the call inserting one key more than there are slots never returns.
This holds for every hash function and every initial size. -/
theorem C23_circular_never_returns {cm m upd : Bool} {h : Nat → Nat} {k : Nat} (hk : 16 ≤ k)
    (hk' : k < 29) (hh : ∀ x, h x < 2 ^ 64) :
    ¬ ∃ l s, Calls upd (GSt.new cm true m h k) (insertFlush (List.range (2 ^ k + 1))) l s := by
  rintro ⟨l, s, hrun⟩
  have hops := opsOf_insertFlush (List.range (2 ^ k + 1))
  have hcalls : insertCalls (opsOf (insertFlush (List.range (2 ^ k + 1)))) = 2 ^ k + 1 := by
    rw [hops, insertCalls_inserts, List.length_range]
  have hk2 : 2 ^ k ≤ 2 ^ 28 := Nat.pow_le_pow_right (by omega) (by omega)
  have h0 : GInv (2 ^ k) 0 (GSt.new cm true m h k : GSt Nat Nat) (fun _ => none) :=
    GInv.new (fun _ => rfl) hk (by omega) hh
  obtain ⟨-, d, -, h3, -⟩ := hrun.good h0 (by omega) (by rw [hcalls]; omega)
  obtain ⟨e1, e2, e3, e4⟩ := insertFlush_cyc (by omega) _ hrun h0 rfl rfl List.nodup_range
    (fun _ _ => rfl) (by rw [List.length_range]; omega)
  have hw : (Mapper.mk' cm true (2 ^ k) 0).WF k := Mapper.wf_mk' (by omega) (by omega)
  have htot : s.E.M.total = 2 ^ k := by
    rw [e1]
    show (Mapper.mk' cm true (2 ^ k) 0).total = _
    rw [hw.total_eq]; simp [Mapper.mk']
  have hle : liveCount s.E.M.total s.t ≤ 2 ^ k := by
    unfold liveCount
    refine Nat.le_trans List.countP_le_length ?_
    rw [List.length_range, htot]
    exact Nat.le_refl _
  have hl := h3.occ
  have hlo := h3.live
  rw [e2, e3, e4, List.length_range] at hlo
  simp only [GSt.new] at hlo
  have := h3.nonneg
  omega

/-! ## The hypotheses are met, and growth happens -/

/-- A hash function spreading the keys below `2^16` evenly. (example, no code) -/
def evenHash (x : Nat) : Nat := if x < 2 ^ 16 then x * 2 ^ 48 else 0

theorem evenHash_spread : Spread evenHash (fun x => x < 2 ^ 16) := by
  intro k p hk hk' hp l hnd hl
  obtain ⟨j, rfl⟩ : ∃ j, k = 16 + j := ⟨k - 16, by omega⟩
  have hx : ∀ x ∈ l, x < 2 ^ 16 ∧ p ≤ x * 2 ^ j := by
    intro x hx
    obtain ⟨h1, h2⟩ := hl x hx
    refine ⟨h1, ?_⟩
    simp only [evenHash, h1, if_true] at h2
    rw [show 64 - (16 + j) = 48 - j by omega, show 48 = j + (48 - j) by omega, Nat.pow_add,
      ← Nat.mul_assoc, show j + (48 - j) - j = 48 - j by omega,
      Nat.mul_div_cancel _ (Nat.two_pow_pos _)] at h2
    exact h2
  have hb := hnd.length_le_of_subset
    (l₂ := (List.range (2 ^ 16 - p / 2 ^ j)).map fun i => p / 2 ^ j + i) (fun x hxl => by
      obtain ⟨h1, h2⟩ := hx x hxl
      have : p / 2 ^ j ≤ x := Nat.div_le_of_le_mul (by rw [Nat.mul_comm]; exact h2)
      exact List.mem_map.2 ⟨x - p / 2 ^ j, List.mem_range.2 (by omega), by omega⟩)
  rw [List.length_map, List.length_range] at hb
  rw [Nat.pow_add] at hp ⊢
  have hd := Nat.div_add_mod p (2 ^ j)
  have hm := Nat.mod_lt p (Nat.two_pow_pos j)
  have hq : p / 2 ^ j < 2 ^ 16 := Nat.div_lt_of_lt_mul (by rw [Nat.mul_comm]; exact hp)
  generalize p / 2 ^ j = q at *
  generalize hP : 2 ^ j = P at *
  have hP1 : 1 ≤ P := by omega
  obtain ⟨e, he⟩ : ∃ e, 2 ^ 16 = q + e := ⟨2 ^ 16 - q, by omega⟩
  rw [he] at hb ⊢
  rw [Nat.add_mul, Nat.mul_comm q P]
  have : e ≤ e * P := Nat.le_mul_of_pos_right _ hP1
  have h3 : (e - 1) * P = e * P - P := by rw [Nat.sub_mul, Nat.one_mul]
  have h4 : e - 1 ≤ (e - 1) * P := Nat.le_mul_of_pos_right _ hP1
  omega

/-- What is known as long as the first table is in use (only insertions). (specification, no code) -/
def FirstTable (s : GSt Nat Nat) : Prop :=
  s.version = 0 → s.E.M.total = 66560 ∧ s.dummies = 0 ∧ s.c.deleted = 0 ∧
    s.c.updates = s.c.inserted ∧ s.c.updates ≤ 64 ∧ s.elements < 44328 ∧ ∃ q, s.elements = 65 * q

theorem FirstTable.call {upd : Bool} {i : Nat} {s s' : GSt Nat Nat} {x : SRes Nat}
    (hc : Call upd (.insert i 0) s x s') (h : FirstTable s) : FirstTable s' := by
  induction hc with
  | ret hrun ha => exact h
  | @inserted s s' f t' r hrun ha hinc =>
    cases hinc with
    | quiet hq =>
      intro hv
      obtain ⟨h1, h2, h3, h4, h5, h6, h7⟩ := h hv
      exact ⟨h1, h2, h3, by simp only [h4], hq, h6, h7⟩
    | flush hq hf =>
      cases hf with
      | quiet ht =>
        intro hv
        obtain ⟨h1, h2, h3, h4, h5, h6, q, h7⟩ := h hv
        simp only [Cnt.triggers, Cnt.thresh, h1, Bool.and_eq_false_iff, decide_eq_false_iff_not] at ht
        simp only at hq
        refine ⟨h1, ?_, rfl, rfl, (by show (0:Int) ≤ 64; decide), ?_, q + 1, ?_⟩ <;>
          simp only [GSt.flushed] <;> omega
      | grow ht hg =>
        intro hv
        cases hg
        simp at hv
  | @deleted s s' f t' r hrun ha hinc =>
    exfalso
    simp only [react] at ha
    revert ha
    cases r.code.getD .ERROR <;> simp [switchInsert]
  | @grow s s1 s2 f t' r x hrun ha hg _ ih =>
    refine ih ?_
    intro hv
    cases hg
    simp at hv
  | help hrun ha _ ih => exact ih h

theorem FirstTable.calls {upd : Bool} (keys : List Nat) : ∀ {s s' : GSt Nat Nat}
    {l : List (Op Nat Nat × SRes Nat)}, Calls upd s (insertAll keys) l s' → FirstTable s →
    FirstTable s' := by
  induction keys with
  | nil => intro s s' l h hs; cases h; exact hs
  | cons i keys ih =>
    intro s s' l h hs
    cases h with
    | op h1 h2 => exact ih h2 (hs.call h1)

/-- The hypotheses of `C23_growing_table_is_map_partial` and `C23_calls_complete_linear_partial` are
met by the insertion of 50000 keys into a table of minimal size, and the table grows meanwhile. -/
theorem C23_growth_happens (m upd : Bool) :
    ∃ l s, Calls upd (GSt.new false false m evenHash 16) (insertAll (List.range 50000)) l s ∧
      0 < s.version ∧ ∃ d, ExplainedG m (fun _ => none) l d ∧ Stores s.E s.t d ∧
        ∀ i, i < 50000 → d i ≠ none := by
  have hops := opsOf_insertAll (List.range 50000)
  have hcalls : insertCalls (opsOf (insertAll (List.range 50000))) = 50000 := by
    rw [hops, insertCalls_inserts, List.length_range]
  have hh : ∀ x, evenHash x < 2 ^ 64 := by
    intro x; unfold evenHash; split <;> omega
  have hfew : 7 * insertCalls (opsOf (insertAll (List.range 50000))) < 2 ^ 32 := by
    rw [hcalls]; decide
  obtain ⟨l, s, hrun⟩ := C23_calls_complete_linear_partial (m := m) (upd := upd) (k := 16)
    (by omega) (by omega) hh evenHash_spread (ops := insertAll (List.range 50000)) (by
      rw [hops]
      intro op hop _
      obtain ⟨i, hi, rfl⟩ := List.mem_map.1 hop
      have := List.mem_range.1 hi
      show i < 2 ^ 16
      omega) hfew
  obtain ⟨h1, d, h2, h3, -⟩ := hrun.good (GInv.new (by intro h; cases h) (by omega) (by omega) hh)
    (by omega) (by rw [hcalls]; decide)
  rw [hops] at h1
  have hall : ∀ i, i < 50000 → d i ≠ none := fun i hi =>
    h2.inserted _ h1 i (.inl (List.mem_range.2 hi))
  refine ⟨l, s, hrun, ?_, d, h2, h3.tab.stores, hall⟩
  have hft : FirstTable s := FirstTable.calls _ hrun (by
    intro _
    have hw : (Mapper.mk' false false (2 ^ 16) 0).WF 16 := Mapper.wf_mk' (by omega) (by omega)
    refine ⟨?_, rfl, rfl, rfl, (by show (0 : Int) ≤ 64; decide),
      (by show (0 : Int) < 44328; decide), 0, rfl⟩
    show (Mapper.mk' false false (2 ^ 16) 0).total = _
    rw [hw.total_eq]
    rfl)
  apply Nat.pos_of_ne_zero
  intro hv
  obtain ⟨-, e2, e3, e4, e5, e6, -⟩ := hft hv
  have hsub := List.nodup_range (n := 50000) |>.length_le_of_subset
    (l₂ := liveKeys s.E.M.total s.t) (fun i hi => by
      obtain ⟨v, hv⟩ := Option.ne_none_iff_exists'.1 (hall i (List.mem_range.1 hi))
      obtain ⟨p, hp, hc⟩ := (h3.tab.stores i v).1 hv
      exact mem_liveKeys.2 ⟨p, hp, v, hc⟩)
  rw [List.length_range, length_liveKeys] at hsub
  have := h3.live
  omega

theorem evenHash_lt (x : Nat) : evenHash x < 2 ^ 64 := by
  unfold evenHash; split <;> omega

/-- The hypotheses of the two counterexamples are met by tables of minimal size. -/
example : (¬ ∃ l s, Calls true (GSt.new false false true (fun _ => 2 ^ 64 - 1) 16)
      (insertAll (List.range 303)) l s) ∧
    ¬ ∃ l s, Calls true (GSt.new true true true evenHash 16)
      (insertFlush (List.range (2 ^ 16 + 1))) l s :=
  ⟨C23_equal_hashes_never_return (by omega) (by omega),
    C23_circular_never_returns (by omega) (by omega) evenHash_lt⟩

/-- The hypotheses of `C23_calls_complete_circular_partial` are met by 50000 insertions. -/
example : (∃ l s, Calls true (GSt.new true true true evenHash 16)
      (insertAll (List.range 50000)) l s) ∨
    ∃ pre post l s, insertAll (List.range 50000) = pre ++ post ∧
      Calls true (GSt.new true true true evenHash 16) pre l s ∧
        s.elements = Cnt.thresh s.E.M.total :=
  C23_calls_complete_circular_partial (by omega) (by omega) evenHash_lt _ (by
    rw [opsOf_insertAll, insertCalls_inserts, List.length_range]; decide)

end
end Growt
