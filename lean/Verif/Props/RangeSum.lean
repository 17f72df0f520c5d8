import Verif.Props.Iter
import Verif.Props.Text

/-!
# C85: iterating over growing tables, and the parallel sums of `example/range_example.cpp`
-/

set_option linter.unusedSectionVars false

namespace Growt
namespace RangeSum

/-! ## Model -/

section
variable {K : Type}

/-- `temp += (*it).second` for all positions of a range iterator, on 64-bit words; `none`: a slot without an element is
read. (`example/range_example.cpp:59-64`, 87-90) -/
def addAll (temp : Nat) : List (Nat × Cell K Nat) → Option Nat
  | [] => some temp
  | x :: l =>
    match shownPair x.2 with
    | some (_, v) => addAll ((temp + v) % 2 ^ 64) l
    | none => none

/-- The loop over `handle.range(a, b)` (`example/range_example.cpp:57-64`, 84-90). -/
def load (E : Env K) (t : Tbl K Nat) (temp a b : Nat) : Option Nat :=
  match BIt.walk t (E.M.total + 1) (BIt.range E t a b) with
  | some l => addAll temp l
  | none => none

/-- `fetch_add` of the sums of the threads to an aggregator, in the order in which they arrive; `none`: one of them has
failed. (`example/range_example.cpp:66`, 94) -/
def aggregate : List (Option Nat) → Nat → Option Nat
  | [], agg => some agg
  | some x :: l, agg => aggregate l ((agg + x) % 2 ^ 64)
  | none :: _, _ => none

/-- `static_load`, the threads `ids` being finished in this order; `wl` is `work_load`.
(`example/range_example.cpp:50-67`) -/
def staticLoad (E : Env K) (t : Tbl K Nat) (wl : Nat) (ids : List Nat) : Option Nat :=
  aggregate (ids.map fun i => load E t 0 (i * wl) ((i + 1) * wl)) 0

/-- The loop of `dynamic_blockwise_load` of a thread whose calls of `fetch_add` gave the blocks with these numbers;
`none`: it has not come to its end. (`example/range_example.cpp:79-92`; no overflow of `work_counter`) -/
def blockLoop (E : Env K) (t : Tbl K Nat) (b temp : Nat) : List Nat → Option Nat
  | [] => none
  | i :: l =>
    if i * b < E.M.total then
      match load E t temp (i * b) (i * b + b) with
      | some temp' => blockLoop E t b temp' l
      | none => none
    else if l = [] then some temp else none

/-- The blocks that thread `i` gets if the calls of `fetch_add` come from the threads `own`, in this order.
(`example/range_example.cpp:78-79, 91`) -/
def share (own : List Nat) (i : Nat) : List Nat := (List.range own.length).filter fun j => own[j]? = some i

/-- `dynamic_blockwise_load` (`example/range_example.cpp:71-95`). -/
def dynamicLoad (E : Env K) (t : Tbl K Nat) (b : Nat) (own ids : List Nat) : Option Nat :=
  aggregate (ids.map fun i => blockLoop E t b 0 (share own i)) 0

end

/-! ## Proof -/

section
variable {K : Type} [DecidableEq K]

/-- What a slot contributes. (proof, no code) -/
def val (N : Nat) (t : Tbl K Nat) (q : Nat) : Nat :=
  if q < N then match (t q).c with
    | .live _ v => v
    | _ => 0
  else 0

/-- What `n` slots from `a` on contribute. (proof, no code) -/
def seg (N : Nat) (t : Tbl K Nat) (a n : Nat) : Nat := ((List.range' a n).map (val N t)).sum

theorem seg_add (N : Nat) (t : Tbl K Nat) (a m n : Nat) : seg N t a (m + n) = seg N t a m + seg N t (a + m) n := by
  unfold seg
  rw [← List.range'_append_1, List.map_append, List.sum_append]

theorem seg_beyond (N : Nat) (t : Tbl K Nat) {a : Nat} (n : Nat) (h : N ≤ a) : seg N t a n = 0 := by
  induction n generalizing a with
  | zero => rfl
  | succ n ih =>
    have := ih (a := a + 1) (by omega)
    unfold seg at this ⊢
    rw [List.range'_succ, List.map_cons, List.sum_cons, this, val, if_neg (by omega)]

theorem seg_cut (N : Nat) (t : Tbl K Nat) {a b : Nat} (h : a ≤ b) : seg N t a (b - a) = seg N t a (min b N - a) := by
  by_cases h1 : b ≤ N
  · rw [Nat.min_eq_left h1]
  · rw [Nat.min_eq_right (by omega)]
    by_cases h2 : N ≤ a
    · rw [seg_beyond _ _ _ h2, seg_beyond _ _ _ h2]
    · have : b - a = (N - a) + (b - N) := by omega
      rw [this, seg_add, show a + (N - a) = N from by omega, seg_beyond _ _ _ (Nat.le_refl _), Nat.add_zero]

theorem addAll_vis {N : Nat} {t : Tbl K Nat} (hn : NoMarks t) (temp : Nat) : ∀ n a, a + n ≤ N →
    temp < 2 ^ 64 → addAll temp (vis t a n) = some ((temp + seg N t a n) % 2 ^ 64) := by
  intro n
  induction n generalizing temp with
  | zero => intro a _ h; simp [vis_zero, addAll, seg, Nat.mod_eq_of_lt h]
  | succ n ih =>
    intro a ha ht
    have e : seg N t a (n + 1) = val N t a + seg N t (a + 1) n := by
      unfold seg
      rw [List.range'_succ, List.map_cons, List.sum_cons]
    rw [vis_cons, e]
    by_cases hp : presents (t a) = true
    · obtain ⟨k, v, hc⟩ := (presents_nomarks hn).1 hp
      simp only [hp, if_true, List.cons_append, List.nil_append, addAll, shownPair, hc]
      rw [ih ((temp + v) % 2 ^ 64) (a + 1) (by omega) (Nat.mod_lt _ (by decide)), val, if_pos (by omega), hc]
      simp only
      congr 1
      omega
    · have hv : val N t a = 0 := by
        rw [val]
        split
        · split
          · rename_i k v hc; exact absurd ((presents_nomarks hn).2 ⟨k, v, hc⟩) hp
          · rfl
        · rfl
      simp only [hp, if_false, Bool.false_eq_true, List.nil_append]
      rw [ih temp (a + 1) (by omega) ht, hv, Nat.zero_add]

theorem load_eq {E : Env K} {t : Tbl K Nat} (hn : NoMarks t) {temp : Nat} (ht : temp < 2 ^ 64) {a b : Nat} (hab : a ≤ b) :
    load E t temp a b = some ((temp + seg E.M.total t a (b - a)) % 2 ^ 64) := by
  rw [load, range_spec E t a b _ (Nat.lt_succ_self _), seg_cut _ _ hab]
  simp only
  by_cases h : a ≤ min b E.M.total
  · exact addAll_vis hn temp _ _ (by omega) ht
  · have : min b E.M.total - a = 0 := by omega
    rw [this]
    simp [vis_zero, addAll, seg, Nat.mod_eq_of_lt ht]

theorem aggregate_eq {X : Type} (f : X → Nat) (g : X → Option Nat) : ∀ (l : List X) (agg : Nat),
    (∀ x ∈ l, g x = some (f x % 2 ^ 64)) → agg < 2 ^ 64 →
    aggregate (l.map g) agg = some ((agg + (l.map f).sum) % 2 ^ 64) := by
  intro l
  induction l with
  | nil => intro agg _ h; simp [aggregate, Nat.mod_eq_of_lt h]
  | cons x l ih =>
    intro agg h ha
    rw [List.map_cons, h x (List.mem_cons_self ..), aggregate,
      ih _ (fun y hy => h y (List.mem_cons_of_mem _ hy)) (Nat.mod_lt _ (by decide)), List.map_cons, List.sum_cons]
    congr 1
    omega

/-- The whole table. -/
theorem seg_all {E : Env K} {t : Tbl K Nat} (hn : NoMarks t) {es : List (K × Nat)}
    (he : pairs (vis t 0 E.M.total) = es.map some) : seg E.M.total t 0 E.M.total = (es.map Prod.snd).sum := by
  have key : ∀ n a (es : List (K × Nat)), a + n ≤ E.M.total → pairs (vis t a n) = es.map some →
      seg E.M.total t a n = (es.map Prod.snd).sum := by
    intro n
    induction n with
    | zero =>
      intro a es _ h
      cases es with
      | nil => rfl
      | cons e es => simp [pairs, vis_zero] at h
    | succ n ih =>
      intro a es ha h
      have e : seg E.M.total t a (n + 1) = val E.M.total t a + seg E.M.total t (a + 1) n := by
        unfold seg
        rw [List.range'_succ, List.map_cons, List.sum_cons]
      rw [vis_cons] at h
      rw [e]
      by_cases hp : presents (t a) = true
      · obtain ⟨k, v, hc⟩ := (presents_nomarks hn).1 hp
        simp only [hp, if_true, pairs, List.cons_append, List.nil_append, List.map_cons] at h
        cases es with
        | nil => simp at h
        | cons x es =>
          simp only [List.map_cons, List.cons.injEq] at h
          obtain ⟨h0, h1⟩ := h
          have hx : x = (k, v) := by simp [shownPair, hc] at h0; exact h0.symm
          subst hx
          rw [ih (a + 1) es (by omega) h1, val, if_pos (by omega), hc]
          rfl
      · have hv : val E.M.total t a = 0 := by
          rw [val]
          split
          · split
            · rename_i k v hc; exact absurd ((presents_nomarks hn).2 ⟨k, v, hc⟩) hp
            · rfl
          · rfl
        simp only [hp] at h
        rw [hv, Nat.zero_add]
        exact ih (a + 1) es (by omega) (by simpa using h)
  exact key _ _ es (by omega) he

theorem seg_blocks (N : Nat) (t : Tbl K Nat) (b m : Nat) :
    ((List.range m).map fun i => seg N t (i * b) b).sum = seg N t 0 (m * b) := by
  induction m with
  | zero => simp [seg]
  | succ m ih =>
    rw [List.range_succ, List.map_append, List.sum_append, ih, Nat.succ_mul, seg_add]
    simp

theorem seg_full (N : Nat) (t : Tbl K Nat) {m : Nat} (h : N ≤ m) : seg N t 0 m = seg N t 0 N := by
  have := seg_beyond N t (a := 0 + N) (m - N) (by omega)
  rw [show m = N + (m - N) from by omega, seg_add, this, Nat.add_zero]

/-! ## Properties -/

/-- **C85, static distribution.**  If the ranges of the `p` threads reach the end of the table, the sum is that of the
values in the table, whatever the order in which the threads finish. -/
theorem C85_static {E : Env K} {t : Tbl K Nat} (hI : Inv E t) (hn : NoMarks t) {d : Dict K Nat} (hs : Stores E t d)
    {p wl : Nat} (hw : E.M.total ≤ p * wl) {ids : List Nat} (hids : ids.Perm (List.range p)) :
    ∃ es : List (K × Nat), (es.map Prod.fst).Nodup ∧ (∀ k v, (k, v) ∈ es ↔ d k = some v) ∧
      staticLoad E t wl ids = some ((es.map Prod.snd).sum % 2 ^ 64) := by
  obtain ⟨l, h1, es, h2, h3, h4⟩ := C39_iteration_exactly_once hI hn hs
  rw [begin_spec E t _ (Nat.lt_succ_self _)] at h1
  cases h1
  refine ⟨es, h3, h4, ?_⟩
  rw [staticLoad, aggregate_eq (fun i => seg E.M.total t (i * wl) wl) _ ids 0 (fun i _ => by
    rw [load_eq hn (by decide) (Nat.mul_le_mul_right _ (Nat.le_succ i)), Nat.zero_add, Nat.succ_mul,
      Nat.add_sub_cancel_left]) (by decide)]
  rw [Agg.sum_perm (hids.map _), seg_blocks, seg_full _ _ hw, seg_all hn h2, Nat.zero_add]

/-- `work_load = ceil(capacity / p)` is enough. (`example/range_example.cpp:55`, without the rounding of `double`) -/
theorem C85_work_load {n p : Nat} (hp : 0 < p) : n ≤ p * ((n + p - 1) / p) := by
  have h1 := Nat.div_add_mod (n + p - 1) p
  have h2 := Nat.mod_lt (n + p - 1) hp
  omega

theorem blockLoop_eq {E : Env K} {t : Tbl K Nat} (hn : NoMarks t) {b : Nat} : ∀ (xs : List Nat) (temp i : Nat),
    (∀ x ∈ xs, x * b < E.M.total) → E.M.total ≤ i * b → temp < 2 ^ 64 →
    blockLoop E t b temp (xs ++ [i]) = some ((temp + ((xs ++ [i]).map fun j => seg E.M.total t (j * b) b).sum) % 2 ^ 64) := by
  intro xs
  induction xs with
  | nil =>
    intro temp i _ hi ht
    simp [blockLoop, Nat.not_lt.2 hi, seg_beyond _ _ _ hi, Nat.mod_eq_of_lt ht]
  | cons x xs ih =>
    intro temp i hx hi ht
    rw [List.cons_append, blockLoop, if_pos (hx x (List.mem_cons_self ..)), load_eq hn ht (Nat.le_add_right _ _)]
    simp only
    rw [ih _ i (fun y hy => hx y (List.mem_cons_of_mem _ hy)) hi (Nat.mod_lt _ (by decide)), List.map_cons, List.sum_cons,
      Nat.add_sub_cancel_left]
    congr 1
    omega

theorem sum_add {X : Type} (f g : X → Nat) (l : List X) :
    (l.map fun x => f x + g x).sum = (l.map f).sum + (l.map g).sum := by
  induction l with
  | nil => rfl
  | cons x l ih => simp only [List.map_cons, List.sum_cons, ih]; omega

theorem sum_zero {X : Type} (l : List X) : (l.map fun _ => 0).sum = 0 := by
  induction l with
  | nil => rfl
  | cons x l ih => rw [List.map_cons, List.sum_cons, ih]

theorem sum_shares (f : Nat → Nat) {p : Nat} (own : List Nat) (hown : ∀ i ∈ own, i < p) :
    ((List.range p).map fun i => ((share own i).map f).sum).sum = ((List.range own.length).map f).sum := by
  have key : ∀ js : List Nat, (∀ j ∈ js, j < own.length) →
      ((List.range p).map fun i => ((js.filter fun j => own[j]? = some i).map f).sum).sum = (js.map f).sum := by
    intro js
    induction js with
    | nil =>
      intro _
      simp only [List.filter_nil, List.map_nil, List.sum_nil]
      exact sum_zero _
    | cons j js ih =>
      intro hj
      obtain ⟨o, ho⟩ : ∃ o, own[j]? = some o := ⟨_, List.getElem?_eq_getElem (hj j (List.mem_cons_self ..))⟩
      have hop : o < p := hown o (List.mem_of_getElem? ho)
      have e : (fun i => (((j :: js).filter fun j => own[j]? = some i).map f).sum) =
          fun i => (if o = i then f j else 0) + ((js.filter fun j => own[j]? = some i).map f).sum := by
        funext i
        rw [List.filter_cons, ho]
        by_cases h : o = i <;> simp [h]
      rw [e, sum_add, ih fun x hx => hj x (List.mem_cons_of_mem _ hx),
        Agg.sum_one List.nodup_range (List.mem_range.2 hop) (f j), List.map_cons, List.sum_cons]
  exact key _ fun j hj => List.mem_range.1 hj

/-- **C85, dynamic distribution.**  The threads take blocks from a shared counter, in any order; each of them stops at the
first block behind the table.  The sum is that of the values in the table. -/
theorem C85_dynamic {E : Env K} {t : Tbl K Nat} (hI : Inv E t) (hn : NoMarks t) {d : Dict K Nat} (hs : Stores E t d)
    {p b : Nat} (hp : 0 < p) {own ids : List Nat} (hown : ∀ i ∈ own, i < p) (hids : ids.Perm (List.range p))
    (hstop : ∀ i < p, ∃ xs j, share own i = xs ++ [j] ∧ (∀ x ∈ xs, x * b < E.M.total) ∧ E.M.total ≤ j * b) :
    ∃ es : List (K × Nat), (es.map Prod.fst).Nodup ∧ (∀ k v, (k, v) ∈ es ↔ d k = some v) ∧
      dynamicLoad E t b own ids = some ((es.map Prod.snd).sum % 2 ^ 64) := by
  obtain ⟨l, h1, es, h2, h3, h4⟩ := C39_iteration_exactly_once hI hn hs
  rw [begin_spec E t _ (Nat.lt_succ_self _)] at h1
  cases h1
  refine ⟨es, h3, h4, ?_⟩
  rw [dynamicLoad, aggregate_eq (fun i => ((share own i).map fun j => seg E.M.total t (j * b) b).sum) _ ids 0 (fun i hi => by
    obtain ⟨xs, j, e, e1, e2⟩ := hstop i (List.mem_range.1 (hids.mem_iff.1 hi))
    rw [e, blockLoop_eq hn xs 0 j e1 e2 (by decide), Nat.zero_add]) (by decide)]
  rw [Agg.sum_perm (hids.map _), sum_shares (fun j => seg E.M.total t (j * b) b) own hown, seg_blocks, seg_full, seg_all hn h2,
    Nat.zero_add]
  obtain ⟨xs, j, e, -, e2⟩ := hstop 0 hp
  have hj : j ∈ share own 0 := by rw [e]; simp
  have hj := List.mem_range.1 (List.mem_filter.1 hj).1
  exact Nat.le_trans e2 (Nat.mul_le_mul_right _ (Nat.le_of_lt hj))

end

/-! ## Growing tables -/

section
variable {T A K V : Type} [DecidableEq T] [DecidableEq A] [DecidableEq K] [DecidableEq V] [Inhabited V]

/-- While `_table` is neither marked nor null, the table it points to is complete. -/
theorem sync_rest {u m : Bool} {ok : Op K V → Prop} {s : Sync.DSt T A K V} {d : Dict K V} (h : Sync.DInv u m ok s d) {a : A}
    (ha : s.p.table = .clear a) : Sync.TabOK m (s.env a) (s.mem a) d := by
  have hg := h.sinv.glob
  have hst := h.stage
  unfold Sync.Glob at hg
  unfold Sync.St.stage at hst
  cases hp : s.p.phase <;> rw [hp] at hg hst <;> simp only [ha] at hg hst
  all_goals first
    | exact hst.1
    | exact absurd hg.1 (by simp)

/-- A table without successor that the global pointer shows is complete. -/
theorem async_rest {u : Bool} {ok : Op K V → Prop} {s : Async.DSt T A K V} {d : Dict K V} {D : A → Dict K V}
    (h : Async.DInv u ok s d D) {o : Async.Obj A} (ho : s.p.heap s.p.glob = some o) (hn : o.next = none) :
    Inv (s.env s.p.glob) (published (s.mem s.p.glob)) ∧ NoMarks (published (s.mem s.p.glob)) ∧
      Stores (s.env s.p.glob) (published (s.mem s.p.glob)) d := by
  by_cases hc : s.p.glob = s.p.cur
  · rw [hc] at ho ⊢
    exact ⟨h.tabs.cur.inv, h.tabs.solo o ho hn, h.tabs.cur.stores⟩
  · obtain ⟨-, h1, h2⟩ := h.tabs.done hc
    exact ⟨h1.inv, h2, h1.stores⟩

/-- **C85, iteration over a table with synchronised growth.**  Whenever no growth is under way (`_table` is neither marked
nor null), iterating over the table that is then not modified ends and shows exactly the elements that the calls so far
have left behind, each once.  Missing: the executions excluded by `C30_linearizable_partial`. -/
theorem C85_sync_partial {u : Bool} {ok : Op K V → Prop} {E : Env K} (hE : E.OK)
    (hcombo : E.M.cm = true → E.M.cp = true) (hmix : Mix E.m ok) {a0 a : A}
    {l : List (Ev T (Op K V) (SRes V))} {s : Sync.DSt T A K V}
    (h : Exec (Sync.DStepW u ok) (Sync.DSt.init E a0) l s) (ha : s.p.table = .clear a) :
    ∃ d, Legal (Sync.growObj E.m) (fun _ => none) (effects l) d ∧
      ∃ seen, BIt.walk (published (s.mem a)) ((s.env a).M.total + 1) (BIt.begin (s.env a) (published (s.mem a))) = some seen ∧
        Shows seen d := by
  obtain ⟨-, d, hl, hI⟩ := Sync.dexec_explained ⟨hE, hcombo, rfl⟩ hmix h
  have := sync_rest hI ha
  exact ⟨d, hl, C39_iteration_exactly_once this.inv this.marks this.stores⟩

/-- **C85, iteration over a table with asynchronous growth**, if no migration has begun.  Missing: the executions excluded
by `C24_linearizable_partial`. -/
theorem C85_async_partial {u : Bool} {ok : Op K V → Prop} (hok : ∀ op, ok op → op.isSafe)
    {E : Env K} (hE : E.OK) (hcombo : E.M.cm = true → E.M.cp = true) (hm : E.m = true) {a0 : A}
    {l : List (Ev T (Op K V) (SRes V))} {s : Async.DSt T A K V}
    (h : Exec (Async.DStepW u ok) (Async.DSt.init E a0) l s) {o : Async.Obj A} (ho : s.p.heap s.p.glob = some o)
    (hn : o.next = none) :
    ∃ ev d, visible ev = l ∧ Legal (Sync.growObj true) (fun _ => none) (effects ev) d ∧
      ∃ seen, BIt.walk (published (s.mem s.p.glob)) ((s.env s.p.glob).M.total + 1)
          (BIt.begin (s.env s.p.glob) (published (s.mem s.p.glob))) = some seen ∧ Shows seen d := by
  obtain ⟨ev, d, D, hv, -, hl, hI⟩ := Async.dexec_explained hok ⟨hE, hcombo, hm⟩ h
  obtain ⟨h1, h2, h3⟩ := async_rest hI ho hn
  exact ⟨ev, d, hv, hl, C39_iteration_exactly_once h1 h2 h3⟩

end

/-! ## The example -/

/-- The keys inserted by thread `id` (`example/range_example.cpp:36-41`). -/
def keysOf (n id : Nat) : List Nat := (List.range n).map fun j => 1 + id * n + j

/-- The keys inserted by all threads are those up to `p * n`, each once. -/
theorem C85_keys (n p : Nat) : (List.range p).flatMap (keysOf n) = (List.range (p * n)).map (1 + ·) := by
  induction p with
  | zero => simp
  | succ p ih =>
    rw [List.range_succ, List.flatMap_append, ih, Nat.succ_mul, List.range_add, List.map_append, List.map_map]
    simp [keysOf, Function.comp_def, Nat.add_assoc]

section
variable {T A : Type} [DecidableEq T] [DecidableEq A]

open Agg

theorem only_inserts {m : Bool} {f : Nat → Nat} {es : List (Op Nat Nat × SRes Nat)} {d0 d : Dict Nat Nat}
    (h : Legal (Sync.growObj m) d0 es d) (hP : ∀ x ∈ es, ∃ k, x.1 = .insert k (f k)) (k v : Nat) :
    d k = some v ↔ d0 k = some v ∨ d0 k = none ∧ v = f k ∧ ∃ r, (.insert k (f k), r) ∈ es := by
  induction h with
  | nil => simp
  | @cons d d1 d2 o r l h hl ih =>
    obtain ⟨k', rfl⟩ : ∃ k, o = .insert k (f k) := hP _ (List.mem_cons_self ..)
    rw [ih fun x hx => hP x (List.mem_cons_of_mem _ hx)]
    rcases h with ⟨h, -⟩ | ⟨⟨_, _, _, _, h, -⟩, -⟩
    · have e : d1 = (((Op.insert k' (f k')).toSpec m).sem d).1 := h
      simp only [Op.toSpec, SOp.sem] at e
      by_cases hk : k = k'
      · subst hk
        rcases Option.eq_none_or_eq_some (d k) with hd | ⟨w, hd⟩
        · simp only [hd] at e
          subst e
          simp [Dict.put, hd, eq_comm]
        · simp only [hd] at e
          subst e
          simp [hd]
      · have e1 : d1 k = d k := by
          rw [e]
          split <;> simp [Dict.put, hk]
        rw [e1]
        simp [hk]
    · cases h

theorem le_sum {x : Nat} : ∀ {l : List Nat}, x ∈ l → x ≤ l.sum := by
  intro l
  induction l with
  | nil => intro h; cases h
  | cons y l ih =>
    intro h
    rw [List.sum_cons]
    rcases List.mem_cons.1 h with rfl | h'
    · omega
    · have := ih h'; omega

theorem filled {m : Bool} {f : Nat → Nat} {ks : List Nat} {ev : List (Ev T (Op Nat Nat) (SRes Nat))}
    {q : T → Phase (Op Nat Nat) (SRes Nat)} {d : Dict Nat Nat} (hw : WellFormed (fun _ => .idle) ev q)
    (hl : Legal (Sync.growObj m) (fun _ => none) (effects ev) d) (hQ : Quiet (visible ev))
    (hc : ((callsOf (visible ev)).map Prod.snd).Perm (ks.map fun k => .insert k (f k))) (k v : Nat) :
    d k = some v ↔ k ∈ ks ∧ v = f k := by
  have hcall : Only (fun o => ∃ k ∈ ks, o = .insert k (f k)) ev := by
    intro i o ho
    have h1 : o ∈ (callsOf (visible ev)).map Prod.snd := List.mem_map.2 ⟨(i, o), mem_callsOf.2 (call_visible ho), rfl⟩
    obtain ⟨k, hk, rfl⟩ := List.mem_map.1 (hc.mem_iff.1 h1)
    exact ⟨k, hk, rfl⟩
  have heff := effects_only hw (fun _ _ h => by cases h) hcall
  rw [only_inserts hl (fun x hx => by obtain ⟨k, -, h⟩ := heff x hx; exact ⟨k, h⟩)]
  constructor
  · rintro (h | ⟨-, h1, r, h2⟩)
    · cases h
    · obtain ⟨k', hk', e⟩ := heff _ h2
      cases e
      exact ⟨hk', h1⟩
  · rintro ⟨hk, rfl⟩
    refine .inr ⟨rfl, rfl, ?_⟩
    have hi := hQ.idle hw
    have h1 : callSum (fun o => if o.key = k then 1 else 0) ev = linSum (fun o _ => if o.key = k then 1 else 0) ev := by
      rw [quiet_calls hw hi, quiet_sums hw hi]
    rw [← callSum_visible, callSum_calls, Agg.sum_perm (hc.map _), linSum_eq, List.map_map] at h1
    have h2 := le_sum (List.mem_map.2 ⟨k, hk, rfl⟩ : _ ∈ ks.map ((fun o : Op Nat Nat => if o.key = k then 1 else 0) ∘
      fun k => Op.insert k (f k)))
    rw [h1] at h2
    change (if k = k then 1 else 0) ≤ _ at h2
    rw [if_pos rfl] at h2
    obtain ⟨x, hx, hne⟩ : ∃ x ∈ effects ev, x.1.key = k := by
      by_cases hex : ∃ x ∈ effects ev, x.1.key = k
      · exact hex
      · exfalso
        have : ((effects ev).map fun x => if x.1.key = k then 1 else 0).sum = 0 := by
          rw [List.map_congr_left (g := fun _ => 0) fun x hx => if_neg fun h => hex ⟨x, hx, h⟩]
          exact sum_zero _
        omega
    obtain ⟨k', -, e⟩ := heff x hx
    rw [e] at hne
    have hne : k' = k := hne
    subst hne
    exact ⟨x.2, by rw [← e]; exact hx⟩

theorem total_eq {d : Dict Nat Nat} {ks : List Nat} (hn : ks.Nodup) (hd : ∀ k v, d k = some v ↔ k ∈ ks ∧ v = k)
    {es : List (Nat × Nat)} (h1 : (es.map Prod.fst).Nodup) (h2 : ∀ k v, (k, v) ∈ es ↔ d k = some v) :
    (es.map Prod.snd).sum = ks.sum := by
  have e : es.map Prod.snd = es.map Prod.fst := List.map_congr_left fun x hx => by
    obtain ⟨k, v⟩ := x
    exact ((hd k v).1 ((h2 k v).1 hx)).2
  rw [e]
  refine Agg.sum_perm ((List.perm_ext_iff_of_nodup h1 hn).2 fun k => ?_)
  rw [List.mem_map]
  constructor
  · rintro ⟨⟨k', v⟩, hx, rfl⟩
    exact ((hd k' v).1 ((h2 k' v).1 hx)).1
  · intro hk
    exact ⟨(k, k), (h2 k k).2 ((hd k k).2 ⟨hk, rfl⟩), rfl⟩

/-- The number that the example expects: the sum of 1, …, `p * n`, on 64-bit words.
(`example/range_example.cpp:107-108`) -/
def expected (n p : Nat) : Nat := ((List.range (p * n)).map (1 + ·)).sum % 2 ^ 64

/-- All threads have inserted their keys. (`example/range_example.cpp:31-46`) -/
structure Inserted (n p : Nat) (h : List (Ev T (Op Nat Nat) (SRes Nat))) : Prop where
  quiet : Quiet h
  calls : ((callsOf h).map Prod.snd).Perm (((List.range p).flatMap (keysOf n)).map fun k => .insert k k)

/-- Both sums of the example are the expected one: with static distribution for every `work_load` that is large enough,
with dynamic distribution for every block size and every order of the `fetch_add`s. (specification, no code) -/
structure Sums (n p : Nat) (E : Env Nat) (t : Tbl Nat Nat) : Prop where
  static : ∀ {q wl : Nat} {ids : List Nat}, E.M.total ≤ q * wl → ids.Perm (List.range q) →
    staticLoad E t wl ids = some (expected n p)
  dynamic : ∀ {q b : Nat} {own ids : List Nat}, 0 < q → (∀ i ∈ own, i < q) → ids.Perm (List.range q) →
    (∀ i < q, ∃ xs j, share own i = xs ++ [j] ∧ (∀ x ∈ xs, x * b < E.M.total) ∧ E.M.total ≤ j * b) →
    dynamicLoad E t b own ids = some (expected n p)

theorem sums {n p : Nat} {m : Bool} {ev : List (Ev T (Op Nat Nat) (SRes Nat))} {q : T → Phase (Op Nat Nat) (SRes Nat)}
    {d : Dict Nat Nat} (hw : WellFormed (fun _ => .idle) ev q)
    (hl : Legal (Sync.growObj m) (fun _ => none) (effects ev) d) (hR : Inserted n p (visible ev)) {E : Env Nat}
    {t : Tbl Nat Nat} (hI : Inv E t) (hn : NoMarks t) (hs : Stores E t d) : Sums n p E t := by
  have hd := filled (f := id) hw hl hR.quiet hR.calls
  have hnd : ((List.range p).flatMap (keysOf n)).Nodup := by
    rw [C85_keys]
    exact List.Pairwise.map _ (fun a b hab => by omega) List.nodup_range
  refine ⟨fun hw hids => ?_, fun hq hown hids hstop => ?_⟩
  · obtain ⟨es, h1, h2, h3⟩ := C85_static hI hn hs hw hids
    rw [h3, total_eq hnd hd h1 h2, C85_keys]
    rfl
  · obtain ⟨es, h1, h2, h3⟩ := C85_dynamic hI hn hs hq hown hids hstop
    rw [h3, total_eq hnd hd h1 h2, C85_keys]
    rfl

/-- **C85, the example, synchronised growth.**  Missing: the executions excluded by `C30_linearizable_partial`. -/
theorem C85_example_sync_partial {u : Bool} {ok : Op Nat Nat → Prop} {E : Env Nat} (hE : E.OK)
    (hcombo : E.M.cm = true → E.M.cp = true) (hmix : Mix E.m ok) {a0 a : A}
    {l : List (Ev T (Op Nat Nat) (SRes Nat))} {s : Sync.DSt T A Nat Nat}
    (h : Exec (Sync.DStepW u ok) (Sync.DSt.init E a0) l s) (ha : s.p.table = .clear a) {n p : Nat}
    (hR : Inserted n p (visible l)) : Sums n p (s.env a) (published (s.mem a)) := by
  obtain ⟨hw, d, hl, hI⟩ := Sync.dexec_explained ⟨hE, hcombo, rfl⟩ hmix h
  have := sync_rest hI ha
  exact sums hw hl hR this.inv this.marks this.stores

/-- **C85, the example, asynchronous growth.**  Missing: the executions excluded by `C24_linearizable_partial`. -/
theorem C85_example_async_partial {u : Bool} {ok : Op Nat Nat → Prop} (hok : ∀ op, ok op → op.isSafe)
    {E : Env Nat} (hE : E.OK) (hcombo : E.M.cm = true → E.M.cp = true) (hm : E.m = true) {a0 : A}
    {l : List (Ev T (Op Nat Nat) (SRes Nat))} {s : Async.DSt T A Nat Nat}
    (h : Exec (Async.DStepW u ok) (Async.DSt.init E a0) l s) {o : Async.Obj A} (ho : s.p.heap s.p.glob = some o)
    (hn : o.next = none) {n p : Nat} (hR : Inserted n p l) :
    Sums n p (s.env s.p.glob) (published (s.mem s.p.glob)) := by
  obtain ⟨ev, d, D, hv, hw, hl, hI⟩ := Async.dexec_explained hok ⟨hE, hcombo, hm⟩ h
  obtain ⟨h1, h2, h3⟩ := async_rest hI ho hn
  exact sums hw hl (hv ▸ hR) h1 h2 h3

end

/-! ## Examples -/

open Agg

/-- Two keys are inserted. (model bookkeeping, no code) -/
def exRuns : List (Op Nat Nat × SRes Nat) := [(.insert 1 1, ⟨true, none⟩), (.insert 2 2, ⟨true, none⟩)]

theorem ex_inserted : Inserted 1 2 (inTurn exRuns) := ⟨quiet_inTurn _, .refl _⟩

/-- Two threads take blocks of 1000 slots in turn; the table of the examples has 1536 slots, blocks 2 and 3 are behind it. -/
theorem ex_shares {E : Env Nat} (hE : E.M.total = 1536) : ∀ i < 2, ∃ xs j, share [0, 1, 0, 1] i = xs ++ [j] ∧
    (∀ x ∈ xs, x * 1000 < E.M.total) ∧ E.M.total ≤ j * 1000 := by
  intro i hi
  rw [hE]
  match i, hi with
  | 0, _ => exact ⟨[0], 2, by decide, by decide, by decide⟩
  | 1, _ => exact ⟨[1], 3, by decide, by decide, by decide⟩

/-- **C85, not vacuous for synchronised growth**: keys 1 and 2; both sums are 3. -/
theorem C85_sync_not_vacuous : ∃ (l : List (Ev Nat (Op Nat Nat) (SRes Nat))) (s : Sync.DSt Nat Nat Nat Nat),
    Exec (Sync.DStepW false Sync.exOk) (Sync.DSt.init exE 0) l s ∧ s.p.table = .clear 0 ∧ Inserted 1 2 (visible l) ∧
    staticLoad (s.env 0) (published (s.mem 0)) 384 [2, 0, 3, 1] = some 3 ∧
    dynamicLoad (s.env 0) (published (s.mem 0)) 1000 [0, 1, 0, 1] [1, 0] = some 3 := by
  obtain ⟨l, s, h, hv, ht, he⟩ := seq_sync_rest (ps := exRuns) (ops := [.insert 1 1, .insert 2 2]) (by
    intro op h
    simp only [List.mem_cons, List.not_mem_nil, or_false] at h
    rcases h with rfl | rfl <;>
      refine ⟨trivial, ?_, ?_⟩ <;> intro k h <;> simp [Op.removes, Op.modifies] at h) (by with_unfolding_all rfl)
  have hR : Inserted 1 2 (visible l) := by rw [hv]; exact ex_inserted
  have hS := C85_example_sync_partial exE_ok (by decide) Sync.exOk_mix h ht hR
  have ht' : (s.env 0).M.total = 1536 := by rw [he]; decide
  exact ⟨l, s, h, ht, hR, hS.static (q := 4) (by rw [ht']; decide) (by decide),
    hS.dynamic (q := 2) (by decide) (by decide) (by decide) (ex_shares ht')⟩

/-- **C85, not vacuous for asynchronous growth**: the same. -/
theorem C85_async_not_vacuous : ∃ s : Async.DSt Nat Nat Nat Nat,
    Exec (Async.DStepW false Op.isSafe) (Async.DSt.init exM 0) (inTurn exRuns) s ∧
    (∃ o, s.p.heap s.p.glob = some o ∧ o.next = none) ∧ Inserted 1 2 (inTurn exRuns) ∧
    staticLoad (s.env s.p.glob) (published (s.mem s.p.glob)) 384 [2, 0, 3, 1] = some 3 ∧
    dynamicLoad (s.env s.p.glob) (published (s.mem s.p.glob)) 1000 [0, 1, 0, 1] [1, 0] = some 3 := by
  obtain ⟨s, h, hg, ho, he⟩ := seq_async_rest (ps := exRuns) (ops := [.insert 1 1, .insert 2 2]) (ok := Op.isSafe) (by
    intro op h
    simp only [List.mem_cons, List.not_mem_nil, or_false] at h
    rcases h with rfl | rfl <;> trivial) (by with_unfolding_all rfl)
  have ho' : s.p.heap s.p.glob = some (Async.tab0 0 none) := by rw [hg]; exact ho
  have hS := C85_example_async_partial (fun _ h => h) exM_ok (by decide) rfl h ho' rfl ex_inserted
  have ht' : (s.env s.p.glob).M.total = 1536 := by rw [he]; show exM.M.total = 1536; decide
  exact ⟨s, h, ⟨_, ho', rfl⟩, ex_inserted, hS.static (q := 4) (by rw [ht']; decide) (by decide),
    hS.dynamic (q := 2) (by decide) (by decide) (by decide) (ex_shares ht')⟩

/-- **C85, the counter is not reset** (`example/range_example.cpp:78`): a second run of `dynamic_blockwise_load` adds
nothing, since all blocks that the threads get are behind the table. -/
theorem C85_second_run {K : Type} {E : Env K} {t : Tbl K Nat} {b i : Nat} (h : E.M.total ≤ i * b) :
    blockLoop E t b 0 [i] = some 0 := by
  simp [blockLoop, Nat.not_lt.2 h]

end RangeSum
end Growt
