import Verif.Props.Mixed
import Mathlib.Tactic.LinearCombination
import Mathlib.Tactic.Ring

/-!
# C90: the latency benchmark
-/

set_option linter.unusedSectionVars false

namespace Growt.Agg

section
variable {T A : Type} [DecidableEq T] [DecidableEq A] [Inhabited A]

/-- The keys inserted and looked up successfully (`tests/lat_test.cpp:32, 51, 83`), in 64 bits. -/
def fillKey (i : Nat) : Nat := (2 ^ 62 - 1) &&& (i * 9827345982374782 % 2 ^ 64)

/-- The keys of the look-ups that should find nothing (`tests/lat_test.cpp:32, 65`), in 64 bits. -/
def missKey (i : Nat) : Nat := (2 ^ 62 - 1) &&& (i * 29124898243091298 % 2 ^ 64)

/-- Does `find_unsucc` count an error for index `i`, given what the look-up shows (`tests/lat_test.cpp:66-71`). -/
def missErr (i : Nat) : Option Nat → Bool
  | none => false
  | some v => decide (i * 29124898243091298 % 2 ^ 64 ≠ (v + 2 ^ 64 - 2) * 9827345982374782 % 2 ^ 64)

/-- Does `find_succ` count an error, given what the look-up shows (`tests/lat_test.cpp:84`). -/
def hitErr : Option Nat → Bool
  | none => true
  | some _ => false

/-- `fill` has been carried out, the threads having taken the indices `share`, and all its calls have returned
(`tests/lat_test.cpp:46-57, 116-120`); since then there have been look-ups only (`tests/lat_test.cpp:60-89, 125-141`).
The indices are from 1 to `n` (lines 118, 120); that `execute_parallel` hands out each of them once is not part of the
repository. -/
structure LatRun (n : Nat) (share : T → List Nat) (h1 h2 : List (Ev T (Op Nat Nat) (SRes Nat))) : Prop where
  quiet : Quiet h1
  calls : ∀ t, byThread t h1 = (share t).map fun i => .insert (fillKey i) (i + 2)
  once : ∀ t, (share t).Nodup
  apart : ∀ t t', t ≠ t' → ∀ i ∈ share t, ∀ j ∈ share t', i ≠ j
  all : ∀ i, (1 ≤ i ∧ i ≤ n) ↔ ∃ t, i ∈ share t
  rest : Only (fun o => ∃ k, o = .find k) h2

/-- What the benchmark observes if no error is counted. (specification, no code) -/
structure LatSeen (n : Nat) (h1 h2 : List (Ev T (Op Nat Nat) (SRes Nat))) : Prop where
  fills : ∀ t o r, Ev.ret t o r ∈ h1 → r.ok = true
  misses : ∀ t i r, 1 ≤ i → i ≤ n → Ev.ret t (.find (missKey i)) r ∈ h2 → missErr i r.shown = false
  hits : ∀ t i r, 1 ≤ i → i ≤ n → Ev.ret t (.find (fillKey i)) r ∈ h2 →
    r.shown = some (i + 2) ∧ hitErr r.shown = false

theorem fillKey_eq (i : Nat) : fillKey i = i * 9827345982374782 % 2 ^ 62 := by
  unfold fillKey
  rw [Nat.and_comm, Nat.and_two_pow_sub_one_eq_mod, Nat.mod_mod_of_dvd _ (by decide)]

theorem missKey_eq (i : Nat) : missKey i = i * 29124898243091298 % 2 ^ 62 := by
  unfold missKey
  rw [Nat.and_comm, Nat.and_two_pow_sub_one_eq_mod, Nat.mod_mod_of_dvd _ (by decide)]

/-- An index can be computed from its key. -/
theorem fillKey_index {i : Nat} (hi : i < 2 ^ 61) : fillKey i / 2 * 81913443652881983 % 2 ^ 61 = i := by
  rw [fillKey_eq]
  have h1 : i * 9827345982374782 % 2 ^ 62 / 2 = i * 4913672991187391 % 2 ^ 61 := by omega
  rw [h1]
  omega

/-- **C90, the keys**: up to `2^61 - 1` indices the keys of `fill` are different, not 0 and below `2^62`. -/
theorem C90_keys {i j : Nat} (hi : i < 2 ^ 61) (hj : j < 2 ^ 61) :
    (fillKey i = fillKey j → i = j) ∧ (1 ≤ i → fillKey i ≠ 0) ∧ fillKey i < 2 ^ 62 := by
  refine ⟨fun h => ?_, fun h1 h => ?_, ?_⟩
  · rw [← fillKey_index hi, ← fillKey_index hj, h]
  · have := fillKey_index hi
    rw [h] at this
    simp at this
    omega
  · rw [fillKey_eq]; exact Nat.mod_lt _ (by decide)

theorem mod_diff {x y M : Nat} (h : x % M = y % M) : ∃ t : Int, (x : Int) - y = M * t := by
  have h1 := Nat.div_add_mod x M
  have h2 := Nat.div_add_mod y M
  rw [h] at h1
  refine ⟨(x / M : Nat) - (y / M : Nat), ?_⟩
  generalize y % M = r at *
  generalize x / M = a at *
  generalize y / M = b at *
  subst h1 h2
  push_cast
  ring

theorem half {i j c d M : Nat} (h : i * (2 * c) % (2 * M) = j * (2 * d) % (2 * M)) : i * c % M = j * d % M := by
  have e : ∀ a b : Nat, a * (2 * b) % (2 * M) = 2 * (a * b % M) := fun a b => by
    rw [← Nat.mul_mod_mul_left, Nat.mul_left_comm]
  rw [e, e] at h
  exact Nat.eq_of_mul_eq_mul_left (by decide) h

theorem mod_half {i j c d M : Nat} (h : i * (2 * c) % (2 * M) = j * (2 * d) % (2 * M)) :
    ∃ t : Int, (i : Int) * c - j * d = M * t := by
  obtain ⟨t, ht⟩ := mod_diff (half h)
  exact ⟨t, by rw [← ht]; push_cast; rfl⟩

theorem lat_ab {i j t : Int} (ht : i * 14562449121545649 - j * 4913672991187391 = 2305843009213693952 * t) :
    ∃ a b : Int, i = -1348055807 * a + 372650569 * b ∧ j = 224350095 * a + 1648476871 * b :=
  ⟨2306781194863024 * i - 778355917962126 * j - 365259665291517431 * t,
    612679698465387 * i - 206730863845152 * j - 97012747498864321 * t, by linear_combination 197861934 * ht,
    by linear_combination -104894093 * ht⟩

theorem lat_none {a b : Int} (h1 : 1 ≤ -1348055807 * a + 372650569 * b) (h2 : -1348055807 * a + 372650569 * b ≤ 1648476870)
    (h3 : 1 ≤ 224350095 * a + 1648476871 * b) (h4 : 224350095 * a + 1648476871 * b ≤ 1648476870) : False := by
  rcases Int.lt_or_le a 0 with h5 | h5 <;> rcases Int.lt_or_le b 1 with h6 | h6 <;> omega

theorem lat_bounds {i j : Nat} {a b : Int} (hi : 1 ≤ i) (hi' : i ≤ 1648476870) (hj : 1 ≤ j) (hj' : j ≤ 1648476870)
    (h1 : (i : Int) = -1348055807 * a + 372650569 * b) (h2 : (j : Int) = 224350095 * a + 1648476871 * b) : False :=
  lat_none (a := a) (b := b) (by omega) (by omega) (by omega) (by omega)

theorem lat_apart {i j : Nat} (hi : 1 ≤ i) (hi' : i ≤ 1648476870) (hj : 1 ≤ j) (hj' : j ≤ 1648476870)
    (h : i * (2 * 14562449121545649) % (2 * 2305843009213693952) = j * (2 * 4913672991187391) % (2 * 2305843009213693952)) :
    False := by
  obtain ⟨t, ht⟩ := mod_half h
  simp only [Nat.cast_ofNat] at ht
  obtain ⟨a, b, h1, h2⟩ := lat_ab ht
  exact lat_bounds hi hi' hj hj' h1 h2

/-- **C90, the other keys**: up to 1648476870 indices they are different from those of `fill`; and this is the largest
number for which they are. -/
theorem C90_other_keys : (∀ i j, 1 ≤ i → i ≤ 1648476870 → 1 ≤ j → j ≤ 1648476870 → missKey i ≠ fillKey j) ∧
    missKey 372650569 = fillKey 1648476871 := by
  refine ⟨fun i j hi hi' hj hj' h => ?_, by rw [fillKey_eq, missKey_eq]; decide⟩
  rw [fillKey_eq, missKey_eq] at h
  exact lat_apart hi hi' hj hj' (by simpa only [Nat.reduceMul, Nat.reducePow] using h)

theorem lat_del {n : Nat} (hn : n < 2 ^ 61) {share : T → List Nat} {h1 h2 : List (Ev T (Op Nat Nat) (SRes Nat))}
    (hR : LatRun n share h1 h2) : DelRun fillKey (fun i => i + 2) share (fun _ => []) h1 h2 where
  quiet := hR.quiet
  calls := fun t => by
    rw [hR.calls]
    cases hs : (share t).map fillKey <;> simp [threadCalls, window]
  once := fun t => by
    rw [List.append_nil]
    refine List.pairwise_map.2 ((hR.once t).imp_of_mem fun {i j} hi hj hne e => hne ?_)
    have h1 := (hR.all i).2 ⟨t, hi⟩
    have h2 := (hR.all j).2 ⟨t, hj⟩
    exact (C90_keys (by omega) (by omega)).1 e
  apart := fun t t' ht i hi j hj e => by
    rw [List.append_nil] at hi hj
    have h1 := (hR.all i).2 ⟨t, hi⟩
    have h2 := (hR.all j).2 ⟨t', hj⟩
    exact hR.apart t t' ht i hi j hj ((C90_keys (by omega) (by omega)).1 e)
  finds := hR.rest

theorem lat_found {m : Bool} {n : Nat} (hn : n < 2 ^ 61) {share : T → List Nat}
    {h1 h2 : List (Ev T (Op Nat Nat) (SRes Nat))} (hl : Linearizable (Sync.growObj m) (h1 ++ h2))
    (hR : LatRun n share h1 h2) {t : T} {i : Nat} {r : SRes Nat} (hi : 1 ≤ i) (hi' : i ≤ n)
    (hr : Ev.ret t (.find (fillKey i)) r ∈ h2) : r.shown = some (i + 2) := by
  obtain ⟨t', ht'⟩ := (hR.all i).1 ⟨hi, hi'⟩
  have := (del_seen hl (lat_del hn hR)).found t _ r hr t' i (List.mem_append.2 (.inl ht')) rfl
  rw [this, if_pos (by unfold left; exact List.mem_map_of_mem ht')]

theorem lat_seen {m : Bool} {n : Nat} (hn : n ≤ 1648476870) {share : T → List Nat}
    {h1 h2 : List (Ev T (Op Nat Nat) (SRes Nat))} (hl : Linearizable (Sync.growObj m) (h1 ++ h2))
    (hR : LatRun n share h1 h2) : LatSeen n h1 h2 := by
  have hD := del_seen hl (lat_del (by omega) hR)
  refine ⟨hD.noErrors, fun t i r hi hi' hr => ?_, fun t i r hi hi' hr => ?_⟩
  · rw [hD.missing t _ r hr fun t' hm => ?_]
    · rfl
    · rw [List.append_nil] at hm
      obtain ⟨j, hj, e⟩ := List.mem_map.1 hm
      have h3 := (hR.all j).2 ⟨t', hj⟩
      exact C90_other_keys.1 i j hi (by omega) h3.1 (by omega) e.symm
  · have := lat_found (by omega) hl hR hi hi' hr
    exact ⟨this, by rw [this]; rfl⟩

/-- **C90, synchronised growth.**  Missing: more than 1648476870 indices (`C90_false_error`) and the executions excluded
by `C30_linearizable_partial`. -/
theorem C90_sync_partial {u : Bool} {ok : Op Nat Nat → Prop} {E : Env Nat} (hE : E.OK)
    (hcombo : E.M.cm = true → E.M.cp = true) (hmix : Mix E.m ok) {a : A}
    {l : List (Ev T (Op Nat Nat) (SRes Nat))} {s : Sync.DSt T A Nat Nat}
    (h : Exec (Sync.DStepW u ok) (Sync.DSt.init E a) l s) {n : Nat} (hn : n ≤ 1648476870) {share : T → List Nat}
    {h1 h2 : List (Ev T (Op Nat Nat) (SRes Nat))} (hl : visible l = h1 ++ h2) (hR : LatRun n share h1 h2) :
    LatSeen n h1 h2 :=
  lat_seen hn (hl ▸ Sync.C30_linearizable_partial hE hcombo hmix h) hR

/-- **C90, asynchronous growth.**  Missing: more than 1648476870 indices (`C90_false_error`) and the executions excluded
by `C24_linearizable_partial`. -/
theorem C90_async_partial {u : Bool} {ok : Op Nat Nat → Prop} (hok : ∀ op, ok op → op.isSafe) {E : Env Nat}
    (hE : E.OK) (hcombo : E.M.cm = true → E.M.cp = true) (hm : E.m = true) {a : A}
    {l : List (Ev T (Op Nat Nat) (SRes Nat))} {s : Async.DSt T A Nat Nat}
    (h : Exec (Async.DStepW u ok) (Async.DSt.init E a) l s) {n : Nat} (hn : n ≤ 1648476870) {share : T → List Nat}
    {h1 h2 : List (Ev T (Op Nat Nat) (SRes Nat))} (hl : l = h1 ++ h2) (hR : LatRun n share h1 h2) :
    LatSeen n h1 h2 :=
  lat_seen hn (hl ▸ Async.C24_linearizable_partial hok hE hcombo hm h) hR

/-- **C90 is violated** for more indices: `find_unsucc` finds the key of index 372650569, which is the key inserted for
index 1648476871, and counts an error, although the table is right. -/
theorem C90_false_error {m : Bool} {n : Nat} (hn : 1648476871 ≤ n) (hn' : n < 2 ^ 61) {share : T → List Nat}
    {h1 h2 : List (Ev T (Op Nat Nat) (SRes Nat))} (hl : Linearizable (Sync.growObj m) (h1 ++ h2))
    (hR : LatRun n share h1 h2) {t : T} {r : SRes Nat} (hr : Ev.ret t (.find (missKey 372650569)) r ∈ h2) :
    r.shown = some 1648476873 ∧ missErr 372650569 r.shown = true := by
  rw [C90_other_keys.2] at hr
  have := lat_found hn' hl hR (by omega) hn hr
  exact ⟨this, by rw [this]; decide⟩

end

/-! ## Examples -/

/-- Two insertions, a look-up that finds nothing and one that finds the second element. (example, no code) -/
def latFill : List (Op Nat Nat × SRes Nat) := [(.insert (fillKey 1) 3, ⟨true, none⟩), (.insert (fillKey 2) 4, ⟨true, none⟩)]

/-- The look-ups. (example, no code) -/
def latFind : List (Op Nat Nat × SRes Nat) := [(.find (missKey 1), ⟨false, none⟩), (.find (fillKey 2), ⟨true, some 4⟩)]

/-- Thread 0 takes the indices from 1 to `n`. (example, no code) -/
def latShare (n : Nat) (t : Nat) : List Nat := if t = 0 then List.range' 1 n else []

theorem callsOf_inTurn (ps : List (Op Nat Nat × SRes Nat)) : callsOf (inTurn ps) = ps.map fun x => (0, x.1) := by
  induction ps with
  | nil => rfl
  | cons x ps ih =>
    rw [show inTurn (x :: ps) = .call 0 x.1 :: .ret 0 x.1 x.2 :: inTurn ps from rfl]
    simp only [callsOf, ih, List.map_cons]

/-- The insertions of `fill`, one after the other, are a run of the benchmark. -/
theorem lat_run (n : Nat) {fs : List (Op Nat Nat × SRes Nat)} (hf : ∀ x ∈ fs, ∃ k, x.1 = .find k)
    {ps : List (Op Nat Nat × SRes Nat)} (hp : ps.map Prod.fst = (List.range' 1 n).map fun i => .insert (fillKey i) (i + 2)) :
    LatRun n (latShare n) (inTurn ps) (inTurn fs) where
  quiet := quiet_inTurn ps
  calls := fun t => by
    unfold byThread latShare
    rw [callsOf_inTurn]
    by_cases ht : t = 0
    · subst ht
      rw [if_pos rfl, ← hp, List.filter_eq_self.2 (fun x hx => by
        obtain ⟨y, _, rfl⟩ := List.mem_map.1 hx
        rfl)]
      simp [List.map_map, Function.comp_def]
    · rw [if_neg ht, List.filter_eq_nil_iff.2 (fun x hx => by
        obtain ⟨y, _, rfl⟩ := List.mem_map.1 hx
        simpa using fun h : 0 = t => ht h.symm)]
      rfl
  once := fun t => by
    unfold latShare
    split
    · exact List.nodup_range'
    · exact List.nodup_nil
  apart := fun t t' ht i hi j hj => by
    unfold latShare at hi hj
    split at hi
    · split at hj
      · omega
      · cases hj
    · cases hi
  all := fun i => by
    constructor
    · intro h
      refine ⟨0, ?_⟩
      unfold latShare
      rw [if_pos rfl, List.mem_range'_1]
      omega
    · rintro ⟨t, h⟩
      unfold latShare at h
      split at h
      · rw [List.mem_range'_1] at h; omega
      · cases h
  rest := fun i o h => by
    rw [← mem_callsOf, callsOf_inTurn] at h
    obtain ⟨x, hx, e⟩ := List.mem_map.1 h
    obtain ⟨k, hk⟩ := hf x hx
    exact ⟨k, by rw [← hk]; exact (congrArg Prod.snd e).symm⟩

/-- Calls one after the other with legal answers are linearizable. -/
theorem lin_inTurn {m : Bool} (ps : List (Op Nat Nat × SRes Nat)) : ∀ {d d' : Dict Nat Nat},
    Legal (Sync.growObj m) d ps d' → ∃ l, visible l = inTurn ps ∧
      WellFormed (fun _ => .idle) l (fun _ => .idle) ∧ Legal (Sync.growObj m) d (effects l) d' := by
  induction ps with
  | nil => intro d d' h; exact ⟨[], rfl, .nil _, h⟩
  | cons x ps ih =>
    intro d d' h
    cases h with
    | @cons _ _ _ o r _ h1 h2 =>
      obtain ⟨l, e1, e2, e3⟩ := ih h2
      refine ⟨.call 0 o :: .lin 0 o r :: .ret 0 o r :: l, ?_, ?_, .cons h1 e3⟩
      · simp only [visible, e1]; rfl
      · refine .call (q := fun t => if t = 0 then .called o else .idle) rfl rfl (fun j hj => if_neg hj) ?_
        refine .lin (q := fun t => if t = 0 then .effected o r else .idle) rfl rfl
          (fun j hj => by simp only [if_neg hj]) ?_
        exact .ret rfl rfl (fun j hj => by simp only [if_neg hj]) e2

theorem legal_append {m : Bool} {a b : List (Op Nat Nat × SRes Nat)} {d d1 d2 : Dict Nat Nat}
    (h1 : Legal (Sync.growObj m) d a d1) (h2 : Legal (Sync.growObj m) d1 b d2) :
    Legal (Sync.growObj m) d (a ++ b) d2 := by
  induction h1 with
  | nil => exact h2
  | cons h _ ih => exact .cons h (ih h2)

theorem legal_fill (m : Bool) : ∀ n, n < 2 ^ 61 → ∃ d : Dict Nat Nat,
    Legal (Sync.growObj m) (fun _ => none)
      ((List.range' 1 n).map fun i => (.insert (fillKey i) (i + 2), ⟨true, some (i + 2)⟩)) d ∧
    (∀ k, (d k).isSome = true → ∃ i, 1 ≤ i ∧ i ≤ n ∧ k = fillKey i) ∧ ∀ i, 1 ≤ i → i ≤ n → d (fillKey i) = some (i + 2) := by
  intro n
  induction n with
  | zero => intro _; exact ⟨_, .nil _, fun k h => by simp at h, fun i h1 h2 => by omega⟩
  | succ n ih =>
    intro hn
    obtain ⟨d, h1, h2, h3⟩ := ih (by omega)
    have hnone : d (fillKey (n + 1)) = none := by
      rcases Option.eq_none_or_eq_some (d (fillKey (n + 1))) with hd | ⟨w, hd⟩
      · exact hd
      · obtain ⟨i, e1, e2, e3⟩ := h2 (fillKey (n + 1)) (by rw [hd]; rfl)
        have := (C90_keys hn (by omega)).1 e3
        omega
    refine ⟨d.put (fillKey (n + 1)) (n + 1 + 2), ?_, ?_, ?_⟩
    · rw [List.range'_concat, List.map_append, Nat.one_mul, Nat.add_comm 1 n]
      refine legal_append h1 (.cons ?_ (.nil _))
      left
      simp only [Op.toSpec, SOp.sem, hnone]
      exact ⟨trivial, rfl, .inr rfl⟩
    · intro k hk
      by_cases he : k = fillKey (n + 1)
      · exact ⟨n + 1, by omega, by omega, he⟩
      · simp only [Dict.put, if_neg he] at hk
        obtain ⟨i, e1, e2, e3⟩ := h2 k hk
        exact ⟨i, e1, by omega, e3⟩
    · intro i e1 e2
      by_cases he : i = n + 1
      · subst he; simp [Dict.put]
      · have : fillKey i ≠ fillKey (n + 1) := fun hc => he ((C90_keys (by omega) hn).1 hc)
        simp only [Dict.put, if_neg this]
        exact h3 i e1 (by omega)

/-- **C90, not vacuous.**  Two insertions and two look-ups on tables with synchronised and with asynchronous growth; and
for every number of indices the violation speaks about a linearizable history with the look-up in question. -/
theorem C90_not_vacuous :
    (∃ (l : List (Ev Nat (Op Nat Nat) (SRes Nat))) (s : Sync.DSt Nat Nat Nat Nat),
      Exec (Sync.DStepW false Sync.exOk) (Sync.DSt.init exE 0) l s ∧ visible l = inTurn latFill ++ inTurn latFind ∧
      LatRun 2 (latShare 2) (inTurn latFill) (inTurn latFind)) ∧
    (∃ s : Async.DSt Nat Nat Nat Nat,
      Exec (Async.DStepW false Op.isSafe) (Async.DSt.init exM 0) (inTurn latFill ++ inTurn latFind) s) ∧
    ∀ m n, 1648476871 ≤ n → n < 2 ^ 61 → ∃ ps, LatRun n (latShare n) (inTurn ps)
        (inTurn [(.find (missKey 372650569), ⟨true, some 1648476873⟩)]) ∧
      Linearizable (Sync.growObj m) (inTurn ps ++ inTurn [(.find (missKey 372650569), ⟨true, some 1648476873⟩)]) := by
  have happ : ∀ a b, inTurn (a ++ b) = inTurn a ++ inTurn b := fun a b => by unfold inTurn; simp
  refine ⟨?_, ?_, fun m n hn hn' => ?_⟩
  · obtain ⟨l, s, h, hv⟩ := seq_sync (ps := latFill ++ latFind) (ops := [.insert (fillKey 1) 3, .insert (fillKey 2) 4,
        .find (missKey 1), .find (fillKey 2)]) (by
      intro op h
      simp only [List.mem_cons, List.not_mem_nil, or_false] at h
      rcases h with rfl | rfl | rfl | rfl <;>
        refine ⟨trivial, ?_, ?_⟩ <;> intro k h <;> simp [Op.removes, Op.modifies] at h) (by with_unfolding_all rfl)
    exact ⟨l, s, h, by rw [hv, happ], lat_run 2 (by simp [latFind]) rfl⟩
  · obtain ⟨s, h⟩ := seq_async (ps := latFill ++ latFind) (ops := [.insert (fillKey 1) 3, .insert (fillKey 2) 4,
        .find (missKey 1), .find (fillKey 2)]) (ok := Op.isSafe) (by
      intro op h
      simp only [List.mem_cons, List.not_mem_nil, or_false] at h
      rcases h with rfl | rfl | rfl | rfl <;> trivial) (by with_unfolding_all rfl)
    exact ⟨s, by rw [← happ]; exact h⟩
  · obtain ⟨d, h1, h2, h3⟩ := legal_fill m n hn'
    refine ⟨(List.range' 1 n).map fun i => (Op.insert (fillKey i) (i + 2), ⟨true, some (i + 2)⟩),
      lat_run n (by simp) (by rw [List.map_map]; rfl), ?_⟩
    · rw [← happ]
      obtain ⟨l, e1, e2, e3⟩ := lin_inTurn (m := m) _ (legal_append h1 (.cons (o := .find (missKey 372650569))
        (r := ⟨true, some 1648476873⟩) (d1 := d) (.inl (by
          have hd : d (missKey 372650569) = some 1648476873 := by
            rw [C90_other_keys.2]; exact h3 1648476871 (by omega) hn
          simp only [Op.toSpec, SOp.sem, hd]
          exact ⟨trivial, rfl, .inr rfl⟩)) (.nil _)))
      exact ⟨l, _, _, e1, e2, e3⟩

end Growt.Agg
