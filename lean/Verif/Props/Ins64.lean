import Verif.Props.Ins32
import Mathlib.Data.List.Dedup
import Mathlib.Data.List.Perm.Basic

/-!
# C93: what the insertion benchmark counts if keys repeat
-/

set_option linter.unusedSectionVars false

namespace Growt.Agg

section
variable {T A : Type} [DecidableEq T] [DecidableEq A] [Inhabited A]

/-- 1 if `fill` counts an error for a result of `insert` (`tests/ins_test.cpp:96-103`). -/
def failed (_ : Op Nat Nat) (r : SRes Nat) : Nat := if r.ok then 0 else 1

/-- Does `find_unsucc` count an error, given what the look-up shows (`tests/ins_test.cpp:126-131`). -/
def surprise (s : Option Nat) : Bool := s.isSome

/-- Does `find_succ` count an error for index `i`, given what the look-up shows (`tests/ins_test.cpp:147-152`). -/
def notMine (i : Nat) : Option Nat → Bool
  | none => true
  | some v => decide (v ≠ i + 2)

/-- `fill` has been carried out for every index below `n` once, by any thread, and all its calls have returned
(`tests/ins_test.cpp:90-114, 194-201`); since then there have been look-ups only (`tests/ins_test.cpp:117-157, 203-222`).
The keys are arbitrary: the generator (`tests/ins_test.cpp:76-88`) may repeat them.  That `execute_parallel` hands out each
index once is not part of the repository.  `i + 2` does not wrap around: `keys` has `2 * n` elements of 8 bytes. -/
structure OnceRun (n : Nat) (keys : Nat → Nat) (h1 h2 : List (Ev T (Op Nat Nat) (SRes Nat))) : Prop where
  quiet : Quiet h1
  calls : ((callsOf h1).map Prod.snd).Perm ((List.range n).map fun i => .insert (keys i) (i + 2))
  rest : Only (fun o => ∃ k, o = .find k) h2

/-- The number of different keys of the indices below `n`. (specification, no code) -/
def distinct (n : Nat) (keys : Nat → Nat) : Nat := ((List.range n).map keys).dedup.length

/-- What the benchmark counts: in `fill` and in `find_succ` the number of indices too many for the different keys, in
`find_unsucc` the number of its indices with the key of an index below `n`.  All look-ups of a key show the same.
(specification, no code) -/
structure OnceSeen (n : Nat) (keys : Nat → Nat) (h1 h2 : List (Ev T (Op Nat Nat) (SRes Nat))) : Prop where
  fills : retSum failed h1 + distinct n keys = n
  looks : ∃ look : Nat → Option Nat, (∀ t k r, Ev.ret t (.find k) r ∈ h2 → r.shown = look k) ∧
    (List.range' n n).countP (fun i => surprise (look (keys i))) =
      (List.range' n n).countP (fun i => (List.range n).any fun j => keys j == keys i) ∧
    (List.range n).countP (fun i => notMine i (look (keys i))) + distinct n keys = n

section
variable {m : Bool} {n : Nat} {keys : Nat → Nat} {h1 h2 : List (Ev T (Op Nat Nat) (SRes Nat))}

theorem OnceRun.fill (hR : OnceRun n keys h1 h2) : FillRun (fun i => i + 2) n keys h1 h2 where
  quiet := hR.quiet
  only := fun t o hc => by
    have : o ∈ (callsOf h1).map Prod.snd := List.mem_map.2 ⟨(t, o), mem_callsOf.2 hc, rfl⟩
    obtain ⟨i, hi, e⟩ := List.mem_map.1 (hR.calls.mem_iff.1 this)
    exact ⟨i, List.mem_range.1 hi, e.symm⟩
  all := fun i hi => by
    have : Op.insert (keys i) (i + 2) ∈ (callsOf h1).map Prod.snd :=
      hR.calls.mem_iff.2 (List.mem_map.2 ⟨i, List.mem_range.2 hi, rfl⟩)
    obtain ⟨⟨t, o⟩, hx, e⟩ := List.mem_map.1 this
    have e : o = .insert (keys i) (i + 2) := e
    subst e
    exact ⟨t, mem_callsOf.1 hx⟩
  rest := hR.rest

theorem countP_put {D : List Nat} (hD : D.Nodup) {d : Dict Nat Nat} {k v : Nat} (hk : k ∈ D) (hd : d k = none) :
    D.countP (fun x => ((d.put k v) x).isSome) = D.countP (fun x => (d x).isSome) + 1 := by
  induction D with
  | nil => cases hk
  | cons a D ih =>
    obtain ⟨h1, h2⟩ := List.nodup_cons.1 hD
    rw [List.countP_cons, List.countP_cons]
    by_cases ha : a = k
    · subst ha
      have : D.countP (fun x => ((d.put a v) x).isSome) = D.countP (fun x => (d x).isSome) := by
        refine List.countP_congr fun x hx => ?_
        have : x ≠ a := fun e => h1 (e ▸ hx)
        simp [Dict.put, this]
      rw [this]
      simp [Dict.put, hd]
    · have hk' : k ∈ D := (List.mem_cons.1 hk).resolve_left fun e => ha e.symm
      rw [ih h2 hk']
      simp only [Dict.put, if_neg ha]
      omega

/-- Every successful insertion adds a key. -/
theorem legal_count {D : List Nat} (hD : D.Nodup) {es : List (Op Nat Nat × SRes Nat)} {d d' : Dict Nat Nat}
    (h : Legal (Sync.growObj m) d es d') (hi : ∀ x ∈ es, ∃ k ∈ D, ∃ v, x.1 = .insert k v) :
    D.countP (fun x => (d' x).isSome) + (es.map fun x => failed x.1 x.2).sum =
      D.countP (fun x => (d x).isSome) + es.length := by
  induction h with
  | nil => rfl
  | @cons d d1 d2 o r l h _ ih =>
    obtain ⟨k, hk, v, e⟩ := hi (o, r) (List.mem_cons_self ..)
    have e : o = .insert k v := e
    subst e
    have ih := ih fun x hx => hi x (List.mem_cons_of_mem _ hx)
    rw [List.map_cons, List.sum_cons, List.length_cons]
    suffices hs : D.countP (fun x => (d1 x).isSome) + failed (.insert k v) r = D.countP (fun x => (d x).isSome) + 1 by
      dsimp only at ih ⊢
      omega
    rcases h with ⟨rfl, h1, -⟩ | ⟨⟨_, _, _, _, h, -⟩, -⟩
    · rcases Option.eq_none_or_eq_some (d k) with hd | ⟨w, hd⟩ <;> simp only [Op.toSpec, SOp.sem, hd] at h1 ⊢
      · rw [countP_put hD hk hd, failed, if_pos h1]
      · rw [failed, if_neg (by rw [h1]; decide)]
    · cases h

theorem once_seen (hl : Linearizable (Sync.growObj m) (h1 ++ h2)) (hR : OnceRun n keys h1 h2) : OnceSeen n keys h1 h2 := by
  obtain ⟨l, d, hv, hw, hd, honly, hthere, hlook⟩ := ins_state hl hR.fill
  have hvals : ∀ k v, d k = some v → ∃ j < n, keys j = k ∧ v = j + 2 := fun k v hk => by
    refine ins_values (val := fun i => i + 2) hR.fill hd (fun x hx => ?_) hk
    obtain ⟨i, hi, e⟩ := honly x hx
    obtain ⟨t, hc⟩ := hR.fill.all i hi
    exact ⟨t, List.mem_append.2 (.inl (e ▸ hc))⟩
  refine ⟨?_, d, hlook, ?_, ?_⟩
  · have hc := legal_count (D := ((List.range n).map keys).dedup) (List.nodup_dedup _) hd fun x hx => by
      obtain ⟨i, hi, e⟩ := honly x hx
      exact ⟨keys i, List.mem_dedup.2 (List.mem_map.2 ⟨i, List.mem_range.2 hi, rfl⟩), _, e⟩
    have h0 : ((List.range n).map keys).dedup.countP (fun x => ((Sync.growObj m).init x : Option Nat).isSome) = 0 :=
      List.countP_eq_zero.2 fun x _ => by show ¬ (none : Option Nat).isSome = true; simp
    have hall : ((List.range n).map keys).dedup.countP (fun x => (d x).isSome) = distinct n keys :=
      List.countP_eq_length.2 fun x hx => by
        obtain ⟨i, hi, rfl⟩ := List.mem_map.1 (List.mem_dedup.1 hx)
        exact hthere i (List.mem_range.1 hi)
    have hlen : (effects l).length = n := by
      have e1 : (effects l).length = linSum (fun _ _ => 1) l := by rw [linSum_eq]; simp
      have e2 : callSum (fun _ => 1) h1 = n := by
        have : ∀ h : List (Ev T (Op Nat Nat) (SRes Nat)), callSum (fun _ => 1) h = (callsOf h).length := fun h => by
          induction h with
          | nil => rfl
          | cons e h ih =>
            cases e with
            | call => simp only [callSum, callsOf, ih, List.length_cons]; omega
            | _ => exact ih
        rw [this, ← List.length_map (f := Prod.snd), hR.calls.length_eq]
        simp
      rw [e1, quiet_sums hw fun _ => rfl, ← quiet_calls (g := fun _ => 1) hw fun _ => rfl, ← callSum_visible, hv, e2]
    have hf : ((effects l).map fun x => failed x.1 x.2).sum = retSum failed h1 := by
      rw [← linSum_eq, quiet_sums hw fun _ => rfl, ← retSum_visible, hv]
    rw [h0, hall, hlen, hf] at hc
    omega
  · refine List.countP_congr fun i _ => ?_
    rw [surprise, List.any_eq_true]
    constructor
    · intro h
      obtain ⟨v, hv⟩ := Option.isSome_iff_exists.1 h
      obtain ⟨j, hj, hk, -⟩ := hvals _ _ hv
      exact ⟨j, List.mem_range.2 hj, by simpa using hk⟩
    · rintro ⟨j, hj, hk⟩
      have hk : keys j = keys i := by simpa using hk
      rw [← hk]
      exact hthere j (List.mem_range.1 hj)
  · have hF : ((List.range n).filter fun i => !notMine i (d (keys i))).length = distinct n keys := by
      rw [← List.length_map (f := keys)]
      have hmine : ∀ i, (!notMine i (d (keys i))) = true ↔ d (keys i) = some (i + 2) := fun i => by
        rcases Option.eq_none_or_eq_some (d (keys i)) with h | ⟨w, h⟩ <;> rw [h] <;> simp [notMine]
      refine List.Perm.length_eq ((List.perm_ext_iff_of_nodup ?_ (List.nodup_dedup _)).2 fun k => ?_)
      · refine List.Nodup.map_on (fun i hi j hj e => ?_) (List.nodup_range.filter _)
        have h1 := (hmine i).1 (List.mem_filter.1 hi).2
        have h2 := (hmine j).1 (List.mem_filter.1 hj).2
        rw [e, h2] at h1
        have := Option.some.inj h1
        omega
      · rw [List.mem_dedup, List.mem_map, List.mem_map]
        constructor
        · rintro ⟨i, hi, rfl⟩
          exact ⟨i, (List.mem_filter.1 hi).1, rfl⟩
        · rintro ⟨i, hi, rfl⟩
          obtain ⟨v, hv⟩ := Option.isSome_iff_exists.1 (hthere i (List.mem_range.1 hi))
          obtain ⟨j, hj, hk, rfl⟩ := hvals _ _ hv
          exact ⟨j, List.mem_filter.2 ⟨List.mem_range.2 hj, (hmine j).2 (hk ▸ hv)⟩, hk⟩
    have := List.length_eq_countP_add_countP (fun i => notMine i (d (keys i))) (l := List.range n)
    rw [List.length_range] at this
    rw [← hF, ← List.countP_eq_length_filter]
    simp only [Bool.not_eq_true, Bool.decide_eq_false] at this
    omega

/-- **C93, synchronised growth.**  Missing: the executions excluded by `C30_linearizable_partial`. -/
theorem C93_sync_partial {u : Bool} {ok : Op Nat Nat → Prop} {E : Env Nat} (hE : E.OK)
    (hcombo : E.M.cm = true → E.M.cp = true) (hmix : Mix E.m ok) {a : A}
    {l : List (Ev T (Op Nat Nat) (SRes Nat))} {s : Sync.DSt T A Nat Nat}
    (h : Exec (Sync.DStepW u ok) (Sync.DSt.init E a) l s) (hl : visible l = h1 ++ h2) (hR : OnceRun n keys h1 h2) :
    OnceSeen n keys h1 h2 :=
  once_seen (hl ▸ Sync.C30_linearizable_partial hE hcombo hmix h) hR

/-- **C93, asynchronous growth.**  Missing: the executions excluded by `C24_linearizable_partial`. -/
theorem C93_async_partial {u : Bool} {ok : Op Nat Nat → Prop} (hok : ∀ op, ok op → op.isSafe) {E : Env Nat}
    (hE : E.OK) (hcombo : E.M.cm = true → E.M.cp = true) (hm : E.m = true) {a : A}
    {l : List (Ev T (Op Nat Nat) (SRes Nat))} {s : Async.DSt T A Nat Nat}
    (h : Exec (Async.DStepW u ok) (Async.DSt.init E a) l s) (hl : l = h1 ++ h2) (hR : OnceRun n keys h1 h2) :
    OnceSeen n keys h1 h2 :=
  once_seen (hl ▸ Async.C24_linearizable_partial hok hE hcombo hm h) hR

/-- **C93, no errors**: `fill` counts no error if and only if the keys are different. -/
theorem C93_no_errors (hS : OnceSeen n keys h1 h2) :
    retSum failed h1 = 0 ↔ ∀ i < n, ∀ j < n, keys i = keys j → i = j := by
  have hf := hS.fills
  have hd : distinct n keys = n ↔ ((List.range n).map keys).Nodup := by
    unfold distinct
    constructor
    · intro h
      rw [← List.dedup_eq_self]
      exact (List.dedup_sublist _).eq_of_length (by rw [h]; simp)
    · intro h
      rw [List.dedup_eq_self.2 h]; simp
  rw [show retSum failed h1 = 0 ↔ distinct n keys = n by omega, hd]
  constructor
  · intro h i hi j hj e
    exact List.inj_on_of_nodup_map h (List.mem_range.2 hi) (List.mem_range.2 hj) e
  · intro h
    exact List.Nodup.map_on (fun i hi j hj => h i (List.mem_range.1 hi) j (List.mem_range.1 hj)) List.nodup_range

end

end

/-! ## Examples -/

theorem once_run : OnceRun 3 insKeys (inTurn insFill) (inTurn insFind) where
  quiet := quiet_inTurn _
  calls := by
    rw [callsOf_inTurn]
    simp [insFill, insKeys, List.range, List.range.loop]
  rest := (ins_run 3 insKeys (by simp [insFind])
    (ps := insFill) (by simp [insFill, insKeys, val32, List.range, List.range.loop])).rest

/-- **C93, not vacuous.**  Three insertions, two of them of the same key, and three look-ups, on tables with synchronised
and with asynchronous growth: one insertion fails. -/
theorem C93_not_vacuous :
    (∃ (l : List (Ev Nat (Op Nat Nat) (SRes Nat))) (s : Sync.DSt Nat Nat Nat Nat),
      Exec (Sync.DStepW false Sync.exOk) (Sync.DSt.init exE 0) l s ∧ visible l = inTurn insFill ++ inTurn insFind) ∧
    (∃ s : Async.DSt Nat Nat Nat Nat,
      Exec (Async.DStepW false Op.isSafe) (Async.DSt.init exM 0) (inTurn insFill ++ inTurn insFind) s) ∧
    OnceRun 3 insKeys (inTurn insFill) (inTurn insFind) ∧ distinct 3 insKeys = 2 ∧ retSum failed (inTurn insFill) = 1 := by
  obtain ⟨⟨l, s, h1, h2, -⟩, h3, -⟩ := C92_not_vacuous
  exact ⟨⟨l, s, h1, h2⟩, h3, once_run, by decide, by decide⟩

end Growt.Agg
