import Verif.Props.Ins64

/-!
# C94: the example program
-/

set_option linter.unusedSectionVars false
set_option linter.unusedSimpArgs false

namespace Growt.Agg

section
variable {T A : Type} [DecidableEq T] [DecidableEq A] [Inhabited A]

/-- The update function of `update_every_scnd` with its argument 42 (`example/example.cpp:87-88`): a lambda, hence without
the member `atomic`.  64-bit numbers are taken as natural numbers: they are at most `n + 42`. -/
def add42 : UpdFn Nat := ⟨fun v => v + 42, fun v => v + 42, none⟩

/-- The results of the updates in the loop of `update_every_scnd`, beginning with key `i`: after a failure the same key is
tried again (`example/example.cpp:85-94`, where the numbers are unsigned and `i -= 2` may wrap around). -/
inductive UpLoop (n : Nat) : Nat → List (Nat × Bool) → Prop
  | done {i} : n ≤ i → UpLoop n i []
  | hit {i l} : i < n → UpLoop n (i + 2) l → UpLoop n i ((i, true) :: l)
  | miss {i l} : i < n → UpLoop n i l → UpLoop n i ((i, false) :: l)

/-- What a returned call means for the loop of `update_every_scnd`. (specification, no code) -/
def upAnswer : Ev T (Op Nat Nat) (SRes Nat) → Option (Nat × Bool)
  | .ret _ (.update k _) r => some (k, r.ok)
  | _ => none

/-- The key of an insertion. (specification, no code) -/
def insKey : T × Op Nat Nat → Option Nat
  | (_, .insert k _) => some k
  | _ => none

/-- The first round of the program: one thread inserts the keys from 1 to `n` (`example/example.cpp:25-37`), one updates
(`example/example.cpp:80-95`), two look up keys (`example/example.cpp:40-48, 52-75`), and all have returned
(`example/example.cpp:169-176`); then there are
look-ups (`example/example.cpp:52-75, 98-129, 180-183`) and uses of `operator[]` with key 11 (`example/example.cpp:131-136,
185`), which are insertions of `mapped_type()` (`migration_table.hpp:249-257`).  In the program `n` is 1000000. -/
structure ExRun (n : Nat) (h1 h2 : List (Ev T (Op Nat Nat) (SRes Nat))) : Prop where
  quiet : Quiet h1
  only : Only (fun o => (∃ k, o = .insert k k) ∨ (∃ k, o = .update k add42) ∨ ∃ k, o = .find k) h1
  inserts : (callsOf h1).filterMap insKey = List.range' 1 n
  updates : UpLoop n 1 (h1.filterMap upAnswer)
  rest : Only (fun o => (∃ k, o = .find k) ∨ (11 ≤ n ∧ o = .insert 11 0)) h2

/-- Does `check_update` print something for key `i`, given what the look-up shows (`example/example.cpp:105-127`). -/
def complains (i : Nat) : Option Nat → Bool
  | none => true
  | some v => if i % 2 = 1 then decide (v ≠ i + 42) else decide (v ≠ i)

/-- What is seen: insertions succeed, look-ups of the first round show a value before or after the update, look-ups of the
second round find exactly the keys from 1 to `n`, with 42 added to
the odd ones below `n`; `check_update` prints nothing, and `operator[]` refers to 53. (specification, no code) -/
structure ExSeen (n : Nat) (h1 h2 : List (Ev T (Op Nat Nat) (SRes Nat))) : Prop where
  inserts : ∀ t k r, Ev.ret t (.insert k k) r ∈ h1 → r.ok = true
  early : ∀ t k r, Ev.ret t (.find k) r ∈ h1 → r.shown = none ∨ (1 ≤ k ∧ k ≤ n ∧ r.shown = some k) ∨
    (k % 2 = 1 ∧ k < n ∧ r.shown = some (k + 42))
  found : ∀ t k r, Ev.ret t (.find k) r ∈ h2 →
    r.shown = if 1 ≤ k ∧ k ≤ n then some (if k % 2 = 1 ∧ k < n then k + 42 else k) else none
  checks : ∀ t i r, 1 ≤ i → i < n → Ev.ret t (.find i) r ∈ h2 → complains i r.shown = false
  index : ∀ t r, 11 < n → Ev.ret t (.insert 11 0) r ∈ h2 → r.ok = false ∧ r.shown = some 53

/-- 1 for a successful update of `k`. (proof, no code) -/
def upHit (k : Nat) (o : Op Nat Nat) (r : SRes Nat) : Nat :=
  match o with
  | .update k' _ => if k' = k ∧ r.ok = true then 1 else 0
  | _ => 0

/-- 1 for an insertion of `k`. (proof, no code) -/
def insOf (k : Nat) (o : Op Nat Nat) : Nat :=
  match o with
  | .insert k' _ => if k' = k then 1 else 0
  | _ => 0

/-- 1 for a failed insertion of `k`. (proof, no code) -/
def insFail (k : Nat) (o : Op Nat Nat) (r : SRes Nat) : Nat := if r.ok then 0 else insOf k o

/-- The content of `k` after `s` successful updates. (proof, no code) -/
def Holds (k s : Nat) (c : Option Nat) : Prop := (c = none ∧ s = 0) ∨ c = some (k + 42 * s)

theorem upLoop_count {n i : Nat} {l : List (Nat × Bool)} (h : UpLoop n i l) (k : Nat) :
    l.countP (fun x => decide (x.1 = k) && x.2) = if i ≤ k ∧ k < n ∧ (k - i) % 2 = 0 then 1 else 0 := by
  induction h with
  | done h => rw [if_neg (by omega)]; rfl
  | @hit i l h _ ih =>
    rw [List.countP_cons, ih]
    by_cases hk : i = k
    · subst hk
      rw [if_neg (fun hc => by omega)]
      simp [h]
    · simp only [hk, decide_false, Bool.false_and, Bool.false_eq_true, if_false, Nat.add_zero]
      congr 1
      simp only [eq_iff_iff]
      omega
  | @miss i l h _ ih => rw [List.countP_cons, ih]; simp

/-- **C94, the loop**: for every `n`, and whatever the number `f k` of failed attempts for key `k`, there is a run of
the loop that ends, with one success and `f k` failures for each odd key `k < n`. -/
theorem C94_loop (n : Nat) (f : Nat → Nat) : ∃ l, UpLoop n 1 l ∧ ∀ k,
    l.count (k, true) = (if k % 2 = 1 ∧ k < n then 1 else 0) ∧
    l.count (k, false) = (if k % 2 = 1 ∧ k < n then f k else 0) := by
  have main : ∀ m i, n ≤ i + m → i % 2 = 1 → ∃ l, UpLoop n i l ∧ ∀ k,
      l.count (k, true) = (if k % 2 = 1 ∧ i ≤ k ∧ k < n then 1 else 0) ∧
      l.count (k, false) = (if k % 2 = 1 ∧ i ≤ k ∧ k < n then f k else 0) := by
    intro m
    induction m with
    | zero =>
      intro i h _
      refine ⟨[], .done h, fun k => ?_⟩
      rw [if_neg (by omega), if_neg (by omega)]
      simp
    | succ m ih =>
      intro i h hi
      by_cases hn : n ≤ i
      · refine ⟨[], .done hn, fun k => ?_⟩
        rw [if_neg (by omega), if_neg (by omega)]
        simp
      · obtain ⟨l, hl, hc⟩ := ih (i + 2) (by omega) (by omega)
        refine ⟨List.replicate (f i) (i, false) ++ (i, true) :: l, ?_, fun k => ?_⟩
        · generalize f i = a
          induction a with
          | zero => exact .hit (by omega) hl
          | succ a iha => exact .miss (by omega) iha
        · obtain ⟨h1, h2⟩ := hc k
          rw [List.count_append, List.count_append, List.count_cons, List.count_cons, h1, h2, List.count_replicate,
            List.count_replicate]
          by_cases hk : i = k
          · subst hk
            have c1 : ¬ (i % 2 = 1 ∧ i + 2 ≤ i ∧ i < n) := by omega
            have c2 : i % 2 = 1 ∧ i ≤ i ∧ i < n := ⟨hi, Nat.le_refl i, by omega⟩
            simp only [if_neg c1, if_pos c2]
            simp
          · have e : (k % 2 = 1 ∧ i + 2 ≤ k ∧ k < n) ↔ (k % 2 = 1 ∧ i ≤ k ∧ k < n) := by omega
            simp only [e]
            simp [hk]
  obtain ⟨l, h1, h2⟩ := main n 1 (by omega) rfl
  refine ⟨l, h1, fun k => ?_⟩
  have e : (k % 2 = 1 ∧ 1 ≤ k ∧ k < n) ↔ (k % 2 = 1 ∧ k < n) := by omega
  have := h2 k
  simpa only [e] using this

theorem retSum_upHit (k : Nat) (h : List (Ev T (Op Nat Nat) (SRes Nat))) :
    retSum (upHit k) h = (h.filterMap upAnswer).countP (fun x => decide (x.1 = k) && x.2) := by
  induction h with
  | nil => rfl
  | cons e h ih =>
    cases e with
    | ret t o r =>
      cases o with
      | update k' f =>
        rw [List.filterMap_cons_some (f := upAnswer) (a := .ret t (.update k' f) r) (b := (k', r.ok)) rfl, List.countP_cons, retSum, ih]
        simp only [upHit, Bool.and_eq_true, decide_eq_true_eq]
        omega
      | _ => rw [List.filterMap_cons_none rfl, retSum, ih]; simp [upHit]
    | _ => rw [List.filterMap_cons_none rfl]; exact ih

theorem callSum_insOf (k : Nat) (h : List (Ev T (Op Nat Nat) (SRes Nat))) :
    callSum (insOf k) h = ((callsOf h).filterMap insKey).count k := by
  induction h with
  | nil => rfl
  | cons e h ih =>
    cases e with
    | call t o =>
      cases o with
      | insert k' v =>
        rw [callsOf, List.filterMap_cons_some (f := insKey) (a := (t, .insert k' v)) (b := k') rfl, List.count_cons, callSum, ih]
        simp only [insOf, beq_iff_eq]
        omega
      | _ => rw [callsOf, List.filterMap_cons_none rfl, callSum, ih]; simp [insOf]
    | _ => exact ih

theorem retSum_each {O R : Type} {f : O → R → Nat} {h : List (Ev T O R)} (hz : retSum f h = 0) {t : T} {o : O} {r : R}
    (hr : Ev.ret t o r ∈ h) : f o r = 0 := by
  induction h with
  | nil => cases hr
  | cons e h ih =>
    rcases List.mem_cons.1 hr with rfl | hr
    · simp only [retSum] at hz; omega
    · refine ih ?_ hr
      cases e <;> simp only [retSum] at hz <;> omega

theorem ex_one {m : Bool} {d d' : Dict Nat Nat} {o : Op Nat Nat} {r : SRes Nat} {k s : Nat}
    (h : (Sync.growObj m).legal d o r d')
    (hi : (∃ k, o = .insert k k) ∨ (∃ k, o = .update k add42) ∨ ∃ k, o = .find k) (hd : Holds k s (d k)) :
    Holds k (s + upHit k o r) (d' k) ∧ insFail k o r + pres (d' k) = pres (d k) + insOf k o := by
  rcases h with ⟨rfl, hr, -⟩ | ⟨⟨_, _, _, _, h, -⟩, -⟩
  · rcases hi with ⟨k', rfl⟩ | ⟨k', rfl⟩ | ⟨k', rfl⟩
    · by_cases hk : k' = k
      · subst hk
        rcases Option.eq_none_or_eq_some (d k') with h | ⟨w, h⟩ <;>
          simp only [Op.toSpec, SOp.sem, h] at hr hd ⊢
        · obtain ⟨-, rfl⟩ | h' := hd
          · simp [Holds, upHit, insFail, insOf, hr, Dict.put, pres]
          · cases h'
        · simp [h, upHit, insFail, insOf, hr, pres, hd]
      · have : (((Op.insert k' k' : Op Nat Nat).toSpec m).sem d).1 k = d k :=
          sem_frame _ _ (by simpa [Op.toSpec, SOp.key] using hk)
        rw [this]
        simp [upHit, insFail, insOf, hk, hd]
    · by_cases hk : k' = k
      · subst hk
        rcases Option.eq_none_or_eq_some (d k') with h | ⟨w, h⟩
        · rw [h] at hd
          have e : (((Op.update k' add42).toSpec m).sem d) = (d, ⟨false, none⟩) := by
            cases m <;> simp [Op.toSpec, SOp.sem, h]
          rw [e] at hr ⊢
          have hr : r.ok = false := hr
          simp [h, upHit, insFail, insOf, hr, pres, hd]
        · rw [h] at hd
          have e : (((Op.update k' add42).toSpec m).sem d) = (d.put k' (w + 42), ⟨true, some (w + 42)⟩) := by
            cases m <;> simp [Op.toSpec, SOp.sem, h, add42, UpdFn.eff]
          rw [e] at hr ⊢
          have hr : r.ok = true := hr
          obtain ⟨h', -⟩ | h' := hd
          · cases h'
          · have h' := Option.some.inj h'
            simp [Holds, h, upHit, insFail, insOf, hr, pres, Dict.put]
            omega
      · have : (((Op.update k' add42).toSpec m).sem d).1 k = d k :=
          sem_frame _ _ (by cases m <;> simpa [Op.toSpec, SOp.key] using hk)
        rw [this]
        simp [upHit, insFail, insOf, hk, hd]
    · simp [upHit, insFail, insOf, Op.toSpec, SOp.sem, hd]
  · rcases hi with ⟨k', rfl⟩ | ⟨k', rfl⟩ | ⟨k', rfl⟩ <;> cases h

theorem ex_all {m : Bool} {k : Nat} {es : List (Op Nat Nat × SRes Nat)} {d d' : Dict Nat Nat}
    (h : Legal (Sync.growObj m) d es d')
    (hi : ∀ x ∈ es, (∃ k, x.1 = .insert k k) ∨ (∃ k, x.1 = .update k add42) ∨ ∃ k, x.1 = .find k) : ∀ s, Holds k s (d k) →
    Holds k (s + (es.map fun x => upHit k x.1 x.2).sum) (d' k) ∧
      (es.map fun x => insFail k x.1 x.2).sum + pres (d' k) = pres (d k) + (es.map fun x => insOf k x.1).sum ∧
      pres (d k) ≤ pres (d' k) := by
  induction h with
  | nil => intro s hs; exact ⟨hs, by simp, Nat.le_refl _⟩
  | @cons d d1 d2 o r l h _ ih =>
    intro s hs
    obtain ⟨h1, h2⟩ := ex_one h (hi (o, r) (List.mem_cons_self ..)) hs
    obtain ⟨h3, h4, h5⟩ := ih (fun x hx => hi x (List.mem_cons_of_mem _ hx)) _ h1
    have h6 : insFail k o r ≤ insOf k o := by unfold insFail; split <;> omega
    simp only [List.map_cons, List.sum_cons]
    exact ⟨by rwa [← Nat.add_assoc], by omega, by omega⟩

/-- A failed insertion finds the key, and it stays. -/
theorem ex_present {m : Bool} {k : Nat} {es : List (Op Nat Nat × SRes Nat)} {d d' : Dict Nat Nat}
    (h : Legal (Sync.growObj m) d es d')
    (hi : ∀ x ∈ es, (∃ k, x.1 = .insert k k) ∨ (∃ k, x.1 = .update k add42) ∨ ∃ k, x.1 = .find k) : ∀ s, Holds k s (d k) →
    1 ≤ (es.map fun x => insOf k x.1).sum → pres (d' k) = 1 := by
  induction h with
  | nil => intro s _ h; simp at h
  | @cons d d1 d2 o r l h hl ih =>
    intro s hs hc
    obtain ⟨h1, h2⟩ := ex_one h (hi (o, r) (List.mem_cons_self ..)) hs
    have hi' := fun x hx => hi x (List.mem_cons_of_mem _ hx)
    simp only [List.map_cons, List.sum_cons] at hc
    by_cases hz : 1 ≤ (l.map fun x => insOf k x.1).sum
    · exact ih hi' _ h1 hz
    · have h5 := (ex_all hl hi' _ h1).2.2
      have hle : pres (d2 k) ≤ 1 := by unfold pres; split <;> omega
      have h6 : pres (d1 k) = 1 := by
        have ho : 1 ≤ insOf k o := by omega
        have : (d1 k).isSome := by
          cases o <;> simp only [insOf] at ho <;> try omega
          split at ho
          · rename_i e; subst e; exact insert_present h (.inr rfl)
          · omega
        simp [pres, this]
      omega

/-- What has returned has had its effect. -/
theorem ret_effect {O R : Type} {p q : T → Phase O R} {l : List (Ev T O R)} (h : WellFormed p l q) {i : T} {o : O} {r : R}
    (hr : Ev.ret i o r ∈ l) : p i = .effected o r ∨ (o, r) ∈ effects l := by
  induction h with
  | nil => cases hr
  | @call p q p' j o' l h hq hf _ ih =>
    rcases List.mem_cons.1 hr with e | hr
    · cases e
    · rcases ih hr with e | e
      · by_cases hj : i = j
        · subst hj; rw [hq] at e; cases e
        · exact .inl (hf i hj ▸ e)
      · exact .inr e
  | @lin p q p' j o' r' l h hq hf _ ih =>
    rcases List.mem_cons.1 hr with e | hr
    · cases e
    · rcases ih hr with e | e
      · by_cases hj : i = j
        · subst hj
          rw [hq] at e
          cases e
          exact .inr (List.mem_cons_self ..)
        · exact .inl (hf i hj ▸ e)
      · exact .inr (List.mem_cons_of_mem _ e)
  | @ret p q p' j o' r' l h hq hf _ ih =>
    rcases List.mem_cons.1 hr with e | hr
    · cases e; exact .inl h
    · rcases ih hr with e | e
      · by_cases hj : i = j
        · subst hj; rw [hq] at e; cases e
        · exact .inl (hf i hj ▸ e)
      · exact .inr e

theorem ret_visible {O R : Type} {l : List (Ev T O R)} {i : T} {o : O} {r : R} (h : Ev.ret i o r ∈ visible l) :
    Ev.ret i o r ∈ l := by
  induction l with
  | nil => exact h
  | cons e l ih =>
    cases e <;> simp only [visible, List.mem_cons] at h ⊢
    · exact h.imp_right ih
    · exact .inr (ih h)
    · exact h.imp_right ih

theorem insert_there {m : Bool} {k v : Nat} {d d' : Dict Nat Nat} {r : SRes Nat}
    (h : (Sync.growObj m).legal d (.insert k v) r d') (hk : (d k).isSome) : d' = d ∧ r.ok = false ∧ r.shown = d k := by
  obtain ⟨w, hw⟩ := Option.isSome_iff_exists.1 hk
  rcases h with ⟨rfl, h1, h2⟩ | ⟨⟨_, _, _, _, h, -⟩, -⟩
  · simp only [Op.toSpec, SOp.sem, hw] at h1 h2 ⊢
    refine ⟨trivial, h1, h2.resolve_left fun hc => ?_⟩
    rw [h1] at hc
    cases hc.2
  · cases h

theorem ex_seen {m : Bool} {n : Nat} {h1 h2 : List (Ev T (Op Nat Nat) (SRes Nat))}
    (hl : Linearizable (Sync.growObj m) (h1 ++ h2)) (hR : ExRun n h1 h2) : ExSeen n h1 h2 := by
  obtain ⟨l, d, hv, hw, hd, hlater⟩ := state_quiet hl hR.quiet
  have honly := effects_only (P := fun o => (∃ k, o = .insert k k) ∨ (∃ k, o = .update k add42) ∨ ∃ k, o = .find k) hw
    (fun _ _ h => by cases h) fun t o hc => hR.only t o (by
      rw [← mem_callsOf] at hc ⊢
      rw [← hv]
      clear * - hc
      induction l with
      | nil => exact hc
      | cons e l ih =>
        cases e <;> simp only [callsOf, visible, List.mem_cons] at hc ⊢
        · exact hc.imp_right ih
        · exact ih hc
        · exact ih hc)
  have hsum : ∀ f : Op Nat Nat → SRes Nat → Nat, ((effects l).map fun x => f x.1 x.2).sum = retSum f h1 := fun f => by
    rw [← linSum_eq, quiet_sums hw fun _ => rfl, ← retSum_visible, hv]
  have hins : ∀ k, ((effects l).map fun x => insOf k x.1).sum = if 1 ≤ k ∧ k ≤ n then 1 else 0 := fun k => by
    rw [hsum fun o _ => insOf k o, ← hv, retSum_visible, ← quiet_calls hw fun _ => rfl, ← callSum_visible, hv,
      callSum_insOf, hR.inserts, List.Nodup.count List.nodup_range']
    simp only [List.mem_range'_1]
    congr 1
    simp only [eq_iff_iff]
    omega
  have hup : ∀ k, ((effects l).map fun x => upHit k x.1 x.2).sum = if 1 ≤ k ∧ k < n ∧ (k - 1) % 2 = 0 then 1 else 0 :=
    fun k => by rw [hsum, retSum_upHit, upLoop_count hR.updates]
  have h0 : ∀ k, Holds k 0 ((Sync.growObj (K := Nat) (V := Nat) m).init k) := fun k => .inl ⟨rfl, rfl⟩
  have hval : ∀ k, d k = if 1 ≤ k ∧ k ≤ n then some (if k % 2 = 1 ∧ k < n then k + 42 else k) else none := by
    intro k
    obtain ⟨a1, a2, -⟩ := ex_all (k := k) hd honly 0 (h0 k)
    have a3 : pres ((Sync.growObj (K := Nat) (V := Nat) m).init k) = 0 := rfl
    rw [hup, Nat.zero_add] at a1
    rw [hins, a3] at a2
    by_cases hk : 1 ≤ k ∧ k ≤ n
    · have a4 := ex_present hd honly 0 (h0 k) (by rw [hins, if_pos hk])
      rw [if_pos hk]
      rcases a1 with ⟨a1, -⟩ | a1
      · rw [a1] at a4; cases a4
      · rw [a1]
        by_cases hb : k % 2 = 1 ∧ k < n
        · rw [if_pos hb, if_pos (by omega)]
        · rw [if_neg hb, if_neg (by omega)]
          rfl
    · rw [if_neg hk] at a2 ⊢
      rcases Option.eq_none_or_eq_some (d k) with h | ⟨w, h⟩
      · exact h
      · rw [h] at a2
        simp [pres] at a2
  have h11 : 11 ≤ n → (d 11).isSome := fun h => by rw [hval, if_pos (by omega)]; rfl
  have stays : ∀ es d1, Legal (Sync.growObj m) d es d1 → (∀ x ∈ es, ∃ j, Ev.call j x.1 ∈ h2) → d1 = d := by
    intro es d1 h
    clear hlater hd hval
    induction h with
    | nil => intro _; rfl
    | @cons d d1 d2 o r l h _ ih =>
      intro hx
      obtain ⟨j, hj⟩ := hx (o, r) (List.mem_cons_self ..)
      have e : d1 = d := by
        rcases hR.rest j o hj with ⟨k', rfl⟩ | ⟨hn, rfl⟩
        · exact (find_keeps h).1
        · exact (insert_there h (h11 hn)).1
      rw [ih (e ▸ h11) (fun x hm => hx x (List.mem_cons_of_mem _ hm)), e]
  have hfound : ∀ t k r, Ev.ret t (.find k) r ∈ h2 → r.shown = d k := by
    intro t k r hr
    obtain ⟨-, es, d1, d2, e1, e2, e3⟩ := hlater t _ r hr
    rw [(find_keeps e2).2.2, stays es d1 e1 e3]
  refine ⟨fun t k r hr => ?_, fun t k r hr => ?_, fun t k r hr => (hfound t k r hr).trans (hval k), fun t i r hi hi' hr => ?_,
    fun t r hn hr => ?_⟩
  · have a2 := (ex_all (k := k) hd honly 0 (h0 k)).2.1
    have a3 : pres ((Sync.growObj (K := Nat) (V := Nat) m).init k) = 0 := rfl
    rw [hins, a3, hsum] at a2
    have hz : retSum (insFail k) h1 = 0 := by
      by_cases hk : 1 ≤ k ∧ k ≤ n
      · have a4 := ex_present hd honly 0 (h0 k) (by rw [hins, if_pos hk])
        rw [if_pos hk] at a2
        omega
      · rw [if_neg hk] at a2
        omega
    have := retSum_each hz hr
    unfold insFail at this
    split at this
    · assumption
    · simp [insOf] at this
  · have hmem := (ret_effect hw (ret_visible (hv ▸ hr))).resolve_left nofun
    obtain ⟨A', B', hAB⟩ := List.append_of_mem hmem
    have hi := hins k
    have hu := hup k
    rw [hAB] at hd honly hi hu
    obtain ⟨d1, g1, g2⟩ := Legal.cut hd
    cases g2 with
    | cons g2 _ =>
    obtain ⟨a1, a2, -⟩ := ex_all (k := k) g1 (fun x hx => honly x (List.mem_append.2 (.inl hx))) 0 (h0 k)
    have a3 : pres ((Sync.growObj (K := Nat) (V := Nat) m).init k) = 0 := rfl
    rw [List.map_append, List.sum_append] at hi hu
    rw [(find_keeps g2).2.2]
    rcases a1 with ⟨a1, -⟩ | a1
    · exact .inl a1
    · have a4 : pres (d1 k) = 1 := by rw [a1]; rfl
      rw [a1]
      by_cases hs : (A'.map fun x => upHit k x.1 x.2).sum = 0
      · refine .inr (.inl ?_)
        rw [hs]
        split at hi
        · rename_i hk; exact ⟨hk.1, hk.2, rfl⟩
        · omega
      · refine .inr (.inr ?_)
        split at hu
        · rename_i hk
          have : (A'.map fun x => upHit k x.1 x.2).sum = 1 := by omega
          rw [this]
          exact ⟨by omega, hk.2.1, rfl⟩
        · omega
  · rw [hfound t i r hr, hval i, if_pos (by omega)]
    unfold complains
    by_cases hb : i % 2 = 1
    · simp [hb, hi']
    · simp [hb]
  · obtain ⟨-, es, d1, d2, e1, e2, e3⟩ := hlater t _ r hr
    rw [stays es d1 e1 e3] at e2
    obtain ⟨-, f2, f3⟩ := insert_there e2 (h11 (by omega))
    refine ⟨f2, f3.trans ?_⟩
    rw [hval, if_pos (by omega), if_pos ⟨rfl, hn⟩]

/-- **C94, synchronised growth.**  Missing: the executions excluded by `C30_linearizable_partial`. -/
theorem C94_sync_partial {u : Bool} {ok : Op Nat Nat → Prop} {E : Env Nat} (hE : E.OK)
    (hcombo : E.M.cm = true → E.M.cp = true) (hmix : Mix E.m ok) {a : A}
    {l : List (Ev T (Op Nat Nat) (SRes Nat))} {s : Sync.DSt T A Nat Nat}
    (h : Exec (Sync.DStepW u ok) (Sync.DSt.init E a) l s) {n : Nat} {h1 h2 : List (Ev T (Op Nat Nat) (SRes Nat))}
    (hl : visible l = h1 ++ h2) (hR : ExRun n h1 h2) : ExSeen n h1 h2 :=
  ex_seen (hl ▸ Sync.C30_linearizable_partial hE hcombo hmix h) hR

/-- **C94, asynchronous growth.**  Missing: the executions excluded by `C24_linearizable_partial`. -/
theorem C94_async_partial {u : Bool} {ok : Op Nat Nat → Prop} (hok : ∀ op, ok op → op.isSafe) {E : Env Nat}
    (hE : E.OK) (hcombo : E.M.cm = true → E.M.cp = true) (hm : E.m = true) {a : A}
    {l : List (Ev T (Op Nat Nat) (SRes Nat))} {s : Async.DSt T A Nat Nat}
    (h : Exec (Async.DStepW u ok) (Async.DSt.init E a) l s) {n : Nat} {h1 h2 : List (Ev T (Op Nat Nat) (SRes Nat))}
    (hl : l = h1 ++ h2) (hR : ExRun n h1 h2) : ExSeen n h1 h2 :=
  ex_seen (hl ▸ Async.C24_linearizable_partial hok hE hcombo hm h) hR

end

/-! ## Examples -/

/-- An update that comes too early; the insertions of the keys from 1 to 12; the updates; a look-up. (example, no code) -/
def exFirst : List (Op Nat Nat × SRes Nat) :=
  (.update 1 add42, ⟨false, none⟩) :: ((List.range' 1 12).map fun i => (.insert i i, ⟨true, none⟩)) ++
  ([1, 3, 5, 7, 9, 11].map fun i => (.update i add42, ⟨true, some (i + 42)⟩)) ++ [(.find 2, ⟨true, some 2⟩)]

/-- The second round: look-ups and `operator[]`. (example, no code) -/
def exSecond : List (Op Nat Nat × SRes Nat) :=
  [(.find 1, ⟨true, some 43⟩), (.find 2, ⟨true, some 2⟩), (.insert 11 0, ⟨false, some 53⟩)]

/-- The calls. (example, no code) -/
def exCalls : List (Op Nat Nat) := (exFirst ++ exSecond).map Prod.fst

theorem exCalls_ok : ∀ op ∈ exCalls, Sync.exOk op := by
  intro op h
  simp only [exCalls, exFirst, exSecond, List.range', List.map_cons, List.map_nil, List.cons_append, List.nil_append,
    List.map_append, List.mem_cons, List.not_mem_nil, or_false] at h
  rcases h with rfl | rfl | rfl | rfl | rfl | rfl | rfl | rfl | rfl | rfl | rfl | rfl | rfl | rfl | rfl | rfl | rfl | rfl |
    rfl | rfl | rfl | rfl | rfl <;> refine ⟨trivial, ?_, ?_⟩ <;> intro k h <;> simp [Op.removes, Op.modifies] at h <;> omega

/-- **C94, not vacuous.**  A run of the program with twelve keys, on tables with synchronised and with asynchronous
growth. -/
theorem C94_not_vacuous :
    (∃ (l : List (Ev Nat (Op Nat Nat) (SRes Nat))) (s : Sync.DSt Nat Nat Nat Nat),
      Exec (Sync.DStepW false Sync.exOk) (Sync.DSt.init exE 0) l s ∧ visible l = inTurn exFirst ++ inTurn exSecond) ∧
    (∃ s : Async.DSt Nat Nat Nat Nat,
      Exec (Async.DStepW false Op.isSafe) (Async.DSt.init exM 0) (inTurn exFirst ++ inTurn exSecond) s) ∧
    ExRun 12 (inTurn exFirst) (inTurn exSecond) := by
  have happ : ∀ a b, inTurn (a ++ b) = inTurn a ++ inTurn b := fun a b => by unfold inTurn; simp
  refine ⟨?_, ?_, quiet_inTurn _, fun i o h => ?_, rfl, ?_, fun i o h => ?_⟩
  · obtain ⟨l, s, h, hv⟩ := seq_sync (ps := exFirst ++ exSecond) (ops := exCalls) exCalls_ok (by with_unfolding_all rfl)
    exact ⟨l, s, h, by rw [hv, happ]⟩
  · obtain ⟨s, h⟩ := seq_async (ps := exFirst ++ exSecond) (ops := exCalls) (ok := Op.isSafe)
      (fun op h => (exCalls_ok op h).1) (by with_unfolding_all rfl)
    exact ⟨s, by rw [← happ]; exact h⟩
  · rw [← mem_callsOf, callsOf_inTurn] at h
    obtain ⟨x, hx, e⟩ := List.mem_map.1 h
    have e : x.1 = o := congrArg Prod.snd e
    subst e
    simp only [exFirst, List.cons_append, List.mem_cons, List.mem_append, List.mem_map, List.not_mem_nil, or_false] at hx
    rcases hx with rfl | ((⟨i, -, rfl⟩ | ⟨i, -, rfl⟩) | rfl)
    · exact .inr (.inl ⟨_, rfl⟩)
    · exact .inl ⟨_, rfl⟩
    · exact .inr (.inl ⟨_, rfl⟩)
    · exact .inr (.inr ⟨_, rfl⟩)
  · exact .miss (by decide) (.hit (by decide) (.hit (by decide) (.hit (by decide) (.hit (by decide) (.hit (by decide)
      (.hit (by decide) (.done (by decide))))))))
  · rw [← mem_callsOf, callsOf_inTurn] at h
    simp only [exSecond, List.map_cons, List.map_nil, List.mem_cons, Prod.mk.injEq, List.not_mem_nil, or_false] at h
    rcases h with ⟨-, rfl⟩ | ⟨-, rfl⟩ | ⟨-, rfl⟩
    · exact .inl ⟨_, rfl⟩
    · exact .inl ⟨_, rfl⟩
    · exact .inr ⟨by decide, rfl⟩

end Growt.Agg
