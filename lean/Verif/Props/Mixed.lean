import Verif.Props.Reason

/-!
# C83: the mixed benchmark, and examples for C82
-/

set_option linter.unusedSectionVars false

namespace Growt.Agg

section
variable {T A : Type} [DecidableEq T] [DecidableEq A] [Inhabited A]

/-! ## Generating the look-ups -/

/-- `right_bound` in 64 bits (`tests/mix_test.cpp:82`). -/
def rightBound (pre window i : Nat) : Nat := max pre ((i + 2 ^ 64 - window) % 2 ^ 64)

/-- The upper bound of the distribution `safe`, in 64 bits (`tests/mix_test.cpp:93-94`). -/
def safeBound (pre : Nat) : Nat := (pre + 2 ^ 64 - 1) % 2 ^ 64

/-- The loop that draws a key without flag (`tests/mix_test.cpp:86-97`); `draw` and `safe` are what the distributions
give at each try.  The first argument bounds the number of tries, `none`: it does not suffice.  The words written by
other threads meanwhile (`:99`) keep their flag and are not distinguished. -/
def pick (w : Nat → Nat) (draw safe : Nat → Nat) : Nat → Nat → Option Nat
  | 0, _ => none
  | n + 1, tries =>
    let j := if tries + 1 > 100 then safe (tries + 1) else draw (tries + 1)
    if 2 ^ 63 ≤ w j then pick w draw safe n (tries + 1) else some j

/-- The word written to index `i` of the array of keys (`tests/mix_test.cpp:78-100`).  The key drawn has no flag, so
`|=` adds it. -/
def genRead (w : Nat → Nat) (draw safe : Nat → Nat) (i : Nat) : Option Nat :=
  if 2 ^ 63 ≤ w i then (pick w draw safe 101 0).map fun j => 2 ^ 63 + w j else some (w i)

theorem pick_some {w draw safe : Nat → Nat} (hs : ∀ t, w (safe t) < 2 ^ 63) : ∀ n tries, n + tries = 101 → 0 < n →
    ∃ j, pick w draw safe n tries = some j ∧ w j < 2 ^ 63 ∧ ∃ t, j = draw t ∨ j = safe t := by
  intro n
  induction n with
  | zero => intro t _ h; omega
  | succ n ih =>
    intro t ht _
    rw [pick]
    by_cases hf : 2 ^ 63 ≤ w (if t + 1 > 100 then safe (t + 1) else draw (t + 1))
    · simp only [hf, if_true]
      by_cases h100 : t + 1 > 100
      · rw [if_pos h100] at hf
        have := hs (t + 1)
        omega
      · exact ih (t + 1) (by omega) (by omega)
    · simp only [hf, if_false]
      refine ⟨_, rfl, by omega, t + 1, ?_⟩
      split
      · exact .inr rfl
      · exact .inl rfl

/-- **C83, generating the look-ups.**  If there is a prefix and the window does not exceed the index, the loop ends
after at most 101 tries and the look-up at index `i` is for the key of an insertion with smaller index, at most
`max pre (i - window)`. -/
theorem C83_reads {w draw safe : Nat → Nat} {pre window i : Nat} (hp : 0 < pre) (hpi : pre ≤ i) (hw : window ≤ i)
    (hi : i < 2 ^ 64) (hf : ∀ j < pre, w j < 2 ^ 63) (hr : 2 ^ 63 ≤ w i)
    (hd : ∀ t, draw t ≤ rightBound pre window i) (hs : ∀ t, safe t ≤ safeBound pre) :
    ∃ j < i, j ≤ max pre (i - window) ∧ w j < 2 ^ 63 ∧ genRead w draw safe i = some (2 ^ 63 + w j) := by
  have e1 : rightBound pre window i = max pre (i - window) := by
    unfold rightBound
    rw [show i + 2 ^ 64 - window = (i - window) + 2 ^ 64 by omega, Nat.add_mod_right, Nat.mod_eq_of_lt (by omega)]
  have e2 : safeBound pre = pre - 1 := by
    unfold safeBound
    rw [show pre + 2 ^ 64 - 1 = (pre - 1) + 2 ^ 64 by omega, Nat.add_mod_right, Nat.mod_eq_of_lt (by omega)]
  have hs' : ∀ t, w (safe t) < 2 ^ 63 := fun t => hf _ (by have := hs t; omega)
  obtain ⟨j, h1, h2, t, h3⟩ := pick_some (draw := draw) hs' 101 0 rfl (by omega)
  have hj : j ≤ max pre (i - window) := by
    rcases h3 with rfl | rfl
    · rw [← e1]; exact hd t
    · have := hs t; omega
  refine ⟨j, ?_, hj, h2, by rw [genRead, if_pos hr, h1]; rfl⟩
  by_cases hij : j = i
  · subst hij; omega
  · omega

/-- Index 5 looks up the key of index 1: the draws hit a look-up (index 4) once. -/
example : genRead (fun i => if i < 4 then i + 10 else 2 ^ 63) (fun t => if t = 1 then 4 else 1) (fun _ => 0) 5 =
    some (2 ^ 63 + 11) ∧ rightBound 4 1 5 = 4 ∧ safeBound 4 = 3 := by
  refine ⟨?_, by decide, by decide⟩
  simp [genRead, pick]

/-- **C83, what is wrong**: if the window exceeds the index, the bound of the draws is outside the array of `N` words;
without prefix the bound of the "safe" draws is. -/
theorem C83_reads_outside {pre window i N : Nat} (hi : i < window) (hw : window + N ≤ 2 ^ 64) :
    N ≤ rightBound pre window i ∧ safeBound 0 = 2 ^ 64 - 1 := by
  refine ⟨?_, by decide⟩
  unfold rightBound
  rw [Nat.mod_eq_of_lt (by omega)]
  omega

/-- A prefix of 4 words, a window of 10, 100 words. -/
example : 100 ≤ rightBound 4 10 5 := (C83_reads_outside (by decide) (by decide)).1

/-! ## The calls -/

/-- The call for index `i` (`tests/mix_test.cpp:110-114, 130-146`): words with flag are look-ups. -/
def mixCall (w : Nat → Nat) (i : Nat) : Op Nat Nat :=
  if 2 ^ 63 ≤ w i then .find (w i - 2 ^ 63) else .insert (w i) (i + 2)

/-- Is an error counted for index `i` (`tests/mix_test.cpp:114, 135-138, 145`)? -/
def mixErr (w : Nat → Nat) (i : Nat) (r : SRes Nat) : Bool :=
  if 2 ^ 63 ≤ w i then match r.shown with
    | none => false
    | some v => decide (v > i + 2)
  else !r.ok

/-- The calls of the history are those of the indices `idx`, each taken once; look-ups are for keys inserted at a
smaller index (`C83_reads`), the random keys are different (`tests/mix_test.cpp:48-101, 106-150`). -/
structure MixRun (w : Nat → Nat) (idx : List Nat) (h : List (Ev T (Op Nat Nat) (SRes Nat))) : Prop where
  calls : (callsOf h).map Prod.snd = idx.map (mixCall w)
  once : idx.Nodup
  reads : ∀ i ∈ idx, 2 ^ 63 ≤ w i → ∃ j < i, w j < 2 ^ 63 ∧ w i = 2 ^ 63 + w j
  apart : ∀ i j, w i < 2 ^ 63 → w j < 2 ^ 63 → w i = w j → i = j

/-- What the benchmark observes. (specification, no code) -/
structure MixSeen (w : Nat → Nat) (idx : List Nat) (h : List (Ev T (Op Nat Nat) (SRes Nat))) : Prop where
  /-- No error is counted. -/
  noErrors : ∀ t i r, i ∈ idx → Ev.ret t (mixCall w i) r ∈ h → mixErr w i r = false
  /-- A look-up shows nothing, or the value inserted for the key. -/
  values : ∀ t j r, w j < 2 ^ 63 → Ev.ret t (.find (w j)) r ∈ h → r.shown = none ∨ r.shown = some (j + 2)
  /-- A look-up called after the insertion has returned shows it. -/
  found : ∀ a t j b r c, h = a ++ .call t (.find (w j)) :: (b ++ .ret t (.find (w j)) r :: c) → w j < 2 ^ 63 →
    (∃ t' r', Ev.ret t' (mixCall w j) r' ∈ a) → r.shown = some (j + 2)

theorem call_before {O R D : Type} {S : Obj O R D} {h : List (Ev T O R)} (hl : Linearizable S h) {i : T} {o : O} {r : R}
    (hr : Ev.ret i o r ∈ h) : ∃ h1 h2 h3, h = h1 ++ .call i o :: (h2 ++ .ret i o r :: h3) := by
  obtain ⟨a, b, rfl⟩ := List.append_of_mem hr
  rw [← List.singleton_append, ← List.append_assoc] at hl
  obtain ⟨l, p, d, hv, hw, -⟩ := state_prefix hl
  have hc : Ev.call i o ∈ a := by
    refine who_called hw (fun i o => Ev.call i o ∈ a) (by intro i o h; cases h) (by intro i o r h; cases h) ?_ i o r
      (.inr (ret_of_visible (by rw [hv]; simp)))
    intro j o' hj
    have := call_visible hj
    rw [hv] at this
    simpa using this
  obtain ⟨a1, a2, rfl⟩ := List.append_of_mem hc
  exact ⟨a1, a2, b, by simp⟩

theorem callSum_calls {O R : Type} (g : O → Nat) (h : List (Ev T O R)) :
    callSum g h = (((callsOf h).map Prod.snd).map g).sum := by
  induction h with
  | nil => rfl
  | cons e h ih => cases e <;> simp [callsOf, callSum, ih]

theorem sum_once {l : List Nat} (hn : l.Nodup) {f : Nat → Nat} (h1 : ∀ i, f i ≤ 1)
    (h2 : ∀ i j, f i ≠ 0 → f j ≠ 0 → i = j) : (l.map f).sum ≤ 1 := by
  induction l with
  | nil => simp
  | cons i l ih =>
    obtain ⟨hi, hn⟩ := List.nodup_cons.1 hn
    rw [List.map_cons, List.sum_cons]
    by_cases h0 : f i = 0
    · rw [h0, Nat.zero_add]; exact ih hn
    · have : (l.map f).sum = 0 := by
        rw [List.sum_eq_zero_iff_forall_eq_nat]
        intro x hx
        obtain ⟨j, hj, rfl⟩ := List.mem_map.1 hx
        by_cases hz : f j = 0
        · exact hz
        · exact absurd (h2 i j h0 hz ▸ hj) hi
      have := h1 i
      omega

/-- What look-ups say. (specification, no code) -/
def saysLook (o : Op Nat Nat) (r : SRes Nat) : Option (Nat × Bool) :=
  match o with
  | .find k => some (k, r.shown.isSome)
  | _ => none

theorem truthLook (m : Bool) : Truthful (Sync.growObj m) saysLook where
  tells := by
    intro d d' o r k b hl hk
    cases o <;> simp only [saysLook, Option.some.injEq, Prod.mk.injEq, reduceCtorEq] at hk
    obtain ⟨rfl, rfl⟩ := hk
    rw [(find_keeps hl).2.2]

theorem retSum_pos {O R : Type} {f : O → R → Nat} {h : List (Ev T O R)} {t : T} {o : O} {r : R}
    (hr : Ev.ret t o r ∈ h) : f o r ≤ retSum f h := by
  induction h with
  | nil => cases hr
  | cons e h ih =>
    rcases List.mem_cons.1 hr with h' | h'
    · subst h'; simp only [retSum]; omega
    · have := ih h'
      cases e <;> simp only [retSum] <;> omega

theorem mix_seen {m : Bool} {w : Nat → Nat} {idx : List Nat} {h : List (Ev T (Op Nat Nat) (SRes Nat))}
    (hl : Linearizable (Sync.growObj m) h) (hR : MixRun w idx h) : MixSeen w idx h := by
  have hcall : ∀ t o, Ev.call t o ∈ h → ∃ i ∈ idx, o = mixCall w i := by
    intro t o hc
    have : o ∈ (callsOf h).map Prod.snd := List.mem_map.2 ⟨(t, o), mem_callsOf.2 hc, rfl⟩
    rw [hR.calls] at this
    obtain ⟨i, hi, rfl⟩ := List.mem_map.1 this
    exact ⟨i, hi, rfl⟩
  have hput : ∀ k, callSum ((bookG (K := Nat) (V := Nat)).mayPut k) h ≤ 1 := by
    intro k
    rw [callSum_calls, hR.calls, List.map_map]
    have key : ∀ i, ((bookG (K := Nat) (V := Nat)).mayPut k ∘ mixCall w) i ≠ 0 → w i < 2 ^ 63 ∧ w i = k := by
      intro i hi
      simp only [Function.comp, mixCall, Book.mayPut] at hi
      by_cases hf : 2 ^ 63 ≤ w i
      · simp [hf, bookG, putOf] at hi
      · simp only [hf, if_false, bookG, putOf, Option.some.injEq, ne_eq, ite_eq_right_iff, Nat.one_ne_zero,
          imp_false, Decidable.not_not] at hi
        exact ⟨by omega, hi⟩
    refine sum_once hR.once (fun i => ?_) fun i j hi hj => ?_
    · simp only [Function.comp, Book.mayPut]; split <;> omega
    · obtain ⟨a1, a2⟩ := key i hi
      obtain ⟨b1, b2⟩ := key j hj
      exact hR.apart i j a1 b1 (by omega)
  have htake : ∀ k, callSum ((bookG (K := Nat) (V := Nat)).mayTake k) h = 0 := by
    intro k
    refine callSum_none fun t o hc => ?_
    obtain ⟨i, -, rfl⟩ := hcall t o hc
    unfold mixCall
    split <;> rfl
  have hins : ∀ t j r, w j < 2 ^ 63 → Ev.ret t (mixCall w j) r ∈ h → r.ok = true := by
    intro t j r hj hr
    have hm : mixCall w j = .insert (w j) (j + 2) := by rw [mixCall, if_neg (by omega)]
    rw [hm] at hr
    obtain ⟨h1, h2, h3, rfl⟩ := call_before hl hr
    have hput := hput (w j)
    have hc := ((keeperG m (w j)).reasoned (truthG m) hl).there h1 t _ h2 r h3 rfl
    rcases Bool.eq_false_or_eq_true r.ok with ho | ho
    · exact ho
    · have hc := hc (by simp [saysG, saysOf, ho])
      simp only [callSum_append, callSum] at hput
      have : (bookG (K := Nat) (V := Nat)).mayPut (w j) (.insert (w j) (j + 2)) = 1 := by
        simp [Book.mayPut, bookG, putOf]
      omega
  have hval : ∀ t j r, w j < 2 ^ 63 → Ev.ret t (.find (w j)) r ∈ h → r.shown = none ∨ r.shown = some (j + 2) := by
    intro t j r hj hr
    rcases Option.eq_none_or_eq_some r.shown with hs | ⟨v, hs⟩
    · exact .inl hs
    · refine .inr ?_
      have := (keepsG m (w j) (fun v => v = j + 2)).shown hl (fun t o hc => ?_) hr (seenBy_pos rfl hs)
      · rw [hs, this]
      · obtain ⟨i, -, rfl⟩ := hcall t o hc
        intro hk o' ho
        rw [List.mem_singleton] at ho
        subst ho
        by_cases hf : 2 ^ 63 ≤ w i
        · rw [mixCall, if_pos hf]; trivial
        · rw [mixCall, if_neg hf] at hk ⊢
          have : i = j := hR.apart i j (by omega) hj hk
          exact congrArg (· + 2) this
  refine ⟨fun t i r hi hr => ?_, hval, fun a t j b r c he hj ⟨t', r', hr'⟩ => ?_⟩
  · unfold mixErr
    by_cases hf : 2 ^ 63 ≤ w i
    · rw [if_pos hf]
      obtain ⟨j, hji, hj, hw⟩ := hR.reads i hi hf
      rw [mixCall, if_pos hf, hw, Nat.add_sub_cancel_left] at hr
      rcases hval t j r hj hr with hs | hs <;> rw [hs]
      simp; omega
    · rw [if_neg hf, hins t i r (by omega) hr]; rfl
  · subst he
    rcases hval t j r hj (by simp) with hs | hs
    · exfalso
      have hc := ((keeperG m (w j)).reasoned (truthLook m) hl).missing a t _ b r c rfl (by simp [saysLook, hs])
      have ht := htake (w j)
      simp only [callSum_append, callSum] at ht
      have hok := hins t' j r' hj (by simp [hr'])
      have hm : mixCall w j = .insert (w j) (j + 2) := by rw [mixCall, if_neg (by omega)]
      rw [hm] at hr'
      have := retSum_pos (f := (bookG (K := Nat) (V := Nat)).hasPut (w j)) hr'
      simp [Book.hasPut, Book.mayPut, bookG, putOf, hok] at this
      simp [bookG] at hc ht this
      omega
    · exact hs

/-- **C83, synchronised growth.**  Missing: the executions excluded by `C30_linearizable_partial`. -/
theorem C83_sync_partial {u : Bool} {ok : Op Nat Nat → Prop} {E : Env Nat} (hE : E.OK)
    (hcombo : E.M.cm = true → E.M.cp = true) (hmix : Mix E.m ok) {a : A}
    {l : List (Ev T (Op Nat Nat) (SRes Nat))} {s : Sync.DSt T A Nat Nat}
    (h : Exec (Sync.DStepW u ok) (Sync.DSt.init E a) l s) {w : Nat → Nat} {idx : List Nat}
    (hR : MixRun w idx (visible l)) : MixSeen w idx (visible l) :=
  mix_seen (Sync.C30_linearizable_partial hE hcombo hmix h) hR

/-- **C83, asynchronous growth.**  Missing: the executions excluded by `C24_linearizable_partial`. -/
theorem C83_async_partial {u : Bool} {ok : Op Nat Nat → Prop} (hok : ∀ op, ok op → op.isSafe) {E : Env Nat}
    (hE : E.OK) (hcombo : E.M.cm = true → E.M.cp = true) (hm : E.m = true) {a : A}
    {l : List (Ev T (Op Nat Nat) (SRes Nat))} {s : Async.DSt T A Nat Nat}
    (h : Exec (Async.DStepW u ok) (Async.DSt.init E a) l s) {w : Nat → Nat} {idx : List Nat}
    (hR : MixRun w idx l) : MixSeen w idx l :=
  mix_seen (Async.C24_linearizable_partial hok hE hcombo hm h) hR

end

/-! ## Examples -/

/-- Index 0 inserts key 1, index 2 looks it up, index 1 inserts key 2; the others insert keys 3, 4, ….
(model bookkeeping, no code) -/
def mixW (i : Nat) : Nat := if i = 2 then 2 ^ 63 + 1 else if 2 ^ 62 ≤ i then 2 ^ 63 + 1 else i + 1

/-- The three calls, in turn. (model bookkeeping, no code) -/
def mixRuns : List (Op Nat Nat × SRes Nat) := [(.insert 1 2, ⟨true, none⟩), (.insert 2 3, ⟨true, none⟩), (.find 1, ⟨true, some 2⟩)]

theorem mix_run : MixRun mixW [0, 1, 2] (inTurn mixRuns) where
  calls := by
    simp [inTurn, mixRuns, callsOf, mixCall, mixW]
  once := by decide
  reads := by
    intro i _ hi
    refine ⟨0, ?_, by decide, ?_⟩
    · by_cases h : i = 0
      · subst h; simp [mixW] at hi
      · omega
    · unfold mixW at hi ⊢
      split at hi
      · simp [*]
      · split at hi
        · simp [*]
        · omega
  apart := by
    intro i j hi hj h
    unfold mixW at hi hj h
    repeat' split at hi
    all_goals repeat' split at hj
    all_goals first | omega | simp_all

/-- **C82, C83, not vacuous for synchronised growth**: keys 1 and 2 are inserted, key 1 is looked up. -/
theorem C83_sync_not_vacuous : ∃ (l : List (Ev Nat (Op Nat Nat) (SRes Nat))) (s : Sync.DSt Nat Nat Nat Nat),
    Exec (Sync.DStepW false Sync.exOk) (Sync.DSt.init exE 0) l s ∧ visible l = inTurn mixRuns ∧
    MixRun mixW [0, 1, 2] (visible l) ∧ Ev.ret 0 (mixCall mixW 2) ⟨true, some 2⟩ ∈ visible l ∧
    saysG (.find 1) (⟨true, some 2⟩ : SRes Nat) = some (1, true) := by
  obtain ⟨l, s, h, hv⟩ := seq_sync (ps := mixRuns) (ops := [.insert 1 2, .insert 2 3, .find 1]) (by
    intro op h
    simp only [List.mem_cons, List.not_mem_nil, or_false] at h
    rcases h with rfl | rfl | rfl <;>
      refine ⟨trivial, ?_, ?_⟩ <;> intro k h <;> simp [Op.removes, Op.modifies] at h) (by with_unfolding_all rfl)
  exact ⟨l, s, h, hv, hv ▸ mix_run, by rw [hv]; simp [inTurn, mixRuns, mixCall, mixW], rfl⟩

/-- **C82, C83, not vacuous for asynchronous growth**: the same. -/
theorem C83_async_not_vacuous : ∃ s : Async.DSt Nat Nat Nat Nat,
    Exec (Async.DStepW false Op.isSafe) (Async.DSt.init exM 0) (inTurn mixRuns) s ∧
    MixRun mixW [0, 1, 2] (inTurn mixRuns) := by
  obtain ⟨s, h⟩ := seq_async (ps := mixRuns) (ops := [.insert 1 2, .insert 2 3, .find 1]) (ok := Op.isSafe) (by
    intro op h
    simp only [List.mem_cons, List.not_mem_nil, or_false] at h
    rcases h with rfl | rfl | rfl <;> trivial) (by with_unfolding_all rfl)
  exact ⟨s, h, mix_run⟩

/-- **C82, not vacuous for tables of fixed size** (`C79_bounded_not_vacuous`): in `ownHist` the look-up of key 1 says
that it is not there, those of key 2, the erasure of key 1 that they are; an insertion into a full table, one of a key
that is there, and an `erase_if` with the wrong value. -/
theorem C82_bounded_says :
    Ev.ret false (.find 1) ⟨none, none⟩ ∈ ownHist ∧ saysB (.find 1) (⟨none, none⟩ : Ret Nat Nat) = some (1, false) ∧
    Ev.ret true (.find 2) ⟨none, some (2, ⟨false, .live 2 20⟩)⟩ ∈ ownHist ∧
    saysB (.find 2) (⟨none, some (2, ⟨false, .live 2 20⟩)⟩ : Ret Nat Nat) = some (2, true) ∧
    Ev.ret false (.erase 1) ⟨some .SUCCESS_DEL, none⟩ ∈ ownHist ∧
    saysB (.erase 1) (⟨some .SUCCESS_DEL, none⟩ : Ret Nat Nat) = some (1, true) ∧
    saysB (.insert 1 5) (⟨some .UNSUCCESS_FULL, none⟩ : Ret Nat Nat) = some (1, false) ∧
    saysB (.insert 1 5) (⟨some .UNSUCCESS_ALREADY_USED, some (1, ⟨false, .live 1 7⟩)⟩ : Ret Nat Nat) = some (1, true) ∧
    saysB (.eraseIf 1 5) (⟨some .UNSUCCESS_NOT_FOUND, none⟩ : Ret Nat Nat) = none := by
  refine ⟨by simp [ownHist], rfl, by simp [ownHist], rfl, by simp [ownHist], rfl, rfl, rfl, rfl⟩

/-- What results of the other tables say. -/
example : saysT (.insert 1 5) (⟨some .TSX_UNSUCCESS_ALREADY_USED, some (0, 1, 7)⟩ : Tsx.Ret Nat Nat) = some (1, true) ∧
    saysH (.insert 1 5) (⟨false, false, none⟩ : HeapVal.HRes Nat) = some (1, false) ∧
    saysS (.erase 1) (⟨true, none⟩ : SRes Nat) = some (1, true) := by decide

end Growt.Agg
