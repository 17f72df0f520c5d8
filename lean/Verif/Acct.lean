import Verif.Agg

/-!
# One key at a time

What the calls on one key do does not depend on the calls on other keys.  For every sequential object with that
property (`Local`) linearizability restricts to a key; calls on a key that do not overlap behave like sequential
calls; insertions and erasures of a key alternate.
-/

set_option linter.unusedSectionVars false

namespace Growt.Agg

section
variable {T O R K V : Type} [DecidableEq T] [DecidableEq K]

/-! ### Specification -/

/-- The operation of an event. (specification, no code) -/
def opOf : Ev T O R → O
  | .call _ o => o
  | .lin _ o _ => o
  | .ret _ o _ => o

/-- The events of the calls on key `k`. (specification, no code) -/
def onKey (key : O → K) (k : K) (h : List (Ev T O R)) : List (Ev T O R) := h.filter fun e => decide (key (opOf e) = k)

/-- A history in which each call returns before the next one is made; the last one may be open.  The list contains the
calls that have returned, with their results. (specification, no code) -/
inductive Turns : List (Ev T O R) → List (O × R) → Prop where
  | nil : Turns [] []
  | pending (i : T) (o : O) : Turns [.call i o] []
  | turn (i : T) (o : O) (r : R) {l : List (Ev T O R)} {ps : List (O × R)} (h : Turns l ps) :
      Turns (.call i o :: .ret i o r :: l) ((o, r) :: ps)

/-- `d` with the content of key `k` replaced. (proof, no code) -/
def Dict.at (d : Dict K V) (k : K) (x : Option V) : Dict K V := fun k' => if k' = k then x else d k'

/-- A sequential object whose calls concern one key each. (proof, no code) -/
structure Local (S : Obj O R (Dict K V)) (key : O → K) : Prop where
  frame : ∀ {d d' o r k}, S.legal d o r d' → key o ≠ k → d' k = d k
  move : ∀ {d d' o r e}, S.legal d o r d' → e (key o) = d (key o) →
    S.legal e o r (Dict.at e (key o) (d' (key o)))

/-! ### Restriction to a key -/

/-- The phase of a thread, as far as key `k` is concerned. (proof, no code) -/
def phK (key : O → K) (k : K) : Phase O R → Phase O R
  | .idle => .idle
  | .called o => if key o = k then .called o else .idle
  | .effected o r => if key o = k then .effected o r else .idle

theorem onKey_cons (key : O → K) (k : K) (e : Ev T O R) (l : List (Ev T O R)) :
    onKey key k (e :: l) = if key (opOf e) = k then e :: onKey key k l else onKey key k l := by
  simp only [onKey, List.filter_cons, decide_eq_true_eq]

theorem wf_onKey {key : O → K} {k : K} {p q : T → Phase O R} {l : List (Ev T O R)} (h : WellFormed p l q) :
    WellFormed (fun i => phK key k (p i)) (onKey key k l) (fun i => phK key k (q i)) := by
  induction h with
  | nil => exact .nil _
  | @call p q p' i o l h hq hf hl ih =>
    by_cases hk : key o = k
    · simp only [onKey_cons, opOf, hk, if_true]
      exact .call (by simp only [h, phK]) (by simp only [hq, phK, hk, if_true]) (fun j hj => by simp only [hf j hj]) ih
    · simp only [onKey_cons, opOf, hk, if_false]
      have e : (fun i => phK key k (p i)) = fun i => phK key k (q i) := by
        funext j
        by_cases hj : j = i
        · subst hj; simp only [h, hq, phK, hk, if_false]
        · simp only [hf j hj]
      rw [e]; exact ih
  | @lin p q p' i o r l h hq hf hl ih =>
    by_cases hk : key o = k
    · simp only [onKey_cons, opOf, hk, if_true]
      exact .lin (by simp only [h, phK, hk, if_true]) (by simp only [hq, phK, hk, if_true])
        (fun j hj => by simp only [hf j hj]) ih
    · simp only [onKey_cons, opOf, hk, if_false]
      have e : (fun i => phK key k (p i)) = fun i => phK key k (q i) := by
        funext j
        by_cases hj : j = i
        · subst hj; simp only [h, hq, phK, hk, if_false]
        · simp only [hf j hj]
      rw [e]; exact ih
  | @ret p q p' i o r l h hq hf hl ih =>
    by_cases hk : key o = k
    · simp only [onKey_cons, opOf, hk, if_true]
      exact .ret (by simp only [h, phK, hk, if_true]) (by simp only [hq, phK])
        (fun j hj => by simp only [hf j hj]) ih
    · simp only [onKey_cons, opOf, hk, if_false]
      have e : (fun i => phK key k (p i)) = fun i => phK key k (q i) := by
        funext j
        by_cases hj : j = i
        · subst hj; simp only [h, hq, phK, hk, if_false]
        · simp only [hf j hj]
      rw [e]; exact ih

theorem visible_onKey (key : O → K) (k : K) (l : List (Ev T O R)) :
    visible (onKey key k l) = onKey key k (visible l) := by
  induction l with
  | nil => rfl
  | cons e l ih =>
    by_cases hk : key (opOf e) = k <;> cases e <;> simp only [opOf] at hk <;>
      simp only [onKey_cons, visible, opOf, hk, if_true, if_false, ih]

theorem effects_onKey (key : O → K) (k : K) (l : List (Ev T O R)) :
    effects (onKey key k l) = (effects l).filter fun x => decide (key x.1 = k) := by
  induction l with
  | nil => rfl
  | cons e l ih =>
    by_cases hk : key (opOf e) = k <;> cases e <;> simp only [opOf] at hk <;>
      simp only [onKey_cons, effects, opOf, List.filter_cons, hk, decide_true, decide_false, Bool.false_eq_true, if_true,
        if_false, ih]

theorem Legal.onKey {S : Obj O R (Dict K V)} {key : O → K} (hS : Local S key) {k : K} {l : List (O × R)}
    {d d' e : Dict K V} (h : Legal S d l d') (he : e k = d k) :
    ∃ e', Legal S e (l.filter fun x => decide (key x.1 = k)) e' ∧ e' k = d' k := by
  induction h generalizing e with
  | nil => exact ⟨e, .nil _, he⟩
  | @cons d d1 d' o r l h hl ih =>
    by_cases hk : key o = k
    · simp only [List.filter_cons, hk, decide_true, if_true]
      subst hk
      obtain ⟨e', h1, h2⟩ := ih (e := Dict.at e (key o) (d1 (key o))) (by simp [Dict.at])
      exact ⟨e', .cons (hS.move h he) h1, h2⟩
    · simp only [List.filter_cons, hk, decide_false, Bool.false_eq_true, if_false]
      exact ih (he.trans (hS.frame h hk).symm)

/-- **Linearizability restricts to a key.** -/
theorem Linearizable.onKey {S : Obj O R (Dict K V)} {key : O → K} (hS : Local S key) {h : List (Ev T O R)}
    (hl : Linearizable S h) (k : K) : Linearizable S (onKey key k h) := by
  obtain ⟨l, p, d, rfl, hw, hlg⟩ := hl
  obtain ⟨e, he, -⟩ := Legal.onKey hS hlg (k := k) (e := S.init) rfl
  exact ⟨Agg.onKey key k l, _, e, visible_onKey key k l, wf_onKey (key := key) (k := k) hw,
    by rw [effects_onKey]; exact he⟩

/-! ### Calls that do not overlap -/

theorem turns_effects {p q : T → Phase O R} {l : List (Ev T O R)} {ps : List (O × R)} (hw : WellFormed p l q)
    (hp : ∀ i, p i = .idle) (ht : Turns (visible l) ps) : ∃ t, effects l = ps ++ t := by
  generalize hv : visible l = h at ht
  induction ht generalizing p l with
  | nil => exact ⟨_, rfl⟩
  | pending i o => exact ⟨_, rfl⟩
  | turn i o r ht ih =>
    cases hw with
    | nil => cases hv
    | lin h => rw [hp] at h; cases h
    | ret h => rw [hp] at h; cases h
    | @call _ p1 _ i1 o1 l1 h1 hq1 hf1 hl1 =>
      simp only [visible, List.cons.injEq, Ev.call.injEq] at hv
      obtain ⟨⟨rfl, rfl⟩, hv⟩ := hv
      have h1' : ∀ j, j ≠ i1 → p1 j = .idle := fun j hj => by rw [hf1 j hj]; exact hp j
      cases hl1 with
      | nil => cases hv
      | call h => cases hv
      | ret h =>
        simp only [visible, List.cons.injEq, Ev.ret.injEq] at hv
        obtain ⟨⟨rfl, rfl, rfl⟩, hv⟩ := hv
        rw [hq1] at h; cases h
      | @lin _ p2 _ i2 o2 r2 l2 h2 hq2 hf2 hl2 =>
        have : i2 = i1 := Classical.byContradiction fun hj => by rw [h1' _ hj] at h2; cases h2
        subst this
        rw [hq1] at h2; injection h2 with h2; subst h2
        have h2' : ∀ j, j ≠ i2 → p2 j = .idle := fun j hj => by rw [hf2 j hj]; exact h1' j hj
        simp only [visible] at hv
        cases hl2 with
        | nil => cases hv
        | call h => cases hv
        | lin h =>
          exfalso
          rename_i i3 _ _ _ _ _ _
          by_cases hj : i3 = i2
          · subst hj; rw [hq2] at h; cases h
          · rw [h2' _ hj] at h; cases h
        | @ret _ p3 _ i3 o3 r3 l3 h3 hq3 hf3 hl3 =>
          simp only [visible, List.cons.injEq, Ev.ret.injEq] at hv
          obtain ⟨⟨rfl, rfl, rfl⟩, hv⟩ := hv
          rw [hq2] at h3; injection h3 with _ h3; subst h3
          obtain ⟨t, ht⟩ := ih hl3 (fun j => by
            by_cases hj : j = i3
            · subst hj; exact hq3
            · rw [hf3 j hj]; exact h2' j hj) hv
          exact ⟨t, by simp [effects, ht]⟩

/-- **Calls on a key that do not overlap behave sequentially.** -/
theorem Turns.legal {S : Obj O R (Dict K V)} {key : O → K} (hS : Local S key) {h : List (Ev T O R)}
    (hl : Linearizable S h) {k : K} {ps : List (O × R)} (ht : Turns (onKey key k h) ps) :
    ∃ d, Legal S S.init ps d := by
  obtain ⟨l, p, d, hv, hw, hlg⟩ := Linearizable.onKey hS hl k
  rw [← hv] at ht
  obtain ⟨t, he⟩ := turns_effects hw (fun _ => rfl) ht
  rw [he] at hlg
  obtain ⟨m, h1, -⟩ := Legal.cut hlg
  exact ⟨m, h1⟩

/-- The calls of one thread do not overlap. -/
theorem turns_single {p q : T → Phase O R} {l : List (Ev T O R)} (hw : WellFormed p l q) {i : T}
    (hi : ∀ e ∈ l, (∃ o, e = .call i o) ∨ (∃ o r, e = .lin i o r) ∨ ∃ o r, e = .ret i o r) :
    (p i = .idle → ∃ ps, Turns (visible l) ps) ∧
    (∀ o, p i = .called o → ∃ ps, Turns (.call i o :: visible l) ps) ∧
    (∀ o r, p i = .effected o r → ∃ ps, Turns (.call i o :: visible l) ps) := by
  induction hw with
  | nil => exact ⟨fun _ => ⟨_, .nil⟩, fun o _ => ⟨_, .pending i o⟩, fun o r _ => ⟨_, .pending i o⟩⟩
  | @call p q p' j o l h hq hf hl ih =>
    have hj : j = i := by
      rcases hi _ (List.mem_cons_self ..) with ⟨o, h⟩ | ⟨o, r, h⟩ | ⟨o, r, h⟩ <;> cases h; rfl
    subst hj
    obtain ⟨-, h2, -⟩ := ih fun e he => hi e (List.mem_cons_of_mem _ he)
    refine ⟨fun _ => h2 o hq, fun o' h' => ?_, fun o' r' h' => ?_⟩ <;> rw [h] at h' <;> cases h'
  | @lin p q p' j o r l h hq hf hl ih =>
    have hj : j = i := by
      rcases hi _ (List.mem_cons_self ..) with ⟨o, h⟩ | ⟨o, r, h⟩ | ⟨o, r, h⟩ <;> cases h; rfl
    subst hj
    obtain ⟨-, -, h3⟩ := ih fun e he => hi e (List.mem_cons_of_mem _ he)
    refine ⟨fun h' => ?_, fun o' h' => ?_, fun o' r' h' => ?_⟩ <;> rw [h] at h' <;> cases h'
    exact h3 o r hq
  | @ret p q p' j o r l h hq hf hl ih =>
    have hj : j = i := by
      rcases hi _ (List.mem_cons_self ..) with ⟨o, h⟩ | ⟨o, r, h⟩ | ⟨o, r, h⟩ <;> cases h; rfl
    subst hj
    obtain ⟨h1, -, -⟩ := ih fun e he => hi e (List.mem_cons_of_mem _ he)
    refine ⟨fun h' => ?_, fun o' h' => ?_, fun o' r' h' => ?_⟩ <;> rw [h] at h' <;> cases h'
    obtain ⟨ps, hps⟩ := h1 hq
    exact ⟨_, .turn j o r hps⟩

/-- Whoever takes effect or returns has called before. -/
theorem who_called {p q : T → Phase O R} {l : List (Ev T O R)} (hw : WellFormed p l q) (P : T → O → Prop)
    (hp : ∀ i o, p i = .called o → P i o) (hp' : ∀ i o r, p i = .effected o r → P i o)
    (hc : ∀ i o, Ev.call i o ∈ l → P i o) :
    ∀ i o r, Ev.lin i o r ∈ l ∨ Ev.ret i o r ∈ l → P i o := by
  induction hw with
  | nil => intro i o r h; rcases h with h | h <;> cases h
  | @call p q p' j o l h hq hf hl ih =>
    intro i o1 r1 hm
    refine ih (fun i o' hi => ?_) (fun i o' r hi => ?_) (fun i o' hm => hc i o' (List.mem_cons_of_mem _ hm)) i o1 r1 ?_
    · by_cases hj : i = j
      · subst hj; rw [hq] at hi; injection hi with hi; subst hi; exact hc i o (List.mem_cons_self ..)
      · rw [hf _ hj] at hi; exact hp i o' hi
    · by_cases hj : i = j
      · subst hj; rw [hq] at hi; cases hi
      · rw [hf _ hj] at hi; exact hp' i o' r hi
    · rcases hm with hm | hm <;> rcases List.mem_cons.1 hm with hm | hm
      · cases hm
      · exact .inl hm
      · cases hm
      · exact .inr hm
  | @lin p q p' j o r l h hq hf hl ih =>
    intro i o1 r1 hm
    have hP : P j o := hp j o h
    have key := ih (fun i o' hi => ?_) (fun i o' r hi => ?_) (fun i o' hm => hc i o' (List.mem_cons_of_mem _ hm)) i o1 r1
    · rcases hm with hm | hm <;> rcases List.mem_cons.1 hm with hm | hm
      · injection hm with e1 e2 e3; subst e1 e2 e3; exact hP
      · exact key (.inl hm)
      · cases hm
      · exact key (.inr hm)
    · by_cases hj : i = j
      · subst hj; rw [hq] at hi; cases hi
      · rw [hf _ hj] at hi; exact hp i o' hi
    · by_cases hj : i = j
      · subst hj; rw [hq] at hi; injection hi with hi _; subst hi; exact hP
      · rw [hf _ hj] at hi; exact hp' i o' r hi
  | @ret p q p' j o r l h hq hf hl ih =>
    intro i o1 r1 hm
    have hP : P j o := hp' j o r h
    have key := ih (fun i o' hi => ?_) (fun i o' r hi => ?_) (fun i o' hm => hc i o' (List.mem_cons_of_mem _ hm)) i o1 r1
    · rcases hm with hm | hm <;> rcases List.mem_cons.1 hm with hm | hm
      · cases hm
      · exact key (.inl hm)
      · injection hm with e1 e2 e3; subst e1 e2 e3; exact hP
      · exact key (.inr hm)
    · by_cases hj : i = j
      · subst hj; rw [hq] at hi; cases hi
      · rw [hf _ hj] at hi; exact hp i o' hi
    · by_cases hj : i = j
      · subst hj; rw [hq] at hi; cases hi
      · rw [hf _ hj] at hi; exact hp' i o' r hi

/-- **A key used by one thread only**: its calls do not overlap. -/
theorem turns_own {S : Obj O R (Dict K V)} {key : O → K} {h : List (Ev T O R)} (hl : Linearizable S h) {k : K} {i : T}
    (hi : ∀ j o, Ev.call j o ∈ h → key o = k → j = i) : ∃ ps, Turns (onKey key k h) ps := by
  obtain ⟨l, p, d, rfl, hw, hlg⟩ := hl
  rw [← visible_onKey]
  have hw' := wf_onKey (key := key) (k := k) hw
  have hwho := who_called hw (fun j o => key o = k → j = i) (fun _ _ h => by cases h) (fun _ _ _ h => by cases h)
    fun j o hm => hi j o (call_visible hm)
  refine (turns_single hw' (i := i) fun e he => ?_).1 rfl
  obtain ⟨hm, hk⟩ := List.mem_filter.1 he
  have hk' := of_decide_eq_true hk
  cases e with
  | call j o => have := hi j o (call_visible hm) hk'; subst this; exact .inl ⟨o, rfl⟩
  | lin j o r => have := hwho j o r (.inl hm) hk'; subst this; exact .inr (.inl ⟨o, r, rfl⟩)
  | ret j o r => have := hwho j o r (.inr hm) hk'; subst this; exact .inr (.inr ⟨o, r, rfl⟩)

/-! ### States between the calls -/

/-- What has taken effect has been called, and so has an open call. -/
theorem lin_le_open {g : O → Nat} {q : T → Phase O R} {l : List (Ev T O R)} (h : WellFormed (fun _ => .idle) l q)
    {i : T} {o : O} (hi : q i = .called o) : linSum (fun o _ => g o) l + g o ≤ callSum g l := by
  obtain ⟨A, hn, hA⟩ := exists_nodup (i :: threads l)
  have := wf_tokens (g := g) (f := fun _ _ => 0) hn h fun j hj => hA j (List.mem_cons_of_mem _ hj)
  have h0 : retSum (fun (_ : O) (_ : R) => 0) l = 0 := by
    clear h hA this
    induction l with
    | nil => rfl
    | cons e l ih => cases e <;> simp [retSum, ih]
  have h1 : linSum (fun (_ : O) (_ : R) => 0) l = 0 := by
    clear h hA this h0
    induction l with
    | nil => rfl
    | cons e l ih => cases e <;> simp [linSum, ih]
  have h2 : ∀ {B : List T}, i ∈ B → g o ≤ openW g (fun _ _ => 0) q B := by
    intro B hB
    induction B with
    | nil => cases hB
    | cons j B ih =>
      rcases List.mem_cons.1 hB with rfl | hB'
      · simp [openW, hi, phaseW]
      · have := ih hB'; simp only [openW]; omega
  have h3 := h2 (hA i (List.mem_cons_self ..))
  rw [h0, h1, openW_idle fun _ => rfl] at this
  omega

/-- The state in which a call takes effect, and which calls have taken effect before. -/
theorem state_at {D : Type} {S : Obj O R D} {h1 h2 h3 : List (Ev T O R)} {i : T} {o : O} {r : R}
    (hl : Linearizable S (h1 ++ .call i o :: (h2 ++ .ret i o r :: h3))) :
    ∃ x p d d', WellFormed (fun _ => .idle) x p ∧ Legal S S.init (effects x) d ∧ S.legal d o r d' ∧
      (∀ j o', Ev.call j o' ∈ x → Ev.call j o' ∈ h1 ++ .call i o :: h2) ∧
      ∀ (f : O → R → Nat) (g : O → Nat), (∀ o r, f o r ≤ g o) →
        retSum f h1 ≤ linSum f x ∧ linSum f x + g o ≤ callSum g (h1 ++ .call i o :: h2) := by
  obtain ⟨l, p, d, hv, hw, hlg⟩ := hl
  obtain ⟨a, b, rfl, ha, hb⟩ := visible_cut hv
  obtain ⟨b1, b2, rfl, hb1, hb2⟩ := visible_cut hb
  have e1 : a ++ Ev.call i o :: (b1 ++ Ev.ret i o r :: b2) =
      ((a ++ Ev.call i o :: b1) ++ [Ev.ret i o r]) ++ b2 := by simp
  rw [e1] at hw hlg
  obtain ⟨m, hw1, -⟩ := WellFormed.cut hw
  obtain ⟨x, y, hxy, hy⟩ := WellFormed.lin_before_ret (fun _ _ hc => by cases hc) hw1
  have hx : ∃ z, x = a ++ Ev.call i o :: z := by
    rcases List.append_eq_append_iff.1 hxy with ⟨u, h1, h2⟩ | ⟨u, h1, h2⟩
    · cases u with
      | nil => simp at h2
      | cons e u =>
        simp only [List.cons_append, List.cons.injEq] at h2
        exact ⟨u, by rw [h1, ← h2.1]⟩
    · cases u with
      | nil => simp at h2
      | cons e u =>
        simp only [List.cons_append, List.cons.injEq] at h2
        refine absurd rfl (hy (.call i o) ?_ o)
        rw [h2.2]; simp
  obtain ⟨z, rfl⟩ := hx
  rw [hxy] at hw1 hlg
  have e2 : ((a ++ Ev.call i o :: z) ++ Ev.lin i o r :: y) ++ [Ev.ret i o r] ++ b2 =
      (a ++ Ev.call i o :: z) ++ ([Ev.lin i o r] ++ (y ++ [Ev.ret i o r] ++ b2)) := by simp
  rw [e2, effects_append (a ++ Ev.call i o :: z)] at hlg
  obtain ⟨d1, hd1, hlg⟩ := Legal.cut hlg
  obtain ⟨m1, hw2, hw4⟩ := WellFormed.cut (a := a ++ Ev.call i o :: z)
    (b := Ev.lin i o r :: y ++ [Ev.ret i o r]) (by simpa using hw1)
  have hm1 : m1 i = .called o := by cases hw4 with | lin h _ _ _ => exact h
  obtain ⟨m2, hw3, -⟩ := WellFormed.cut hw2
  have hvis : visible (a ++ Ev.call i o :: b1) = h1 ++ Ev.call i o :: h2 := by
    rw [visible_append, ha, ← hb1]; rfl
  obtain ⟨d', hd'⟩ : ∃ d', S.legal d1 o r d' := by cases hlg with | cons h _ => exact ⟨_, h⟩
  refine ⟨_, _, d1, d', hw2, hd1, hd', fun j o' hm => ?_, fun f g hfg => ⟨?_, ?_⟩⟩
  · rw [← hvis, hxy]
    exact call_visible (List.mem_append.2 (.inl hm))
  · rw [← ha, retSum_visible, linSum_append]
    have := ret_le_lin (f := f) hw3
    omega
  · have h4 := lin_le_open (g := g) hw2 hm1
    have h5 := linSum_mono (f := f) (f' := fun o _ => g o) hfg (a ++ Ev.call i o :: z)
    have h6 : callSum g (h1 ++ Ev.call i o :: h2) =
        callSum g (a ++ Ev.call i o :: z) + callSum g y := by
      rw [← hvis, callSum_visible, hxy, callSum_append]; rfl
    omega

theorem visible_split {l h1 h2 : List (Ev T O R)} (hv : visible l = h1 ++ h2) :
    ∃ l1 l2, l = l1 ++ l2 ∧ visible l1 = h1 ∧ visible l2 = h2 := by
  cases h2 with
  | nil => exact ⟨l, [], by simp, by simpa using hv, rfl⟩
  | cons e h2 =>
    obtain ⟨a, b, rfl, ha, hb⟩ := visible_cut hv
    refine ⟨a, e :: b, rfl, ha, ?_⟩
    rw [visible_append, ha] at hv
    exact List.append_cancel_left hv

/-- The state after all calls have returned, and what later calls find. -/
theorem state_quiet {D : Type} {S : Obj O R D} {h1 h2 : List (Ev T O R)} (hl : Linearizable S (h1 ++ h2))
    (hQ : Quiet h1) :
    ∃ l d, visible l = h1 ∧ WellFormed (fun _ => .idle) l (fun _ => .idle) ∧ Legal S S.init (effects l) d ∧
      ∀ i o r, Ev.ret i o r ∈ h2 → (∃ j, Ev.call j o ∈ h2) ∧
        ∃ es d1 d2, Legal S d es d1 ∧ S.legal d1 o r d2 ∧ ∀ x ∈ es, ∃ j, Ev.call j x.1 ∈ h2 := by
  obtain ⟨l, p, d, hv, hw, hlg⟩ := hl
  obtain ⟨l1, l2, rfl, hv1, hv2⟩ := visible_split hv
  subst hv1 hv2
  obtain ⟨m, hw1, hw2⟩ := WellFormed.cut hw
  have hm : m = fun _ => .idle := funext fun j => hQ.idle hw1 j
  subst hm
  rw [effects_append] at hlg
  obtain ⟨d1, hd1, hlg⟩ := Legal.cut hlg
  refine ⟨l1, d1, rfl, hw1, hd1, fun i o r hr => ?_⟩
  have hcalls := effects_only (P := fun o => ∃ j, Ev.call j o ∈ visible l2) hw2 (fun _ _ h => by cases h)
    fun j o hm => ⟨j, call_visible hm⟩
  have hrets := rets_only (P := fun o => ∃ j, Ev.call j o ∈ visible l2) hw2 (fun _ _ h => by cases h)
    (fun _ _ _ h => by cases h) fun j o hm => ⟨j, call_visible hm⟩
  refine ⟨hrets i o r (ret_of_visible hr), ?_⟩
  obtain ⟨x, y, rfl⟩ := List.append_of_mem (ret_of_visible hr)
  obtain ⟨m1, hw3, -⟩ := WellFormed.cut (a := x ++ [Ev.ret i o r]) (b := y) (by simpa using hw2)
  obtain ⟨u, v, rfl, -⟩ := WellFormed.lin_before_ret (fun _ _ hc => by cases hc) hw3
  rw [show (u ++ Ev.lin i o r :: v) ++ Ev.ret i o r :: y =
    u ++ ([Ev.lin i o r] ++ (v ++ Ev.ret i o r :: y)) by simp] at hlg hcalls
  rw [effects_append u] at hlg
  obtain ⟨d2, hd2, hlg2⟩ := Legal.cut hlg
  obtain ⟨d3, hd3⟩ : ∃ d', S.legal d2 o r d' := by cases hlg2 with | cons h _ => exact ⟨_, h⟩
  refine ⟨_, d2, d3, hd2, hd3, fun z hz => ?_⟩
  have := hcalls z (by rw [effects_append u]; exact List.mem_append.2 (.inl hz))
  simpa using this

/-- The state at any time. -/
theorem state_prefix {D : Type} {S : Obj O R D} {h1 h2 : List (Ev T O R)} (hl : Linearizable S (h1 ++ h2)) :
    ∃ l p d, visible l = h1 ∧ WellFormed (fun _ => .idle) l p ∧ Legal S S.init (effects l) d := by
  obtain ⟨l, p, d, hv, hw, hlg⟩ := hl
  obtain ⟨l1, l2, rfl, hv1, hv2⟩ := visible_split hv
  obtain ⟨m, hw1, hw2⟩ := WellFormed.cut hw
  rw [effects_append] at hlg
  obtain ⟨d1, hd1, hlg⟩ := Legal.cut hlg
  exact ⟨l1, m, d1, hv1, hw1, hd1⟩

theorem effects_length (l : List (Ev T O R)) : (effects l).length = linSum (fun _ _ => 1) l := by
  induction l with
  | nil => rfl
  | cons e l ih => cases e <;> simp [effects, linSum, ih]; omega

theorem Turns.length {h : List (Ev T O R)} {ps : List (O × R)} (ht : Turns h ps) :
    retSum (fun _ _ => 1) h = ps.length := by
  induction ht with
  | nil => rfl
  | pending => rfl
  | turn i o r _ ih => simp [retSum, ih]; omega

/-- **Calls on a key that did not overlap**, after all calls have returned: later look-ups show what the sequential
calls leave. -/
theorem Turns.settled {S : Obj O R (Dict K V)} {key : O → K} (hS : Local S key) {h1 h2 : List (Ev T O R)}
    (hl : Linearizable S (h1 ++ h2)) (hQ : Quiet h1) {k : K} {ps : List (O × R)} (ht : Turns (onKey key k h1) ps)
    (hkeep : ∀ j o, Ev.call j o ∈ h2 → key o = k → ∀ d d' r, S.legal d o r d' → d' k = d k) :
    ∃ d, Legal S S.init ps d ∧ ∀ i o r, Ev.ret i o r ∈ h2 →
      ∃ d1 d2, S.legal d1 o r d2 ∧ d1 k = d k := by
  obtain ⟨l, d, rfl, hw, hd, hrest⟩ := state_quiet hl hQ
  obtain ⟨e, he, hek⟩ := Legal.onKey hS hd (k := k) (e := S.init) rfl
  rw [← effects_onKey] at he
  rw [← visible_onKey] at ht
  have hw' := wf_onKey (key := key) (k := k) hw
  obtain ⟨t, htt⟩ := turns_effects hw' (fun _ => rfl) ht
  have : t = [] := by
    have h1 := effects_length (onKey key k l)
    rw [quiet_sums hw' (fun _ => rfl), ← retSum_visible, ht.length, htt, List.length_append] at h1
    exact List.length_eq_zero_iff.1 (by omega)
  subst this
  rw [htt, List.append_nil] at he
  refine ⟨e, he, fun i o r hr => ?_⟩
  obtain ⟨-, es, d1, d2, h3, h4, h5⟩ := hrest i o r hr
  refine ⟨d1, d2, h4, ?_⟩
  rw [hek]
  clear h4 hrest hek he htt hd
  induction h3 with
  | nil => rfl
  | @cons d d1 d2 o r l h hl ih =>
    rw [ih fun x hx => h5 x (List.mem_cons_of_mem _ hx)]
    obtain ⟨j, hj⟩ := h5 _ (List.mem_cons_self ..)
    by_cases hk : key o = k
    · exact hkeep j o hj hk _ _ _ h
    · exact hS.frame h hk

/-! ### Calls of threads -/

/-- The calls of a history, in order. (specification, no code) -/
def callsOf : List (Ev T O R) → List (T × O)
  | [] => []
  | .call i o :: h => (i, o) :: callsOf h
  | _ :: h => callsOf h

/-- The calls of thread `t`, in order: its program as far as it has got. (specification, no code) -/
def byThread (t : T) (h : List (Ev T O R)) : List O := ((callsOf h).filter fun x => decide (x.1 = t)).map Prod.snd

theorem mem_callsOf {h : List (Ev T O R)} {i : T} {o : O} : (i, o) ∈ callsOf h ↔ Ev.call i o ∈ h := by
  induction h with
  | nil => simp [callsOf]
  | cons e h ih => cases e <;> simp [callsOf, ih]

theorem callsOf_onKey (key : O → K) (k : K) (h : List (Ev T O R)) :
    callsOf (onKey key k h) = (callsOf h).filter fun x => decide (key x.2 = k) := by
  induction h with
  | nil => rfl
  | cons e h ih =>
    rw [onKey_cons]
    by_cases hk : key (opOf e) = k
    · rw [if_pos hk]
      cases e <;> simp only [opOf] at hk <;> simp [callsOf, ih, hk]
    · rw [if_neg hk]
      cases e <;> simp only [opOf] at hk <;> simp [callsOf, ih, hk]

theorem callsOf_length (h : List (Ev T O R)) : (callsOf h).length = callSum (fun _ => 1) h := by
  induction h with
  | nil => rfl
  | cons e h ih => cases e <;> simp [callsOf, callSum, ih]; omega

theorem Turns.calls {h : List (Ev T O R)} {ps : List (O × R)} (ht : Turns h ps) :
    ∃ l, (callsOf h).map Prod.snd = ps.map Prod.fst ++ l := by
  induction ht with
  | nil => exact ⟨[], rfl⟩
  | pending i o => exact ⟨[o], rfl⟩
  | turn i o r _ ih =>
    obtain ⟨l, hl⟩ := ih
    exact ⟨l, by simp [callsOf, hl]⟩

theorem Turns.rets {h : List (Ev T O R)} {ps : List (O × R)} (ht : Turns h ps) {i : T} {o : O} {r : R}
    (hr : Ev.ret i o r ∈ h) : (o, r) ∈ ps := by
  induction ht with
  | nil => cases hr
  | pending => simp at hr
  | turn j o' r' _ ih =>
    simp only [List.mem_cons, reduceCtorEq, Ev.ret.injEq, false_or] at hr
    rcases hr with ⟨-, rfl, rfl⟩ | hr
    · simp
    · exact List.mem_cons_of_mem _ (ih hr)

/-- The calls on a key used by one thread only, after all calls have returned. -/
theorem own_calls {S : Obj O R (Dict K V)} {key : O → K} (hS : Local S key) {h1 h2 : List (Ev T O R)}
    (hl : Linearizable S (h1 ++ h2)) (hQ : Quiet h1) {k : K} {t : T}
    (hown : ∀ j o, Ev.call j o ∈ h1 → key o = k → j = t)
    (hkeep : ∀ j o, Ev.call j o ∈ h2 → key o = k → ∀ d d' r, S.legal d o r d' → d' k = d k) :
    ∃ ps d, ps.map Prod.fst = (byThread t h1).filter (fun o => decide (key o = k)) ∧ Legal S S.init ps d ∧
      (∀ j o r, Ev.ret j o r ∈ h1 → key o = k → (o, r) ∈ ps) ∧
      ∀ i o r, Ev.ret i o r ∈ h2 → ∃ d1 d2, S.legal d1 o r d2 ∧ d1 k = d k := by
  obtain ⟨l, p, d0, hv1, hw, hd0⟩ := state_prefix hl
  have hl1 : Linearizable S h1 := ⟨l, p, d0, hv1, hw, hd0⟩
  obtain ⟨ps, ht⟩ := turns_own hl1 hown
  obtain ⟨d, hd, hrest⟩ := ht.settled hS hl hQ hkeep
  refine ⟨ps, d, ?_, hd, fun j o r hr hk => ht.rets (List.mem_filter.2 ⟨hr, by simp [opOf, hk]⟩), hrest⟩
  obtain ⟨l2, hl2⟩ := ht.calls
  have hlen : l2 = [] := by
    have h1 := congrArg List.length hl2
    subst hv1
    have hp : ∀ i, p i = .idle := hQ.idle hw
    have hw' := wf_onKey (key := key) (k := k) hw
    have h3 := quiet_calls (g := fun _ => 1) hw' (fun i => by simp [hp i, phK])
    have h4 := ht.length
    rw [← visible_onKey, retSum_visible] at h4
    rw [List.length_map, List.length_append, List.length_map, callsOf_length, ← visible_onKey, callSum_visible, h3,
      h4] at h1
    exact List.length_eq_zero_iff.1 (by omega)
  rw [hlen, List.append_nil] at hl2
  rw [← hl2, callsOf_onKey]
  unfold byThread
  have : ∀ c : List (T × O), (∀ x ∈ c, key x.2 = k → x.1 = t) →
      (c.filter fun x => decide (key x.2 = k)).map Prod.snd =
        ((c.filter fun x => decide (x.1 = t)).map Prod.snd).filter fun o => decide (key o = k) := by
    intro c hc
    induction c with
    | nil => rfl
    | cons x c ih =>
      have ih := ih fun y hy => hc y (List.mem_cons_of_mem _ hy)
      have hx := hc x (List.mem_cons_self ..)
      by_cases h1 : key x.2 = k
      · simp [h1, hx h1, ih]
      · by_cases h2 : x.1 = t <;> simp [h1, h2, ih]
  exact this _ fun x hx hk => hown x.1 x.2 (mem_callsOf.1 hx) hk

/-- The calls on key `k` of history `h` behave as calls on `S` in sequence, as far as they do not
overlap. (specification, no code) -/
structure Sequential (S : Obj O R (Dict K V)) (key : O → K) (k : K) (h : List (Ev T O R)) : Prop where
  /-- Results of calls on `k` that do not overlap each other, whatever happens to other keys at the same time. -/
  turns : ∀ ps, Turns (onKey key k h) ps → ∃ d, Legal S S.init ps d
  /-- Calls on a key used by one thread only do not overlap. -/
  own : ∀ t, (∀ j o, Ev.call j o ∈ h → key o = k → j = t) → ∃ ps, Turns (onKey key k h) ps
  /-- After all calls have returned, look-ups of `k` see what the calls in sequence have left. -/
  settled : ∀ h1 h2 ps, h = h1 ++ h2 → Quiet h1 → Turns (onKey key k h1) ps →
    (∀ j o, Ev.call j o ∈ h2 → key o = k → ∀ d d' r, S.legal d o r d' → d' k = d k) →
    ∃ d, Legal S S.init ps d ∧ ∀ i o r, Ev.ret i o r ∈ h2 → key o = k → ∃ d1 d2, S.legal d1 o r d2 ∧ d1 k = d k

theorem Local.sequential {S : Obj O R (Dict K V)} {key : O → K} (hS : Local S key) {h : List (Ev T O R)}
    (hl : Linearizable S h) (k : K) : Sequential S key k h where
  turns := fun _ ht => ht.legal hS hl
  own := fun _ hi => turns_own hl hi
  settled := by
    intro h1 h2 ps he hQ ht hkeep
    subst he
    obtain ⟨d, hd, hr⟩ := ht.settled hS hl hQ hkeep
    exact ⟨d, hd, fun i o r h _ => hr i o r h⟩

/-! ### Insertions and erasures -/

/-- Which key a call may insert, which it may erase, when it says that it has done so; which key it looks up and what it
shows. (specification, no code) -/
structure Book (O R K V : Type) where
  put : O → Option K
  take : O → Option K
  won : O → R → Bool
  look : O → Option K
  shown : R → Option V

/-- 1 if the call may insert `k`. (specification, no code) -/
def Book.mayPut (W : Book O R K V) (k : K) (o : O) : Nat := if W.put o = some k then 1 else 0

/-- 1 if the call may erase `k`. (specification, no code) -/
def Book.mayTake (W : Book O R K V) (k : K) (o : O) : Nat := if W.take o = some k then 1 else 0

/-- 1 if the call says that it has inserted `k`. (specification, no code) -/
def Book.hasPut (W : Book O R K V) (k : K) (o : O) (r : R) : Nat := if W.won o r then W.mayPut k o else 0

/-- 1 if the call says that it has erased `k`. (specification, no code) -/
def Book.hasTaken (W : Book O R K V) (k : K) (o : O) (r : R) : Nat := if W.won o r then W.mayTake k o else 0

/-- Insertions and erasures of `k` alternate, and look-ups see the difference. (specification, no code) -/
structure Balanced (W : Book O R K V) (k : K) (h : List (Ev T O R)) : Prop where
  /-- At any time at most one insertion more has been successful than erasures have been called. -/
  puts : ∀ h1 h2, h = h1 ++ h2 → retSum (W.hasPut k) h1 ≤ callSum (W.mayTake k) h1 + 1
  /-- At any time no more erasures have been successful than insertions have been called. -/
  takes : ∀ h1 h2, h = h1 ++ h2 → retSum (W.hasTaken k) h1 ≤ callSum (W.mayPut k) h1
  /-- Look-ups at any time. -/
  seen : ∀ h1 i o h2 r h3, h = h1 ++ .call i o :: (h2 ++ .ret i o r :: h3) → W.look o = some k →
    if (W.shown r).isSome then retSum (W.hasTaken k) h1 + 1 ≤ callSum (W.mayPut k) (h1 ++ .call i o :: h2)
    else retSum (W.hasPut k) h1 ≤ callSum (W.mayTake k) (h1 ++ .call i o :: h2)
  /-- After all calls have returned, one insertion more than erasures has been successful, or none; look-ups tell
  which. -/
  quiet : ∀ h1 h2, h = h1 ++ h2 → Quiet h1 →
    (∀ i o, Ev.call i o ∈ h2 → W.put o ≠ some k ∧ W.take o ≠ some k) →
    ∃ n ≤ 1, retSum (W.hasPut k) h1 = retSum (W.hasTaken k) h1 + n ∧
      ∀ i o r, Ev.ret i o r ∈ h2 → W.look o = some k → ((W.shown r).isSome ↔ n = 1)

/-- 1 if there is an element. (proof, no code) -/
def pres (x : Option V) : Nat := if x.isSome then 1 else 0

/-- A sequential object that keeps the books. (proof, no code) -/
structure Keeper (S : Obj O R (Dict K V)) (W : Book O R K V) (k : K) : Prop where
  init : S.init k = none
  step : ∀ {d d' o r}, S.legal d o r d' → pres (d' k) + W.hasTaken k o r = pres (d k) + W.hasPut k o r
  looks : ∀ {d d' o r}, S.legal d o r d' → W.look o = some k → (W.shown r).isSome = (d k).isSome

theorem Keeper.content {S : Obj O R (Dict K V)} {W : Book O R K V} {k : K} (C : Keeper S W k) {l : List (O × R)}
    {d d' : Dict K V} (hl : Legal S d l d') :
    pres (d' k) + (l.map fun x => W.hasTaken k x.1 x.2).sum = pres (d k) + (l.map fun x => W.hasPut k x.1 x.2).sum := by
  induction hl with
  | nil => simp
  | cons h _ ih =>
    have := C.step h
    simp only [List.map_cons, List.sum_cons]
    omega

theorem Keeper.after {S : Obj O R (Dict K V)} {W : Book O R K V} {k : K} (C : Keeper S W k) {l : List (Ev T O R)}
    {d : Dict K V} (hl : Legal S S.init (effects l) d) :
    pres (d k) + linSum (W.hasTaken k) l = linSum (W.hasPut k) l := by
  have := C.content hl
  rw [C.init] at this
  rw [linSum_eq, linSum_eq]
  simpa [pres] using this

theorem Book.hasPut_le (W : Book O R K V) (k : K) (o : O) (r : R) : W.hasPut k o r ≤ W.mayPut k o := by
  unfold Book.hasPut; split <;> omega

theorem Book.hasTaken_le (W : Book O R K V) (k : K) (o : O) (r : R) : W.hasTaken k o r ≤ W.mayTake k o := by
  unfold Book.hasTaken; split <;> omega

theorem pres_le (x : Option V) : pres x ≤ 1 := by unfold pres; split <;> omega

/-- **Insertions and erasures of a key alternate.** -/
theorem Keeper.balanced {S : Obj O R (Dict K V)} {W : Book O R K V} {k : K} (C : Keeper S W k) {h : List (Ev T O R)}
    (hl : Linearizable S h) : Balanced W k h where
  puts := by
    rintro h1 h2 rfl
    obtain ⟨l, p, d, rfl, hw, hd⟩ := state_prefix hl
    have e1 := C.after hd
    have e2 := ret_le_lin (f := W.hasPut k) hw
    have e3 := linSum_mono (f := W.hasTaken k) (f' := fun o _ => W.mayTake k o) (W.hasTaken_le k) l
    have e4 := lin_le_call (g := W.mayTake k) hw
    have e5 := pres_le (d k)
    rw [retSum_visible, callSum_visible]
    omega
  takes := by
    rintro h1 h2 rfl
    obtain ⟨l, p, d, rfl, hw, hd⟩ := state_prefix hl
    have e1 := C.after hd
    have e2 := ret_le_lin (f := W.hasTaken k) hw
    have e3 := linSum_mono (f := W.hasPut k) (f' := fun o _ => W.mayPut k o) (W.hasPut_le k) l
    have e4 := lin_le_call (g := W.mayPut k) hw
    rw [retSum_visible, callSum_visible]
    omega
  seen := by
    rintro h1 i o h2 r h3 rfl hk
    obtain ⟨x, p, d, d', hw, hd, hs, -, hb⟩ := state_at hl
    have e1 := C.after hd
    have e2 := hb _ _ (W.hasTaken_le k)
    have e3 := hb _ _ (W.hasPut_le k)
    have e4 := C.looks hs hk
    unfold pres at e1
    rw [← e4] at e1
    split at e1 <;> rename_i e
    · rw [if_pos e]; omega
    · rw [if_neg e]; omega
  quiet := by
    rintro h1 h2 rfl hQ hn
    obtain ⟨l, d, rfl, hw, hd, hrest⟩ := state_quiet hl hQ
    have e1 := C.after hd
    rw [quiet_sums hw (fun _ => rfl), quiet_sums hw (fun _ => rfl)] at e1
    refine ⟨pres (d k), pres_le _, by rw [retSum_visible, retSum_visible]; omega, fun i o r hr hk => ?_⟩
    obtain ⟨-, es, d1, d2, h3, h4, h5⟩ := hrest i o r hr
    have e2 := C.content h3
    have z1 : (es.map fun x => W.hasTaken k x.1 x.2).sum = 0 := by
      clear h3 e2
      induction es with
      | nil => rfl
      | cons x es ih =>
        obtain ⟨j, hj⟩ := h5 x (List.mem_cons_self ..)
        have := (hn j x.1 hj).2
        simp only [List.map_cons, List.sum_cons, ih fun y hy => h5 y (List.mem_cons_of_mem _ hy)]
        simp [Book.hasTaken, Book.mayTake, this]
    have z2 : (es.map fun x => W.hasPut k x.1 x.2).sum = 0 := by
      clear h3 e2 z1
      induction es with
      | nil => rfl
      | cons x es ih =>
        obtain ⟨j, hj⟩ := h5 x (List.mem_cons_self ..)
        have := (hn j x.1 hj).1
        simp only [List.map_cons, List.sum_cons, ih fun y hy => h5 y (List.mem_cons_of_mem _ hy)]
        simp [Book.hasPut, Book.mayPut, this]
    rw [z1, z2] at e2
    have e3 := C.looks h4 hk
    rw [e3, ← show pres (d1 k) = pres (d k) by omega]
    unfold pres
    split <;> simp_all

/-! ### Invariants of values -/

/-- A sequential object whose calls in `P` keep the invariant `I` of the values of key `k`, and what they show of that
key. (proof, no code) -/
structure Keeps (S : Obj O R (Dict K V)) (k : K) (I : V → Prop) (P : O → Prop) (shown : O → R → Option V) : Prop where
  init : S.init k = none
  step : ∀ {d d' o r}, P o → S.legal d o r d' → (∀ v, d k = some v → I v) → ∀ v, d' k = some v → I v
  shows : ∀ {d d' o r}, P o → S.legal d o r d' → (∀ v, d k = some v → I v) → ∀ v, shown o r = some v → I v

theorem Keeps.after {S : Obj O R (Dict K V)} {k : K} {I : V → Prop} {P : O → Prop} {shown : O → R → Option V}
    (C : Keeps S k I P shown) {l : List (O × R)} {d d' : Dict K V} (hl : Legal S d l d') (hP : ∀ x ∈ l, P x.1)
    (hI : ∀ v, d k = some v → I v) : ∀ v, d' k = some v → I v := by
  induction hl with
  | nil => exact hI
  | cons h _ ih =>
    exact ih (fun x hx => hP x (List.mem_cons_of_mem _ hx)) (C.step (hP _ (List.mem_cons_self ..)) h hI)

/-- **Whatever all calls keep true of the values of a key is true of every value shown.** -/
theorem Keeps.shown {S : Obj O R (Dict K V)} {k : K} {I : V → Prop} {P : O → Prop} {shown : O → R → Option V}
    (C : Keeps S k I P shown) {h : List (Ev T O R)} (hl : Linearizable S h) (hP : Only P h) {i : T} {o : O} {r : R}
    (hr : Ev.ret i o r ∈ h) {v : V} (hv : shown o r = some v) : I v := by
  obtain ⟨l, d, hvis, hw, hd, hrest⟩ := state_quiet (h1 := []) (h2 := h) hl (by intro a i o b h; cases a <;> cases h)
  obtain ⟨⟨j, hj⟩, es, d1, d2, h3, h4, h5⟩ := hrest i o r hr
  have e : ∀ v, d k = some v → I v := by
    have hl0 : effects l = [] := by
      cases l with
      | nil => rfl
      | cons e l =>
        cases e with
        | lin => cases hw with | lin h => cases h
        | call => cases hvis
        | ret => cases hvis
    rw [hl0] at hd
    cases hd
    rw [C.init]; intro v hv; cases hv
  exact C.shows (hP j o hj) h4 (C.after h3 (fun x hx => by obtain ⟨j, hj⟩ := h5 x hx; exact hP j x.1 hj) e) v hv

end

end Growt.Agg
