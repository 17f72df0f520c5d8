import Verif.Props.Latency

/-!
# C92: the benchmark with 32-bit elements, whose keys may repeat
-/

set_option linter.unusedSectionVars false

namespace Growt.Agg

section
variable {T A : Type} [DecidableEq T] [DecidableEq A] [Inhabited A]

/-- The value inserted for index `i`: `i + 2`, converted to `uint32_t` (`tests/ins32_test.cpp:60-64, 98`). -/
def val32 (i : Nat) : Nat := (i + 2) % 2 ^ 32

/-- What a check of the benchmark does: it counts no error, it counts one, or it is undefined behaviour, namely `end()`
is dereferenced or `keys` is read outside of its allocation. (specification, no code) -/
inductive Check where
  | fine
  | error
  | undefined
  deriving DecidableEq

/-- `keys[(*data).second - 2] == key` (`tests/ins32_test.cpp:105, 131, 157`): the subtraction is one of `uint32_t`; the
array has `2 * n` elements (`tests/ins32_test.cpp:178`). -/
def sameKey (n : Nat) (keys : Nat → Nat) (i v : Nat) : Check :=
  if 2 * n ≤ (v + 2 ^ 32 - 2) % 2 ^ 32 then .undefined
  else if keys ((v + 2 ^ 32 - 2) % 2 ^ 32) = keys i then .fine else .error

/-- The check of `fill` (`tests/ins32_test.cpp:100-110`). -/
def fillCheck (n : Nat) (keys : Nat → Nat) (i : Nat) (r : SRes Nat) : Check :=
  if r.ok then .fine else
    match r.shown with
    | none => .undefined
    | some v => sameKey n keys i v

/-- The check of `find_unsucc` (`tests/ins32_test.cpp:127-136`). -/
def missCheck (n : Nat) (keys : Nat → Nat) (i : Nat) (r : SRes Nat) : Check :=
  match r.shown with
  | none => .fine
  | some v => sameKey n keys i v

/-- The check of `find_succ` (`tests/ins32_test.cpp:153-162`). -/
def hitCheck (n : Nat) (keys : Nat → Nat) (i : Nat) (r : SRes Nat) : Check :=
  match r.shown with
  | none => .undefined
  | some v => if v ≠ i + 2 then sameKey n keys i v else .fine

/-- `fill` has been carried out, the threads having taken the indices `share`, and all its calls have returned
(`tests/ins32_test.cpp:92-116, 207-214`); since then there have been look-ups only (`tests/ins32_test.cpp:118-168,
216-234`).  The keys are arbitrary: the generator (`tests/ins32_test.cpp:77-89`) may repeat them.  That `execute_parallel`
hands out the indices below `n` is not part of the repository. -/
structure InsRun (n : Nat) (keys : Nat → Nat) (share : T → List Nat) (h1 h2 : List (Ev T (Op Nat Nat) (SRes Nat))) :
    Prop where
  quiet : Quiet h1
  calls : ∀ t, byThread t h1 = (share t).map fun i => .insert (keys i) (val32 i)
  all : ∀ i, i < n ↔ ∃ t, i ∈ share t
  rest : Only (fun o => ∃ k, o = .find k) h2

/-- What the benchmark observes if no error is counted: in addition, a key of an index below `n` is found, with the
value of an index with this key; any other key is not found. (specification, no code) -/
structure InsSeen (n : Nat) (keys : Nat → Nat) (h1 h2 : List (Ev T (Op Nat Nat) (SRes Nat))) : Prop where
  fills : ∀ t i r, Ev.ret t (.insert (keys i) (val32 i)) r ∈ h1 → fillCheck n keys i r = .fine
  misses : ∀ t i r, Ev.ret t (.find (keys i)) r ∈ h2 → missCheck n keys i r = .fine
  hits : ∀ t i r, i < n → Ev.ret t (.find (keys i)) r ∈ h2 → hitCheck n keys i r = .fine
  found : ∀ t i r, i < n → Ev.ret t (.find (keys i)) r ∈ h2 → ∃ j < n, keys j = keys i ∧ r.shown = some (val32 j)
  missing : ∀ t k r, Ev.ret t (.find k) r ∈ h2 → (∀ i < n, keys i ≠ k) → r.shown = none

/-- The state in which a returned call takes effect. -/
theorem state_any {O R D : Type} {S : Obj O R D} {h : List (Ev T O R)} (hl : Linearizable S h) {t : T} {o : O} {r : R}
    (hr : Ev.ret t o r ∈ h) : ∃ es d1 d2, Legal S S.init es d1 ∧ S.legal d1 o r d2 ∧ ∀ x ∈ es, ∃ j, Ev.call j x.1 ∈ h := by
  obtain ⟨l, d, hvis, hw, hd, hrest⟩ := state_quiet (h1 := []) (h2 := h) hl (by intro a i o b h; cases a <;> cases h)
  obtain ⟨-, es, d1, d2, h3, h4, h5⟩ := hrest t o r hr
  have hl0 : effects l = [] := by
    cases l with
    | nil => rfl
    | cons e l =>
      cases e with
      | lin => cases hw with | lin h => cases h
      | call => cases hvis
      | ret => cases hvis
  rw [hl0] at hd
  cases hd
  exact ⟨es, d1, d2, h3, h4, h5⟩

theorem insert_fails {m : Bool} {k v : Nat} {d d' : Dict Nat Nat} {r : SRes Nat}
    (h : (Sync.growObj m).legal d (.insert k v) r d') (hr : r.ok = false) : ∃ w, d k = some w ∧ r.shown = some w := by
  rcases h with ⟨-, h1, h2⟩ | ⟨⟨_, _, _, _, h, -⟩, -⟩
  · rcases Option.eq_none_or_eq_some (d k) with hd | ⟨w, hd⟩
    · simp only [Op.toSpec, SOp.sem, hd, hr] at h1
      cases h1
    · rcases h2 with ⟨-, h2⟩ | h2
      · rw [hr] at h2; cases h2
      · exact ⟨w, hd, by rw [h2]; simp [Op.toSpec, SOp.sem, hd]⟩
  · cases h

theorem insert_present {m : Bool} {k k' v : Nat} {d d' : Dict Nat Nat} {r : SRes Nat}
    (h : (Sync.growObj m).legal d (.insert k v) r d') : ((d k').isSome ∨ k' = k) → (d' k').isSome := by
  rcases h with ⟨rfl, -⟩ | ⟨⟨_, _, _, _, h, -⟩, -⟩
  · intro hp
    simp only [Op.toSpec, SOp.sem]
    rcases Option.eq_none_or_eq_some (d k) with hd | ⟨w, hd⟩ <;> simp only [hd]
    · unfold Dict.put
      split
      · rfl
      · rename_i hne
        exact hp.resolve_right hne
    · rcases hp with hp | rfl
      · exact hp
      · rw [hd]; rfl
  · cases h

/-- After an insertion of a key the key is there, if nothing but insertions takes effect. -/
theorem legal_present {m : Bool} {es : List (Op Nat Nat × SRes Nat)} {d d' : Dict Nat Nat} {k : Nat}
    (h : Legal (Sync.growObj m) d es d') (hi : ∀ x ∈ es, ∃ k v, x.1 = .insert k v) :
    ((d k).isSome ∨ ∃ x ∈ es, ∃ v, x.1 = .insert k v) → (d' k).isSome := by
  induction h with
  | nil => rintro (h | ⟨x, hx, -⟩); exacts [h, by cases hx]
  | @cons d d1 d2 o r l h _ ih =>
    intro hp
    obtain ⟨k', v', e⟩ := hi (o, r) (List.mem_cons_self ..)
    have e : o = .insert k' v' := e
    subst e
    refine ih (fun x hx => hi x (List.mem_cons_of_mem _ hx)) ?_
    rcases hp with hp | ⟨x, hx, v, hv⟩
    · exact .inl (insert_present h (.inl hp))
    · rcases List.mem_cons.1 hx with rfl | hx
      · have hv : Op.insert k' v' = Op.insert k v := hv
        exact .inl (insert_present h (.inr (by cases hv; rfl)))
      · exact .inr ⟨x, hx, v, hv⟩

theorem sum_pos {α : Type} {f : α → Nat} {l : List α} (h : 1 ≤ (l.map f).sum) : ∃ x ∈ l, 1 ≤ f x := by
  induction l with
  | nil => simp at h
  | cons a l ih =>
    by_cases ha : 1 ≤ f a
    · exact ⟨a, List.mem_cons_self .., ha⟩
    · obtain ⟨x, hx, h'⟩ := ih (by simp only [List.map_cons, List.sum_cons] at h; omega)
      exact ⟨x, List.mem_cons_of_mem _ hx, h'⟩

/-- Elements have been inserted for the indices below `n`, and since then there have been look-ups only.
(specification, no code) -/
structure FillRun (val : Nat → Nat) (n : Nat) (keys : Nat → Nat) (h1 h2 : List (Ev T (Op Nat Nat) (SRes Nat))) : Prop where
  quiet : Quiet h1
  only : ∀ t o, Ev.call t o ∈ h1 → ∃ i < n, o = .insert (keys i) (val i)
  all : ∀ i < n, ∃ t, Ev.call t (.insert (keys i) (val i)) ∈ h1
  rest : Only (fun o => ∃ k, o = .find k) h2

section
variable {m : Bool} {n : Nat} {keys val : Nat → Nat} {share : T → List Nat} {h1 h2 : List (Ev T (Op Nat Nat) (SRes Nat))}

theorem InsRun.fill (hR : InsRun n keys share h1 h2) : FillRun val32 n keys h1 h2 where
  quiet := hR.quiet
  only := fun t o hc => by
    rw [call_byThread, hR.calls] at hc
    obtain ⟨i, hi, rfl⟩ := List.mem_map.1 hc
    exact ⟨i, (hR.all i).2 ⟨t, hi⟩, rfl⟩
  all := fun i hi => by
    obtain ⟨t', ht'⟩ := (hR.all i).1 hi
    exact ⟨t', by rw [call_byThread, hR.calls]; exact List.mem_map.2 ⟨i, ht', rfl⟩⟩
  rest := hR.rest

/-- The values of a key are those of the indices with this key. -/
theorem ins_values (hR : FillRun val n keys h1 h2) {es : List (Op Nat Nat × SRes Nat)} {d : Dict Nat Nat}
    (h : Legal (Sync.growObj m) (Sync.growObj m).init es d) (he : ∀ x ∈ es, ∃ j, Ev.call j x.1 ∈ h1 ++ h2) {k v : Nat}
    (hv : d k = some v) : ∃ j < n, keys j = k ∧ v = val j := by
  refine (keepsG m k fun v => ∃ j < n, keys j = k ∧ v = val j).after h (fun x hx => ?_) (fun v hv => by cases hv) v hv
  obtain ⟨t, hc⟩ := he x hx
  intro hk o' ho'
  rw [List.mem_singleton.1 ho']
  rcases List.mem_append.1 hc with hc | hc
  · obtain ⟨i, hi, e⟩ := hR.only _ _ hc
    rw [e] at hk ⊢
    exact ⟨i, hi, hk, rfl⟩
  · obtain ⟨k', e⟩ := hR.rest t _ hc
    rw [e]
    trivial

/-- The contents after the insertions: every key is there, and look-ups do not change anything. -/
theorem ins_state (hl : Linearizable (Sync.growObj m) (h1 ++ h2)) (hR : FillRun val n keys h1 h2) :
    ∃ (l : List (Ev T (Op Nat Nat) (SRes Nat))) (d : Dict Nat Nat), visible l = h1 ∧
      WellFormed (fun _ => .idle) l (fun _ => .idle) ∧ Legal (Sync.growObj m) (Sync.growObj m).init (effects l) d ∧
      (∀ x ∈ effects l, ∃ i < n, x.1 = .insert (keys i) (val i)) ∧ (∀ i < n, (d (keys i)).isSome) ∧
      ∀ t k r, Ev.ret t (.find k) r ∈ h2 → r.shown = d k := by
  obtain ⟨l, d, hv, hw, hd, hlater⟩ := state_quiet hl hR.quiet
  have honly : ∀ x ∈ effects l, ∃ i < n, x.1 = Op.insert (keys i) (val i) := by
    refine effects_only (P := fun o => ∃ i < n, o = Op.insert (keys i) (val i)) hw (fun _ _ h => by cases h)
      fun t o hc => hR.only t o ?_
    rw [← mem_callsOf] at hc ⊢
    rw [← hv]
    clear * - hc
    induction l with
    | nil => exact hc
    | cons e l ih =>
      cases e <;> simp only [callsOf, visible, List.mem_cons] at hc ⊢
      · exact hc.imp_right ih
      · exact ih hc
      · exact ih hc
  refine ⟨l, d, hv, hw, hd, honly, fun i hi => ?_, fun t k r hr => ?_⟩
  · refine legal_present hd (fun x hx => by obtain ⟨i, -, e⟩ := honly x hx; exact ⟨_, _, e⟩) (.inr ?_)
    obtain ⟨t', hc⟩ := hR.all i hi
    have h4 := callSum_pos (g := (bookG (K := Nat) (V := Nat)).mayPut (keys i)) hc
    rw [← hv, callSum_visible, quiet_calls hw fun _ => rfl, ← quiet_sums hw fun _ => rfl, linSum_eq] at h4
    obtain ⟨x, hx, hp⟩ := sum_pos (Nat.le_trans (by simp [Book.mayPut, bookG, putOf]) h4)
    obtain ⟨j, -, e⟩ := honly x hx
    refine ⟨x, hx, val j, ?_⟩
    rw [e] at hp ⊢
    unfold Book.mayPut at hp
    split at hp
    · rename_i h
      have h : some (keys j) = some (keys i) := h
      rw [Option.some.inj h]
    · omega
  · obtain ⟨-, es, d1, d2, e1, e2, e3⟩ := hlater t _ r hr
    have stays : ∀ es d1, Legal (Sync.growObj m) d es d1 → (∀ x ∈ es, ∃ j, Ev.call j x.1 ∈ h2) → d1 = d := by
      intro es d1 h
      clear hlater hd e1 e2
      induction h with
      | nil => intro _; rfl
      | @cons d d1 d2 o r l h _ ih =>
        intro hx
        rw [ih (fun x hm => hx x (List.mem_cons_of_mem _ hm))]
        obtain ⟨j, hj⟩ := hx (o, r) (List.mem_cons_self ..)
        obtain ⟨k', rfl⟩ := hR.rest j o hj
        exact (find_keeps h).1
    rw [(find_keeps e2).2.2, stays es d1 e1 e3]

theorem ins_there (hl : Linearizable (Sync.growObj m) (h1 ++ h2)) (hR : FillRun val n keys h1 h2) {t : T} {i : Nat}
    {r : SRes Nat} (hi : i < n) (hr : Ev.ret t (.find (keys i)) r ∈ h2) : r.shown.isSome := by
  obtain ⟨l, d, -, -, -, -, h3, h4⟩ := ins_state hl hR
  rw [h4 t _ r hr]
  exact h3 i hi

theorem val32_back {j : Nat} (hj : j < 2 ^ 32) : (val32 j + 2 ^ 32 - 2) % 2 ^ 32 = j := by
  unfold val32; omega

theorem sameKey_fine (hn : n ≤ 2 ^ 32) {i j : Nat} (hj : j < n) (h : keys j = keys i) :
    sameKey n keys i (val32 j) = .fine := by
  unfold sameKey
  rw [val32_back (by omega), if_neg (by omega), if_pos h]

theorem ins_found (hl : Linearizable (Sync.growObj m) (h1 ++ h2)) (hR : FillRun val n keys h1 h2) {t : T} {k v : Nat}
    {r : SRes Nat} (hr : Ev.ret t (.find k) r ∈ h2) (hv : r.shown = some v) : ∃ j < n, keys j = k ∧ v = val j := by
  obtain ⟨es, d1, d2, e1, e2, e3⟩ := state_any hl (List.mem_append.2 (.inr hr))
  exact ins_values hR e1 e3 ((find_keeps e2).2.2 ▸ hv)

theorem ins_seen (hn : n ≤ 2 ^ 32) (hl : Linearizable (Sync.growObj m) (h1 ++ h2)) (hR : InsRun n keys share h1 h2) :
    InsSeen n keys h1 h2 := by
  have hfound : ∀ t i r, i < n → Ev.ret t (.find (keys i)) r ∈ h2 →
      ∃ j < n, keys j = keys i ∧ r.shown = some (val32 j) := by
    intro t i r hi hr
    obtain ⟨v, hv⟩ := Option.isSome_iff_exists.1 (ins_there hl hR.fill hi hr)
    obtain ⟨j, hj, hk, rfl⟩ := ins_found hl hR.fill hr hv
    exact ⟨j, hj, hk, hv⟩
  refine ⟨fun t i r hr => ?_, fun t i r hr => ?_, fun t i r hi hr => ?_, hfound, fun t k r hr hk => ?_⟩
  · unfold fillCheck
    split
    · rfl
    · rename_i hok
      obtain ⟨es, d1, d2, e1, e2, e3⟩ := state_any hl (List.mem_append.2 (.inl hr))
      obtain ⟨w, hw, hs⟩ := insert_fails e2 (by simpa using hok)
      obtain ⟨j, hj, hk, rfl⟩ := ins_values hR.fill e1 e3 hw
      rw [hs]
      exact sameKey_fine hn hj hk
  · unfold missCheck
    rcases Option.eq_none_or_eq_some r.shown with hs | ⟨v, hs⟩ <;> rw [hs]
    obtain ⟨j, hj, hk, rfl⟩ := ins_found hl hR.fill hr hs
    exact sameKey_fine hn hj hk
  · obtain ⟨j, hj, hk, hs⟩ := hfound t i r hi hr
    unfold hitCheck
    rw [hs]
    show (if _ then _ else _) = _
    split
    · exact sameKey_fine hn hj hk
    · rfl
  · rcases Option.eq_none_or_eq_some r.shown with hs | ⟨v, hs⟩
    · exact hs
    · obtain ⟨j, hj, e, -⟩ := ins_found hl hR.fill hr hs
      exact absurd e (hk j hj)

/-- **C92, synchronised growth.**  Missing: more than `2^32` indices (`C92_false_error`) and the executions excluded by
`C30_linearizable_partial`. -/
theorem C92_sync_partial {u : Bool} {ok : Op Nat Nat → Prop} {E : Env Nat} (hE : E.OK)
    (hcombo : E.M.cm = true → E.M.cp = true) (hmix : Mix E.m ok) {a : A}
    {l : List (Ev T (Op Nat Nat) (SRes Nat))} {s : Sync.DSt T A Nat Nat}
    (h : Exec (Sync.DStepW u ok) (Sync.DSt.init E a) l s) (hn : n ≤ 2 ^ 32) (hl : visible l = h1 ++ h2)
    (hR : InsRun n keys share h1 h2) : InsSeen n keys h1 h2 :=
  ins_seen hn (hl ▸ Sync.C30_linearizable_partial hE hcombo hmix h) hR

/-- **C92, asynchronous growth.**  Missing: more than `2^32` indices (`C92_false_error`) and the executions excluded by
`C24_linearizable_partial`. -/
theorem C92_async_partial {u : Bool} {ok : Op Nat Nat → Prop} (hok : ∀ op, ok op → op.isSafe) {E : Env Nat}
    (hE : E.OK) (hcombo : E.M.cm = true → E.M.cp = true) (hm : E.m = true) {a : A}
    {l : List (Ev T (Op Nat Nat) (SRes Nat))} {s : Async.DSt T A Nat Nat}
    (h : Exec (Async.DStepW u ok) (Async.DSt.init E a) l s) (hn : n ≤ 2 ^ 32) (hl : l = h1 ++ h2)
    (hR : InsRun n keys share h1 h2) : InsSeen n keys h1 h2 :=
  ins_seen hn (hl ▸ Async.C24_linearizable_partial hok hE hcombo hm h) hR

/-- **C92 is violated** for more indices: the value of index `2^32` is that of index 0.  If no other index has its key,
`find_succ` counts an error for it, although the table is right. -/
theorem C92_false_error (hn : 2 ^ 32 < n) (hk : ∀ j < n, keys j = keys (2 ^ 32) → j = 2 ^ 32)
    (hl : Linearizable (Sync.growObj m) (h1 ++ h2)) (hR : InsRun n keys share h1 h2) {t : T} {r : SRes Nat}
    (hr : Ev.ret t (.find (keys (2 ^ 32))) r ∈ h2) : r.shown = some 2 ∧ hitCheck n keys (2 ^ 32) r = .error := by
  obtain ⟨v, hv⟩ := Option.isSome_iff_exists.1 (ins_there hl hR.fill hn hr)
  obtain ⟨j, hj, e, rfl⟩ := ins_found hl hR.fill hr hv
  rw [hk j hj e] at hv
  have hv : r.shown = some 2 := hv
  refine ⟨hv, ?_⟩
  have hne : keys 0 ≠ keys (2 ^ 32) := fun h => by have := hk 0 (by omega) h; omega
  unfold hitCheck sameKey
  rw [hv]
  show (if 2 ≠ 2 ^ 32 + 2 then (if 2 * n ≤ (2 + 2 ^ 32 - 2) % 2 ^ 32 then Check.undefined
    else if keys ((2 + 2 ^ 32 - 2) % 2 ^ 32) = keys (2 ^ 32) then .fine else .error) else .fine) = .error
  rw [if_pos (by omega), if_neg (by omega), show (2 + 2 ^ 32 - 2) % 2 ^ 32 = 0 by omega, if_neg hne]

end

/-- **C92, a lost element is not counted as an error**: the check of `find_succ` would dereference `end()`. -/
theorem C92_lost_undefined (n : Nat) (keys : Nat → Nat) (i : Nat) {r : SRes Nat} (h : r.shown = none) :
    hitCheck n keys i r = .undefined := by
  unfold hitCheck; rw [h]

end

/-! ## Examples -/

/-- Keys with a repetition. (example, no code) -/
def insKeys (i : Nat) : Nat := if i = 1 then 7 else if i = 3 then 9 else 5

/-- Three insertions, the last with the key of the first. (example, no code) -/
def insFill : List (Op Nat Nat × SRes Nat) :=
  [(.insert 5 2, ⟨true, none⟩), (.insert 7 3, ⟨true, none⟩), (.insert 5 4, ⟨false, some 2⟩)]

/-- Look-ups: of keys of `find_unsucc`, one of which is there, and of those of `find_succ`. (example, no code) -/
def insFind : List (Op Nat Nat × SRes Nat) :=
  [(.find 9, ⟨false, none⟩), (.find 5, ⟨true, some 2⟩), (.find 7, ⟨true, some 3⟩)]

/-- Thread 0 takes the indices below `n`. (example, no code) -/
def insShare (n : Nat) (t : Nat) : List Nat := if t = 0 then List.range n else []

/-- The insertions of `fill`, one after the other, are a run of the benchmark. -/
theorem ins_run (n : Nat) (keys : Nat → Nat) {fs : List (Op Nat Nat × SRes Nat)} (hf : ∀ x ∈ fs, ∃ k, x.1 = .find k)
    {ps : List (Op Nat Nat × SRes Nat)} (hp : ps.map Prod.fst = (List.range n).map fun i => .insert (keys i) (val32 i)) :
    InsRun n keys (insShare n) (inTurn ps) (inTurn fs) where
  quiet := quiet_inTurn ps
  calls := fun t => by
    unfold byThread insShare
    rw [callsOf_inTurn]
    by_cases ht : t = 0
    · subst ht
      rw [if_pos rfl, ← hp, List.filter_eq_self.2 (fun x hx => by
        obtain ⟨y, _, rfl⟩ := List.mem_map.1 hx
        rfl)]
      simp [List.map_map, Function.comp_def]
    · rw [if_neg ht, List.filter_eq_nil_iff.2 (fun x hx => by
        obtain ⟨y, _, rfl⟩ := List.mem_map.1 hx
        simpa using fun h : 0 = t => ht h.symm)]
      rfl
  all := fun i => by
    constructor
    · intro h
      exact ⟨0, by unfold insShare; rw [if_pos rfl]; exact List.mem_range.2 h⟩
    · rintro ⟨t, h⟩
      unfold insShare at h
      split at h
      · exact List.mem_range.1 h
      · cases h
  rest := fun i o h => by
    rw [← mem_callsOf, callsOf_inTurn] at h
    obtain ⟨x, hx, e⟩ := List.mem_map.1 h
    obtain ⟨k, hk⟩ := hf x hx
    exact ⟨k, by rw [← hk]; exact (congrArg Prod.snd e).symm⟩

/-- Any calls, one after the other, have legal answers. -/
theorem legal_calls (m : Bool) (ops : List (Op Nat Nat)) : ∀ d : Dict Nat Nat, ∃ ps d',
    ps.map Prod.fst = ops ∧ Legal (Sync.growObj m) d ps d' := by
  induction ops with
  | nil => exact fun d => ⟨[], d, rfl, .nil _⟩
  | cons o ops ih =>
    intro d
    obtain ⟨ps, d', e, h⟩ := ih ((o.toSpec m).sem d).1
    exact ⟨(o, ((o.toSpec m).sem d).2) :: ps, d', by rw [List.map_cons, e], .cons (.inl ⟨rfl, rfl, .inr rfl⟩) h⟩

/-- **C92, not vacuous.**  Three insertions, two of them of the same key, and three look-ups, on tables with synchronised
and with asynchronous growth; and for every larger number of indices the violation speaks about a linearizable history
with the look-up in question. -/
theorem C92_not_vacuous :
    (∃ (l : List (Ev Nat (Op Nat Nat) (SRes Nat))) (s : Sync.DSt Nat Nat Nat Nat),
      Exec (Sync.DStepW false Sync.exOk) (Sync.DSt.init exE 0) l s ∧ visible l = inTurn insFill ++ inTurn insFind ∧
      InsRun 3 insKeys (insShare 3) (inTurn insFill) (inTurn insFind)) ∧
    (∃ s : Async.DSt Nat Nat Nat Nat,
      Exec (Async.DStepW false Op.isSafe) (Async.DSt.init exM 0) (inTurn insFill ++ inTurn insFind) s) ∧
    ∀ m n, 2 ^ 32 < n → ∃ keys : Nat → Nat, (∀ i, 2 ≤ keys i ∧ keys i ≤ 3) ∧
      (∀ j < n, keys j = keys (2 ^ 32) → j = 2 ^ 32) ∧ ∃ ps fs r, InsRun n keys (insShare n) (inTurn ps) (inTurn fs) ∧
      Linearizable (Sync.growObj m) (inTurn ps ++ inTurn fs) ∧ Ev.ret 0 (.find (keys (2 ^ 32))) r ∈ inTurn fs := by
  have happ : ∀ a b, inTurn (a ++ b) = inTurn a ++ inTurn b := fun a b => by unfold inTurn; simp
  refine ⟨?_, ?_, fun m n hn => ?_⟩
  · obtain ⟨l, s, h, hv⟩ := seq_sync (ps := insFill ++ insFind) (ops := [.insert 5 2, .insert 7 3, .insert 5 4,
        .find 9, .find 5, .find 7]) (by
      intro op h
      simp only [List.mem_cons, List.not_mem_nil, or_false] at h
      rcases h with rfl | rfl | rfl | rfl | rfl | rfl <;>
        refine ⟨trivial, ?_, ?_⟩ <;> intro k h <;> simp [Op.removes, Op.modifies] at h) (by with_unfolding_all rfl)
    exact ⟨l, s, h, by rw [hv, happ], ins_run 3 insKeys (by simp [insFind]) (by simp [insFill, insKeys, val32, List.range, List.range.loop])⟩
  · obtain ⟨s, h⟩ := seq_async (ps := insFill ++ insFind) (ops := [.insert 5 2, .insert 7 3, .insert 5 4,
        .find 9, .find 5, .find 7]) (ok := Op.isSafe) (by
      intro op h
      simp only [List.mem_cons, List.not_mem_nil, or_false] at h
      rcases h with rfl | rfl | rfl | rfl | rfl | rfl <;> trivial) (by with_unfolding_all rfl)
    exact ⟨s, by rw [← happ]; exact h⟩
  · generalize 2 ^ 32 = N at hn
    refine ⟨fun i => if i = N then 3 else 2, fun i => by dsimp only; split <;> omega, fun j _ h => ?_, ?_⟩
    · dsimp only at h
      rw [if_pos rfl] at h
      split at h
      · assumption
      · omega
    · obtain ⟨ps, d1, e1, g1⟩ := legal_calls m
        ((List.range n).map fun i => Op.insert (if i = N then 3 else 2) (val32 i)) fun _ => none
      obtain ⟨fs, d2, e2, g2⟩ := legal_calls m [.find (if N = N then 3 else 2)] d1
      cases fs with
      | nil => cases e2
      | cons x fs =>
        cases fs with
        | cons y fs => simp at e2
        | nil =>
          obtain ⟨o, r⟩ := x
          have e2 : o = .find (if N = N then 3 else 2) := by simpa using e2
          subst e2
          obtain ⟨l, f1, f2, f3⟩ := lin_inTurn (m := m) _ (legal_append g1 g2)
          refine ⟨ps, [(.find (if N = N then 3 else 2), r)], r, ins_run n _ (fun x hx => ?_) e1, ?_, ?_⟩
          · rw [List.mem_singleton.1 hx]; exact ⟨_, rfl⟩
          · rw [← happ]; exact ⟨l, _, _, f1, f2, f3⟩
          · simp [inTurn]

end Growt.Agg
