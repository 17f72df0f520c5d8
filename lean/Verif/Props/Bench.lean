import Verif.Props.Acct

/-!
# C78, C79, C80: the benchmark with contention, and examples
-/

set_option linter.unusedSectionVars false

namespace Growt.Agg

section
variable {T A : Type} [DecidableEq T] [DecidableEq A] [Inhabited A]

/-! ## The benchmark with contention -/

/-- `Overwrite` (`example/update_fcts.hpp:32-52`).  The store to the shared word in `atomic` is taken as atomic. -/
def overFn {V : Type} (v : V) : UpdFn V := ⟨fun _ => v, fun _ => v, some fun _ => (v, v)⟩

/-- `fill` has been carried out, the threads having taken the indices `share`, and all its calls have returned
(`tests/con_test.cpp:63-74, 172-180`); since then there have been look-ups and overwriting updates only
(`tests/con_test.cpp:77-132`).  The keys are between 1 and `n` (`tests/con_test.cpp:53-61; the generator is not part of the repository`). -/
structure ConRun (n : Nat) (keys : Nat → Nat) (share : T → List Nat) (h1 h2 : List (Ev T (Op Nat Nat) (SRes Nat))) :
    Prop where
  quiet : Quiet h1
  calls : ∀ t, byThread t h1 = (share t).map fun i => .insert (i + 1) (i + 1)
  once : ∀ t, (share t).Nodup
  apart : ∀ t t', t ≠ t' → ∀ i ∈ share t, ∀ j ∈ share t', i ≠ j
  all : ∀ i, i < n ↔ ∃ t, i ∈ share t
  range : ∀ i < n, 1 ≤ keys i ∧ keys i ≤ n
  rest : Only (fun o => (∃ k, o = .find k) ∨ ∃ i < n, o = .update (keys i) (overFn (i + 1))) h2

/-- What the benchmark observes: insertions and updates have been successful; a look-up of the key of an index finds
it, with the inserted value or a value written to this key by an update. (specification, no code) -/
structure ConSeen (n : Nat) (keys : Nat → Nat) (h1 h2 : List (Ev T (Op Nat Nat) (SRes Nat))) : Prop where
  fills : ∀ t o r, Ev.ret t o r ∈ h1 → r.ok = true
  updates : ∀ t i r, i < n → Ev.ret t (.update (keys i) (overFn (i + 1))) r ∈ h2 → r.ok = true
  finds : ∀ t i r, i < n → Ev.ret t (.find (i + 1)) r ∈ h2 →
    ∃ v, r.shown = some v ∧ (v = i + 1 ∨ ∃ j < n, keys j = i + 1 ∧ v = j + 1)

theorem nodup_succ {l : List Nat} (h : l.Nodup) : (l.map fun i => i + 1).Nodup := by
  induction l with
  | nil => exact List.nodup_nil
  | cons i l ih =>
    obtain ⟨h1, h2⟩ := List.nodup_cons.1 h
    exact List.nodup_cons.2 ⟨fun hm => by
      obtain ⟨j, hj, e⟩ := List.mem_map.1 hm
      have e : j + 1 = i + 1 := e
      have : j = i := by omega
      exact h1 (this ▸ hj), ih h2⟩

theorem retSum_same {O R : Type} {f g : O → R → Nat} {h : List (Ev T O R)}
    (hfg : ∀ t o r, Ev.ret t o r ∈ h → f o r = g o r) : retSum f h = retSum g h := by
  induction h with
  | nil => rfl
  | cons e h ih =>
    have ih := ih fun t o r hr => hfg t o r (List.mem_cons_of_mem _ hr)
    cases e with
    | ret t o r => simp only [retSum, ih, hfg t o r (List.mem_cons_self ..)]
    | _ => exact ih

theorem callSum_pos {O R : Type} {g : O → Nat} {h : List (Ev T O R)} {t : T} {o : O} (hc : Ev.call t o ∈ h) :
    g o ≤ callSum g h := by
  induction h with
  | nil => cases hc
  | cons e h ih =>
    rcases List.mem_cons.1 hc with rfl | hc'
    · simp only [callSum]; omega
    · have := ih hc'
      cases e <;> simp only [callSum] <;> omega

theorem callSum_none {O R : Type} {g : O → Nat} {h : List (Ev T O R)} (hc : ∀ t o, Ev.call t o ∈ h → g o = 0) :
    callSum g h = 0 := by
  induction h with
  | nil => rfl
  | cons e h ih =>
    have ih := ih fun t o hr => hc t o (List.mem_cons_of_mem _ hr)
    cases e with
    | call t o => simp only [callSum, ih, hc t o (List.mem_cons_self ..)]
    | _ => exact ih

theorem update_there {m : Bool} {k v : Nat} {d d' : Dict Nat Nat} {r : SRes Nat}
    (h : (Sync.growObj m).legal d (.update k (overFn v)) r d') :
    ∀ k', (d' k').isSome = (d k').isSome ∧ (k' = k → r.ok = (d k).isSome) := by
  rcases h with ⟨rfl, h1, -⟩ | ⟨⟨_, _, _, _, h, -⟩, -⟩
  · intro k'
    simp only [Op.toSpec, SOp.sem] at h1 ⊢
    rcases Option.eq_none_or_eq_some (d k) with hd | ⟨w, hd⟩
    · simp only [hd] at h1 ⊢
      exact ⟨trivial, fun _ => h1⟩
    · simp only [hd] at h1 ⊢
      refine ⟨?_, fun _ => h1⟩
      simp only [Dict.put]
      split
      · rename_i hk; rw [hk, hd]; rfl
      · rfl
  · cases h

theorem con_seen {m : Bool} {n : Nat} {keys : Nat → Nat} {share : T → List Nat}
    {h1 h2 : List (Ev T (Op Nat Nat) (SRes Nat))} (hl : Linearizable (Sync.growObj m) (h1 ++ h2))
    (hR : ConRun n keys share h1 h2) : ConSeen n keys h1 h2 := by
  obtain ⟨l0, p0, d0, hv0, hw0, hd0⟩ := state_prefix hl
  have hD : DelSeen (fun i => i + 1) (fun i => i + 1) share (fun _ => []) h1 [] := by
    refine del_seen (m := m) (by rw [List.append_nil]; exact ⟨l0, p0, d0, hv0, hw0, hd0⟩) ⟨hR.quiet, fun t => ?_,
      fun t => ?_, fun t t' ht i hi j hj e => ?_, fun _ _ h => by cases h⟩
    · rw [hR.calls]
      cases hs : (share t).map (fun i => i + 1) <;> simp [threadCalls, window]
    · rw [List.append_nil]; exact nodup_succ (hR.once t)
    · rw [List.append_nil] at hi hj
      exact hR.apart t t' ht i hi j hj (by omega)
  have hcall : ∀ t o, Ev.call t o ∈ h1 → ∃ i < n, o = .insert (i + 1) (i + 1) := by
    intro t o hc
    rw [call_byThread, hR.calls] at hc
    obtain ⟨i, hi, rfl⟩ := List.mem_map.1 hc
    exact ⟨i, (hR.all i).2 ⟨t, hi⟩, rfl⟩
  obtain ⟨l, d, hv, hw, hd, hlater⟩ := state_quiet hl hR.quiet
  have there : ∀ i < n, (d (i + 1)).isSome := by
    intro i hi
    have h3 := (keeperG m (i + 1)).after hd
    obtain ⟨t, ht⟩ := (hR.all i).1 hi
    have hc : Ev.call t (.insert (i + 1) (i + 1)) ∈ h1 := by
      rw [call_byThread, hR.calls]
      exact List.mem_map.2 ⟨i, ht, rfl⟩
    have h4 : 1 ≤ callSum ((bookG (K := Nat) (V := Nat)).mayPut (i + 1)) h1 := by
      have := callSum_pos (g := (bookG (K := Nat) (V := Nat)).mayPut (i + 1)) hc
      simpa [Book.mayPut, bookG, putOf] using this
    have h5 : callSum ((bookG (K := Nat) (V := Nat)).mayTake (i + 1)) h1 = 0 := by
      refine callSum_none fun t o hc => ?_
      obtain ⟨j, -, rfl⟩ := hcall t o hc
      rfl
    have h6 : retSum ((bookG (K := Nat) (V := Nat)).hasPut (i + 1)) h1 =
        retSum (fun o _ => (bookG (K := Nat) (V := Nat)).mayPut (i + 1) o) h1 := by
      refine retSum_same fun t o r hr => ?_
      have := hD.noErrors t o r hr
      simp [Book.hasPut, bookG, this]
    have h7 := quiet_calls (g := (bookG (K := Nat) (V := Nat)).mayPut (i + 1)) hw fun _ => rfl
    have h8 := quiet_sums (f := (bookG (K := Nat) (V := Nat)).hasPut (i + 1)) hw fun _ => rfl
    have h9 := quiet_sums (f := (bookG (K := Nat) (V := Nat)).hasTaken (i + 1)) hw fun _ => rfl
    have h10 := quiet_calls (g := (bookG (K := Nat) (V := Nat)).mayTake (i + 1)) hw fun _ => rfl
    have h11 : retSum ((bookG (K := Nat) (V := Nat)).hasTaken (i + 1)) l ≤
        retSum (fun o _ => (bookG (K := Nat) (V := Nat)).mayTake (i + 1) o) l := by
      have := linSum_mono (f := (bookG (K := Nat) (V := Nat)).hasTaken (i + 1))
        (f' := fun o _ => (bookG (K := Nat) (V := Nat)).mayTake (i + 1) o) (fun o r => Book.hasTaken_le _ _ o r) l
      rw [quiet_sums hw fun _ => rfl, quiet_sums hw fun _ => rfl] at this
      exact this
    subst hv
    simp only [callSum_visible, retSum_visible] at h4 h5 h6
    have : 1 ≤ pres (d (i + 1)) := by omega
    unfold pres at this
    split at this
    · assumption
    · omega
  have stays : ∀ es d1, Legal (Sync.growObj m) d es d1 → (∀ x ∈ es, ∃ j, Ev.call j x.1 ∈ h2) →
      ∀ k, (d1 k).isSome = (d k).isSome := by
    intro es d1 h
    clear hlater there hd
    induction h with
    | nil => intro _ _; rfl
    | @cons d d1 d2 o r l h _ ih =>
      intro hx k
      rw [ih (fun x hm => hx x (List.mem_cons_of_mem _ hm)) k]
      obtain ⟨j, hj⟩ := hx (o, r) (List.mem_cons_self ..)
      rcases hR.rest j o hj with ⟨k', rfl⟩ | ⟨i, -, rfl⟩
      · rw [(find_keeps h).1]
      · exact (update_there h k).1
  refine ⟨hD.noErrors, fun t i r hi hr => ?_, fun t i r hi hr => ?_⟩
  · obtain ⟨-, es, d1, d2, e1, e2, e3⟩ := hlater t _ r hr
    rw [(update_there e2 (keys i)).2 rfl, stays es d1 e1 e3]
    obtain ⟨a1, a2⟩ := hR.range i hi
    have := there (keys i - 1) (by omega)
    rwa [show keys i - 1 + 1 = keys i by omega] at this
  · obtain ⟨-, es, d1, d2, e1, e2, e3⟩ := hlater t _ r hr
    have hs : (d1 (i + 1)).isSome := by rw [stays es d1 e1 e3]; exact there i hi
    have hsh := (find_keeps e2).2.2
    obtain ⟨v, hv'⟩ := Option.isSome_iff_exists.1 hs
    refine ⟨v, hsh.trans hv', ?_⟩
    refine (keepsG m (i + 1) fun v => v = i + 1 ∨ ∃ j < n, keys j = i + 1 ∧ v = j + 1).shown hl ?_
      (List.mem_append.2 (.inr hr)) (seenBy_pos rfl (hsh.trans hv'))
    intro j o hc hk o' ho'
    rw [List.mem_singleton.1 ho']
    rcases List.mem_append.1 hc with hc | hc
    · obtain ⟨i', -, rfl⟩ := hcall j o hc
      exact .inl hk
    · rcases hR.rest j o hc with ⟨k', rfl⟩ | ⟨i', hi', rfl⟩
      · trivial
      · intro w _
        refine .inr ⟨i', hi', hk, ?_⟩
        cases m <;> rfl

/-- **C80, benchmark with contention, synchronised growth.** -/
theorem C80_sync_contention_partial {u : Bool} {ok : Op Nat Nat → Prop} {E : Env Nat} (hE : E.OK)
    (hcombo : E.M.cm = true → E.M.cp = true) (hmix : Mix E.m ok) {a : A}
    {l : List (Ev T (Op Nat Nat) (SRes Nat))} {s : Sync.DSt T A Nat Nat}
    (h : Exec (Sync.DStepW u ok) (Sync.DSt.init E a) l s) {n : Nat} {keys : Nat → Nat} {share : T → List Nat}
    {h1 h2 : List (Ev T (Op Nat Nat) (SRes Nat))} (hl : visible l = h1 ++ h2) (hR : ConRun n keys share h1 h2) :
    ConSeen n keys h1 h2 :=
  con_seen (hl ▸ Sync.C30_linearizable_partial hE hcombo hmix h) hR

/-- **C80, benchmark with contention, asynchronous growth.** -/
theorem C80_async_contention_partial {u : Bool} {ok : Op Nat Nat → Prop} (hok : ∀ op, ok op → op.isSafe) {E : Env Nat}
    (hE : E.OK) (hcombo : E.M.cm = true → E.M.cp = true) (hm : E.m = true) {a : A}
    {l : List (Ev T (Op Nat Nat) (SRes Nat))} {s : Async.DSt T A Nat Nat}
    (h : Exec (Async.DStepW u ok) (Async.DSt.init E a) l s) {n : Nat} {keys : Nat → Nat} {share : T → List Nat}
    {h1 h2 : List (Ev T (Op Nat Nat) (SRes Nat))} (hl : l = h1 ++ h2) (hR : ConRun n keys share h1 h2) :
    ConSeen n keys h1 h2 :=
  con_seen (hl ▸ Async.C24_linearizable_partial hok hE hcombo hm h) hR

/-- The check of `val_update` for index `i`: is an error counted, given what the look-up shows
(`tests/con_test.cpp:117-126`). -/
def valErr (n : Nat) (keys : Nat → Nat) (i : Nat) : Option Nat → Bool
  | none => true
  | some temp =>
    if temp ≠ i + 1 then decide (temp < 2) || decide (temp > n + 1) || decide (keys (temp - 1) ≠ i + 1) else false

/-- **C80, the check of the benchmark**: for what a look-up may show, an error is counted if and only if the value is
the one written by the update with index 0, to a key other than 1. -/
theorem C80_check (n : Nat) (keys : Nat → Nat) {i v : Nat} (h : v = i + 1 ∨ ∃ j < n, keys j = i + 1 ∧ v = j + 1) :
    valErr n keys i (some v) = true ↔ v = 1 ∧ i ≠ 0 := by
  unfold valErr
  by_cases hv : v = i + 1
  · simp only [hv, ne_eq, not_true, if_false, Bool.false_eq_true, false_iff]; omega
  · rcases h with h | ⟨j, hj, hk, rfl⟩
    · exact absurd h hv
    · dsimp only
      rw [if_pos hv]
      simp only [Bool.or_eq_true, decide_eq_true_eq, Nat.add_sub_cancel, ne_eq, hk, not_true, or_false]
      omega

end

/-! ## The buffers of the deletion benchmark -/

/-- `local_buffer_size` (`tests/del_test.cpp:135`). -/
def bufSize (ws p id : Nat) : Nat := ws / p + if id < ws % p then 1 else 0

/-- Errors that a thread counts in stage 1 because its buffer is empty; the key inserted then is not put into the buffer
(`tests/del_test.cpp:170-186`). -/
def bufErrors {K : Type} (keys : Nat → K) : List K → List Nat → Nat
  | _, [] => 0
  | [], _ :: l => bufErrors keys [] l + 1
  | _ :: b, i :: l => bufErrors keys (b ++ [keys i]) l

theorem bufErrors_empty {K : Type} (keys : Nat → K) (l : List Nat) : bufErrors keys [] l = l.length := by
  induction l with
  | nil => rfl
  | cons i l ih => simp [bufErrors, ih]

theorem bufErrors_full {K : Type} (keys : Nat → K) {b : List K} (hb : b ≠ []) (l : List Nat) : bufErrors keys b l = 0 := by
  induction l generalizing b with
  | nil => cases b <;> rfl
  | cons i l ih =>
    cases b with
    | nil => exact absurd rfl hb
    | cons k b => exact ih (by simp)

theorem sum_below (c r n : Nat) :
    ((List.range n).map fun id => c + if id < r then 1 else 0).sum = n * c + min n r := by
  induction n with
  | zero => simp
  | succ n ih =>
    rw [List.range_succ, List.map_append, List.sum_append, ih]
    simp only [List.map_cons, List.map_nil, List.sum_cons, List.sum_nil]
    rw [Nat.succ_mul]
    split <;> omega

/-- **C79, the windows of the deletion benchmark**: the buffers of the `p` threads hold `ws` keys together; a thread
counts no error because of its buffer, provided that `ws` is at least `p`; but if `ws < p` there is a thread that counts
an error for each of its indices, whatever the table does. -/
theorem C79_buffers {K : Type} (keys : Nat → K) {ws p : Nat} (hp : 0 < p) :
    ((List.range p).map (bufSize ws p)).sum = ws ∧
    (p ≤ ws → ∀ id b l, b.length = bufSize ws p id → bufErrors keys b l = 0) ∧
    (ws < p → ∃ id < p, ∀ b l, b.length = bufSize ws p id → bufErrors keys b l = l.length) := by
  refine ⟨?_, fun h id b l hb => ?_, fun h => ⟨ws, h, fun b l hb => ?_⟩⟩
  · show ((List.range p).map fun id => ws / p + if id < ws % p then 1 else 0).sum = ws
    rw [sum_below, Nat.min_eq_right (Nat.le_of_lt (Nat.mod_lt _ hp)), Nat.div_add_mod]
  · refine bufErrors_full keys (fun e => ?_) l
    have : 0 < ws / p := Nat.div_pos h hp
    rw [e] at hb
    simp only [bufSize, List.length_nil] at hb
    omega
  · have : bufSize ws p ws = 0 := by
      simp [bufSize, Nat.div_eq_of_lt h, Nat.mod_eq_of_lt h]
    rw [this] at hb
    rw [List.length_eq_zero_iff.1 hb, bufErrors_empty]

/-- Both cases occur: a window of 10 keys for 4 threads; a window of 3 keys for 4 threads. -/
example : (List.range 4).map (bufSize 10 4) = [3, 3, 2, 2] ∧ (List.range 4).map (bufSize 3 4) = [1, 1, 1, 0] ∧
    bufErrors id [] [3, 4, 5] = 3 ∧ bufErrors id [1] [3, 4, 5] = 0 := by decide

/-! ## Examples -/

/-- The calls `ops` one after the other, on a table alone: results and final table. (model bookkeeping, no code) -/
def seqRun (E : Env Nat) : List (Op Nat Nat) → Tbl Nat Nat → Option (List (Op Nat Nat × SRes Nat) × Tbl Nat Nat)
  | [], t => some ([], t)
  | op :: l, t =>
    match run E op 5 (start E op) t with
    | .done g r =>
      match Sync.answer op r with
      | some x =>
        match seqRun E l g with
        | some (ps, g') => some ((op, x) :: ps, g')
        | none => none
      | none => none
    | _ => none

/-- The history of calls one after the other. (model bookkeeping, no code) -/
def inTurn (ps : List (Op Nat Nat × SRes Nat)) : List (Ev Nat (Op Nat Nat) (SRes Nat)) :=
  ps.flatMap fun x => [.call 0 x.1, .ret 0 x.1 x.2]

theorem seqRun_cons {E : Env Nat} {op : Op Nat Nat} {ops : List (Op Nat Nat)} {t t' : Tbl Nat Nat}
    {ps : List (Op Nat Nat × SRes Nat)} (h : seqRun E (op :: ops) t = some (ps, t')) :
    ∃ g r x ps', run E op 5 (start E op) t = .done g r ∧ Sync.answer op r = some x ∧ seqRun E ops g = some (ps', t') ∧
      ps = (op, x) :: ps' := by
  unfold seqRun at h
  split at h
  · rename_i g r hr
    split at h
    · rename_i x hx
      split at h
      · rename_i ps' g' hs
        obtain ⟨rfl, rfl⟩ := Prod.mk.inj (Option.some.inj h)
        exact ⟨g, r, x, ps', hr, hx, hs, rfl⟩
      · cases h
    · cases h
  · cases h

open Sync in
theorem seq_sync_aux {s0 : Sync.DSt Nat Nat Nat Nat} (ops : List (Op Nat Nat)) : ∀ {ps t t' l mem},
    (∀ op ∈ ops, exOk op) → seqRun exE ops t = some (ps, t') → published (mem 0) = t →
    Exec (DStepW false exOk) s0 l { start0 with
      p := calm 0 (-1) (upd (fun _ => none) 0 (some { ver := 0, next := none, claimed := 0, blocks := 1 })), mem := mem } →
    ∃ l' s, Exec (DStepW false exOk) s0 l' s ∧ visible l' = visible l ++ inTurn ps ∧ s.p.table = .clear 0 ∧
      s.env 0 = exE := by
  induction ops with
  | nil =>
    intro ps t t' l mem _ hs _ h
    cases hs
    exact ⟨l, _, h, by simp [inTurn], rfl, rfl⟩
  | cons op ops ih =>
    intro ps t t' l mem hok hs hm h
    obtain ⟨g, r, x, ps', hr, hx, hs', rfl⟩ := seqRun_cons hs
    have hsm : ∀ p mem, DSt.small { start0 with p := p, mem := mem } := fun p _ _ => exE_small
    obtain ⟨m1, e1, h1⟩ := op_keep (x := x)
      (heap := upd (fun _ => none) 0 (some { ver := 0, next := none, claimed := 0, blocks := 1 }))
      (o := { ver := 0, next := none, claimed := 0, blocks := 1 }) 5 h (hsm _ _) rfl rfl rfl rfl (hok op (List.mem_cons_self ..))
      (g := g) (r := r) (by show run exE _ 5 (start exE _) (published (mem 0)) = _; rw [hm]; exact hr) hx
    obtain ⟨l', s, h2, h3, h4⟩ := ih (mem := m1) (fun o ho => hok o (List.mem_cons_of_mem _ ho)) hs' e1 h1
    refine ⟨l', s, h2, ?_, h4⟩
    rw [h3]
    simp [visible_append, visible, inTurn]

open Sync in
/-- Thread 0 makes calls one after the other on a table with synchronised growth; it does not grow. -/
theorem seq_sync_rest {ops : List (Op Nat Nat)} {ps : List (Op Nat Nat × SRes Nat)} (hok : ∀ op ∈ ops, exOk op)
    (hs : (seqRun exE ops fun _ => Cell.emptyCell).map Prod.fst = some ps) :
    ∃ (l : List (Ev Nat (Op Nat Nat) (SRes Nat))) (s : DSt Nat Nat Nat Nat),
      Exec (DStepW false exOk) (DSt.init exE 0) l s ∧ visible l = inTurn ps ∧ s.p.table = .clear 0 ∧ s.env 0 = exE := by
  have hm0 : published (start0.mem 0) = fun _ => Cell.emptyCell := by
    funext q
    show (if q < exE.M.total then some Cell.emptyCell else none).getD _ = _
    split <;> rfl
  cases e : seqRun exE ops fun _ => Cell.emptyCell with
  | none => rw [e] at hs; cases hs
  | some x =>
    obtain ⟨ps', t'⟩ := x
    rw [e] at hs
    simp only [Option.map_some, Option.some.injEq] at hs
    subst hs
    obtain ⟨l, s, h, hv, ht⟩ := seq_sync_aux ops hok e hm0 two_handlesX
    exact ⟨l, s, h, by rw [hv]; rfl, ht⟩

open Sync in
/-- Thread 0 makes calls one after the other on a table with synchronised growth. -/
theorem seq_sync {ops : List (Op Nat Nat)} {ps : List (Op Nat Nat × SRes Nat)} (hok : ∀ op ∈ ops, exOk op)
    (hs : (seqRun exE ops fun _ => Cell.emptyCell).map Prod.fst = some ps) :
    ∃ (l : List (Ev Nat (Op Nat Nat) (SRes Nat))) (s : DSt Nat Nat Nat Nat),
      Exec (DStepW false exOk) (DSt.init exE 0) l s ∧ visible l = inTurn ps := by
  obtain ⟨l, s, h, hv, -⟩ := seq_sync_rest hok hs
  exact ⟨l, s, h, hv⟩

open Async in
theorem seq_async_run {ok : Op Nat Nat → Prop} {s0 : Async.DSt Nat Nat Nat Nat} {op : Op Nat Nat} {x : SRes Nat}
    {g : Tbl Nat Nat} {r : Ret Nat Nat} (hx : Sync.answer op r = some x) {y : UThr Nat Nat} (n : Nat) :
    ∀ {pc : Growt.PC Nat Nat} {t : Tbl Nat Nat} {l} {s : Async.DSt Nat Nat Nat Nat},
    run exM op n pc t = .done g r → Exec (XStep false true ok) s0 l s →
    At s 0 0 0 (.use ⟨0, 0⟩) (.idle ⟨0, 0⟩) (some (tab0 0 none)) none →
    Has s (fun _ => exM) (.busy op pc) y t false →
    ∃ s', Exec (XStep false true ok) s0 (l ++ [.ret 0 op x]) s' ∧
      At s' 0 0 0 (.idle ⟨0, 0⟩) (.idle ⟨0, 0⟩) (some (tab0 0 none)) none ∧
      Has s' (fun _ => exM) .idle y g false := by
  have k : ∀ a : Nat, (exM.M.cp = false) ∧ exM.M.addr < 2 ^ 32 := fun _ => exM_small
  induction n with
  | zero => intro pc t l s hr; cases hr
  | succ n ih =>
    intro pc t l s hr hX hA hH
    unfold run at hr
    rcases hst : Growt.step exM op pc t with ⟨g1, out⟩
    rw [hst] at hr
    cases out with
    | oob => cases hr
    | done r1 =>
      cases hr
      obtain ⟨s', h1, h2, h3, -⟩ := (opX0 hX hA hH k (fun _ => rfl) hst).2 _ x rfl hx
      exact ⟨s', h1, h2, h3⟩
    | cont pc1 =>
      obtain ⟨s', h1, h2, h3, -⟩ := (opX0 hX hA hH k (fun _ => rfl) hst).1 _ rfl
      exact ih hr h1 h2 h3

open Async in
theorem seq_async_aux {ok : Op Nat Nat → Prop} {s0 : Async.DSt Nat Nat Nat Nat} {y : UThr Nat Nat}
    (ops : List (Op Nat Nat)) : ∀ {ps t t' l} {s : Async.DSt Nat Nat Nat Nat},
    (∀ op ∈ ops, ok op) → seqRun exM ops t = some (ps, t') → Exec (XStep false true ok) s0 l s →
    At s 0 0 0 (.idle ⟨0, 0⟩) (.idle ⟨0, 0⟩) (some (tab0 0 none)) none →
    Has s (fun _ => exM) .idle y t false → ∃ s', Exec (XStep false true ok) s0 (l ++ inTurn ps) s' ∧
      s'.p.glob = 0 ∧ s'.p.heap 0 = some (tab0 0 none) ∧ s'.env = fun _ => exM := by
  have k : ∀ a : Nat, (exM.M.cp = false) ∧ exM.M.addr < 2 ^ 32 := fun _ => exM_small
  induction ops with
  | nil =>
    intro ps t t' l s _ hs h hA hH
    cases hs
    exact ⟨s, by simpa [inTurn] using h, hA.glob, hA.heap0, hH.env⟩
  | cons op ops ih =>
    intro ps t t' l s hok hs h hA hH
    obtain ⟨g, r, x, ps', hr, hx, hs', rfl⟩ := seqRun_cons hs
    obtain ⟨s1, h1, hA1, hH1, -⟩ := enterX h hA hH k (fun _ => rfl) (hok op (List.mem_cons_self ..))
    obtain ⟨s2, h2, hA2, hH2⟩ := seq_async_run hx 5 hr h1 hA1 hH1
    obtain ⟨s3, h3, h4⟩ := ih (fun o ho => hok o (List.mem_cons_of_mem _ ho)) hs' h2 hA2 hH2
    exact ⟨s3, by simpa [inTurn] using h3, h4⟩

open Async in
/-- Thread 0 makes calls one after the other on a table with asynchronous growth; it does not grow. -/
theorem seq_async_rest {ok : Op Nat Nat → Prop} {ops : List (Op Nat Nat)} {ps : List (Op Nat Nat × SRes Nat)}
    (hok : ∀ op ∈ ops, ok op) (hs : (seqRun exM ops fun _ => Cell.emptyCell).map Prod.fst = some ps) :
    ∃ s : Async.DSt Nat Nat Nat Nat, Exec (Async.DStepW false ok) (Async.DSt.init exM 0) (inTurn ps) s ∧
      s.p.glob = 0 ∧ s.p.heap 0 = some (tab0 0 none) ∧ s.env = fun _ => exM := by
  obtain ⟨s, h, hA, hH, -⟩ := part_a1 false true ok
  cases e : seqRun exM ops fun _ => Cell.emptyCell with
  | none => rw [e] at hs; cases hs
  | some x =>
    obtain ⟨ps', t'⟩ := x
    rw [e] at hs
    simp only [Option.map_some, Option.some.injEq] at hs
    subst hs
    obtain ⟨s', h', h4⟩ := seq_async_aux ops hok e h hA hH
    exact ⟨s', h'.mono (fun _ _ _ => XStep.stepW), h4⟩

open Async in
/-- Thread 0 makes calls one after the other on a table with asynchronous growth. -/
theorem seq_async {ok : Op Nat Nat → Prop} {ops : List (Op Nat Nat)} {ps : List (Op Nat Nat × SRes Nat)}
    (hok : ∀ op ∈ ops, ok op) (hs : (seqRun exM ops fun _ => Cell.emptyCell).map Prod.fst = some ps) :
    ∃ s : Async.DSt Nat Nat Nat Nat, Exec (Async.DStepW false ok) (Async.DSt.init exM 0) (inTurn ps) s := by
  obtain ⟨s, h, -⟩ := seq_async_rest hok hs
  exact ⟨s, h⟩

theorem quiet_inTurn (ps : List (Op Nat Nat × SRes Nat)) : Quiet (inTurn ps) := by
  induction ps with
  | nil => intro a i o b h; cases a <;> cases h
  | cons x ps ih =>
    intro a i o b h
    have h : Ev.call 0 x.1 :: Ev.ret 0 x.1 x.2 :: inTurn ps = a ++ Ev.call i o :: b := h
    rcases a with _ | ⟨y, _ | ⟨z, a⟩⟩
    · simp only [List.nil_append, List.cons.injEq, Ev.call.injEq] at h
      obtain ⟨⟨rfl, rfl⟩, rfl⟩ := h
      exact ⟨_, _, List.mem_cons_self ..⟩
    · simp only [List.cons_append, List.nil_append, List.cons.injEq, reduceCtorEq, false_and, and_false] at h
    · simp only [List.cons_append, List.cons.injEq] at h
      exact ih a i o b h.2.2

theorem byThread_inTurn (ps : List (Op Nat Nat × SRes Nat)) (t : Nat) :
    byThread t (inTurn ps) = if t = 0 then ps.map Prod.fst else [] := by
  have h : ∀ ps : List (Op Nat Nat × SRes Nat), callsOf (inTurn ps) = ps.map fun x => (0, x.1) := by
    intro ps
    induction ps with
    | nil => rfl
    | cons x ps ih =>
      show callsOf (Ev.call 0 x.1 :: Ev.ret 0 x.1 x.2 :: inTurn ps) = _
      simp [callsOf, ih]
  unfold byThread
  rw [h]
  induction ps with
  | nil => simp
  | cons x ps ih =>
    by_cases ht : t = 0
    · simp [ht] at ih ⊢
      exact ih
    · simp [ht, Ne.symm ht] at ih ⊢
      exact ih

theorem call_inTurn {ps : List (Op Nat Nat × SRes Nat)} {t : Nat} {o : Op Nat Nat} (h : Ev.call t o ∈ inTurn ps) :
    o ∈ ps.map Prod.fst := by
  rw [call_byThread, byThread_inTurn] at h
  split at h
  · exact h
  · cases h

theorem inTurn_append (ps qs : List (Op Nat Nat × SRes Nat)) : inTurn (ps ++ qs) = inTurn ps ++ inTurn qs := by
  simp [inTurn]

/-- Insertion and deletion benchmark of thread 0 with a window of one key: keys 2 and 4; validation.
(model bookkeeping, no code) -/
def winOps : List (Op Nat Nat) := [.insert 2 3, .insert 4 5, .erase 2, .find 2, .find 4, .find 6]

/-- Stages 0.1 and 1 of `winOps`. (model bookkeeping, no code) -/
def winRun : List (Op Nat Nat × SRes Nat) := [(.insert 2 3, ⟨true, none⟩), (.insert 4 5, ⟨true, none⟩), (.erase 2, ⟨true, none⟩)]

/-- Stage 2 of `winOps`. (model bookkeeping, no code) -/
def winLook : List (Op Nat Nat × SRes Nat) := [(.find 2, ⟨false, none⟩), (.find 4, ⟨true, some 5⟩), (.find 6, ⟨false, none⟩)]

/-- The indices of thread 0: index `i` of stage 0.1 or stage 1. (model bookkeeping, no code) -/
def one (i t : Nat) : List Nat := if t = 0 then [i] else []

theorem win_run : DelRun (fun i => 2 * i + 2) (fun i => 2 * i + 3) (one 0) (one 1) (inTurn winRun) (inTurn winLook) := by
  refine ⟨quiet_inTurn _, fun t => ?_, fun t => ?_, fun t t' ht i hi => ?_, fun t o hc => ?_⟩
  · rw [byThread_inTurn]
    by_cases h : t = 0
    · subst h; rfl
    · simp [h, one, threadCalls, window]
  · by_cases h : t = 0
    · subst h; decide
    · simp [h, one]
  · by_cases h : t = 0
    · have : ¬ t' = 0 := by omega
      intro j hj
      simp [one, this] at hj
    · simp [one, h] at hi
  · have := call_inTurn hc
    simp only [winLook, List.map_cons, List.map_nil, List.mem_cons, List.not_mem_nil, or_false] at this
    rcases this with rfl | rfl | rfl
    · exact ⟨2, rfl⟩
    · exact ⟨4, rfl⟩
    · exact ⟨6, rfl⟩

theorem exOk_win : ∀ op ∈ winOps, Sync.exOk op := by
  intro op h
  simp only [winOps, List.mem_cons, List.not_mem_nil, or_false] at h
  rcases h with rfl | rfl | rfl | rfl | rfl | rfl <;>
    refine ⟨trivial, ?_, ?_⟩ <;> intro k h <;> simp [Op.removes, Op.modifies] at h
  subst h; rfl

/-- **C78, C79, not vacuous for synchronised growth**: key 2 is inserted, key 4 is inserted, key 2 is erased, keys 2, 4
and 6 are looked up. -/
theorem C79_sync_not_vacuous : ∃ (l : List (Ev Nat (Op Nat Nat) (SRes Nat))) (s : Sync.DSt Nat Nat Nat Nat),
    Exec (Sync.DStepW false Sync.exOk) (Sync.DSt.init exE 0) l s ∧ visible l = inTurn winRun ++ inTurn winLook ∧
    DelRun (fun i => 2 * i + 2) (fun i => 2 * i + 3) (one 0) (one 1) (inTurn winRun) (inTurn winLook) ∧
    retSum (bookG.hasPut 2) (visible l) = 1 ∧ retSum (bookG.hasTaken 2) (visible l) = 1 ∧
    retSum (bookG.hasPut 4) (visible l) = 1 ∧ retSum (bookG.hasTaken 4) (visible l) = 0 ∧
    Ev.ret 0 (.find 4) ⟨true, some 5⟩ ∈ inTurn winLook := by
  obtain ⟨l, s, h, hv⟩ := seq_sync (ps := winRun ++ winLook) exOk_win (by with_unfolding_all rfl)
  rw [inTurn_append] at hv
  refine ⟨l, s, h, hv, win_run, ?_, ?_, ?_, ?_, ?_⟩
  · rw [hv]; rfl
  · rw [hv]; rfl
  · rw [hv]; rfl
  · rw [hv]; rfl
  · simp [inTurn, winLook]

/-- **C78, C79, not vacuous for asynchronous growth**: the same. -/
theorem C79_async_not_vacuous : ∃ s : Async.DSt Nat Nat Nat Nat,
    Exec (Async.DStepW false Op.isSafe) (Async.DSt.init exM 0) (inTurn winRun ++ inTurn winLook) s ∧
    DelRun (fun i => 2 * i + 2) (fun i => 2 * i + 3) (one 0) (one 1) (inTurn winRun) (inTurn winLook) := by
  obtain ⟨s, h⟩ := seq_async (ps := winRun ++ winLook) (ok := Op.isSafe) (fun op h => (exOk_win op h).1)
    (by with_unfolding_all rfl)
  rw [inTurn_append] at h
  exact ⟨s, h, win_run⟩

/-- The benchmark with contention, three keys, one update: index 0 has key 3. (model bookkeeping, no code) -/
def conOps : List (Op Nat Nat) := [.insert 1 1, .insert 2 2, .insert 3 3, .update 3 (overFn 1), .find 3]

/-- `fill` of `conOps`. (model bookkeeping, no code) -/
def conFill : List (Op Nat Nat × SRes Nat) := [(.insert 1 1, ⟨true, none⟩), (.insert 2 2, ⟨true, none⟩), (.insert 3 3, ⟨true, none⟩)]

/-- The rest of `conOps`. (model bookkeeping, no code) -/
def conRest : List (Op Nat Nat × SRes Nat) := [(.update 3 (overFn 1), ⟨true, some 1⟩), (.find 3, ⟨true, some 1⟩)]

/-- Thread 0 takes all indices. (model bookkeeping, no code) -/
def conShare (t : Nat) : List Nat := if t = 0 then [0, 1, 2] else []

theorem con_run : ConRun 3 (fun _ => 3) conShare (inTurn conFill) (inTurn conRest) := by
  refine ⟨quiet_inTurn _, fun t => ?_, fun t => ?_, fun t t' ht i hi => ?_, fun i => ?_, fun i _ => by decide,
    fun t o hc => ?_⟩
  · rw [byThread_inTurn]
    by_cases h : t = 0
    · subst h; rfl
    · simp [h, conShare]
  · by_cases h : t = 0
    · subst h; decide
    · simp [h, conShare]
  · by_cases h : t = 0
    · have : ¬ t' = 0 := by omega
      intro j hj
      simp [conShare, this] at hj
    · simp [conShare, h] at hi
  · constructor
    · intro h
      refine ⟨0, ?_⟩
      simp [conShare]; omega
    · rintro ⟨t, ht⟩
      by_cases h : t = 0
      · simp [conShare, h] at ht; omega
      · simp [conShare, h] at ht
  · have := call_inTurn hc
    simp only [conRest, List.map_cons, List.map_nil, List.mem_cons, List.not_mem_nil, or_false] at this
    rcases this with rfl | rfl
    · exact .inr ⟨0, by decide, rfl⟩
    · exact .inl ⟨3, rfl⟩

theorem exOk_con : ∀ op ∈ conOps, Sync.exOk op := by
  intro op h
  simp only [conOps, List.mem_cons, List.not_mem_nil, or_false] at h
  rcases h with rfl | rfl | rfl | rfl | rfl <;>
    refine ⟨trivial, ?_, ?_⟩ <;> intro k h <;> simp [Op.removes, Op.modifies] at h
  subst h; rfl

/-- **C80, the benchmark reports an error although the table is right** (synchronised growth): keys 1, 2, 3 are
inserted, the update with index 0 writes 1 to key 3, a look-up shows 1, and `val_update` counts an error. -/
theorem C80_sync_false_error : ∃ (l : List (Ev Nat (Op Nat Nat) (SRes Nat))) (s : Sync.DSt Nat Nat Nat Nat),
    Exec (Sync.DStepW false Sync.exOk) (Sync.DSt.init exE 0) l s ∧
    visible l = inTurn conFill ++ inTurn conRest ∧
    ConRun 3 (fun _ => 3) conShare (inTurn conFill) (inTurn conRest) ∧
    Ev.ret 0 (.find 3) ⟨true, some 1⟩ ∈ inTurn conRest ∧ valErr 3 (fun _ => 3) 2 (some 1) = true := by
  obtain ⟨l, s, h, hv⟩ := seq_sync (ps := conFill ++ conRest) exOk_con (by with_unfolding_all rfl)
  rw [inTurn_append] at hv
  exact ⟨l, s, h, hv, con_run, by simp [inTurn, conRest], by decide⟩

/-- **C80, the same with asynchronous growth.** -/
theorem C80_async_false_error : ∃ s : Async.DSt Nat Nat Nat Nat,
    Exec (Async.DStepW false Op.isSafe) (Async.DSt.init exM 0) (inTurn conFill ++ inTurn conRest) s ∧
    ConRun 3 (fun _ => 3) conShare (inTurn conFill) (inTurn conRest) ∧
    Ev.ret 0 (.find 3) ⟨true, some 1⟩ ∈ inTurn conRest ∧ valErr 3 (fun _ => 3) 2 (some 1) = true := by
  obtain ⟨s, h⟩ := seq_async (ps := conFill ++ conRest) (ok := Op.isSafe) (fun op h => (exOk_con op h).1)
    (by with_unfolding_all rfl)
  rw [inTurn_append] at h
  exact ⟨s, h, con_run, by simp [inTurn, conRest], by decide⟩

/-- Thread `false` inserts, erases and looks up key 1 while thread `true` inserts and looks up key 2, their calls
overlapping. (model bookkeeping, no code) -/
def ownSched : List (Sched Bool Nat Nat) :=
  [.call false (.insert 1 10), .call true (.insert 2 20), .step false, .step true, .step true, .step false, .ret true,
   .ret false, .call true (.find 2), .call false (.erase 1), .step false, .step true, .step false, .ret false,
   .call false (.find 1), .step false, .step false, .step false, .ret false, .ret true]

/-- The history of `ownSched`. (model bookkeeping, no code) -/
def ownHist : List (TEv Bool Nat Nat) :=
  [.call false (.insert 1 10), .call true (.insert 2 20), .ret true (.insert 2 20) ⟨some .SUCCESS_IN, some (2, Cell.emptyCell)⟩,
   .ret false (.insert 1 10) ⟨some .SUCCESS_IN, some (1, Cell.emptyCell)⟩, .call true (.find 2), .call false (.erase 1),
   .ret false (.erase 1) ⟨some .SUCCESS_DEL, none⟩, .call false (.find 1), .ret false (.find 1) ⟨none, none⟩,
   .ret true (.find 2) ⟨none, some (2, ⟨false, .live 2 20⟩)⟩]

/-- No updates: insertions, erasures and look-ups. (model bookkeeping, no code) -/
def ownCall {K V : Type} : Op K V → Prop
  | .find _ | .insert _ _ | .erase _ => True
  | _ => False

theorem own_mix {K V : Type} (m : Bool) : Mix m (ownCall (K := K) (V := V)) := by
  refine ⟨fun op h => ⟨fun k f e => by subst e; exact h, fun k d f e => by subst e; exact h⟩,
    fun _ k => .inr fun op h hr => ?_⟩
  cases op <;> simp_all [ownCall, Op.modifies]

/-- **C78, C79, C80, not vacuous for tables of fixed size**: the calls of the two threads overlap, those on each key do
not; key 1 is inserted and erased; key 2 is found. -/
theorem C79_bounded_not_vacuous : ∃ (l : List (TEv Bool Nat Nat)) (s : CSt Bool Nat Nat),
    Exec (CStep exE ownCall) CSt.init l s ∧ Mix exE.m (ownCall (K := Nat) (V := Nat)) ∧ visible l = ownHist ∧
    Turns (onKey Op.key 1 ownHist) [(.insert 1 10, ⟨some .SUCCESS_IN, some (1, Cell.emptyCell)⟩),
      (.erase 1, ⟨some .SUCCESS_DEL, none⟩), (.find 1, ⟨none, none⟩)] ∧
    (∀ ps, ¬ Turns ownHist ps) ∧ (∀ t o, Ev.call t o ∈ ownHist → o.key = 1 → t = false) ∧
    retSum (bookB.hasPut 1) ownHist = 1 ∧ retSum (bookB.hasTaken 1) ownHist = 1 ∧
    Only (Keeping Op.key (fun o => [o.toSpec exE.m]) 2 (· = 20)) (visible l) := by
  have hrun : (runSched exE ownSched CSt.init).map (fun x => visible x.1) = some ownHist := by with_unfolding_all rfl
  cases e : runSched exE ownSched CSt.init with
  | none => rw [e] at hrun; cases hrun
  | some x =>
    obtain ⟨l, s⟩ := x
    rw [e] at hrun
    simp only [Option.map_some, Option.some.injEq] at hrun
    have hX := runSched_sound (ok := ownCall) ownSched [] CSt.init s l (by
      simp [ownSched, Sched.allowed, ownCall]) .init e
    simp only [List.nil_append] at hX
    refine ⟨l, s, hX, own_mix _, hrun, ?_, ?_, ?_, rfl, rfl, ?_⟩
    · exact .turn false _ _ (.turn false _ _ (.turn false _ _ .nil))
    · intro ps h; cases h
    · intro t o hm hk
      simp only [ownHist, List.mem_cons, List.not_mem_nil, or_false, reduceCtorEq, false_or, Ev.call.injEq] at hm
      rcases hm with ⟨rfl, rfl⟩ | ⟨rfl, rfl⟩ | ⟨rfl, rfl⟩ | ⟨rfl, rfl⟩ | ⟨rfl, rfl⟩ <;> first | rfl | cases hk
    · rw [hrun]
      intro t o hm hk
      simp only [ownHist, List.mem_cons, List.not_mem_nil, or_false, reduceCtorEq, false_or, Ev.call.injEq] at hm
      rcases hm with ⟨rfl, rfl⟩ | ⟨rfl, rfl⟩ | ⟨rfl, rfl⟩ | ⟨rfl, rfl⟩ | ⟨rfl, rfl⟩ <;> first | cases hk | skip
      · intro o' ho'; rw [List.mem_singleton.1 ho']; rfl
      · intro o' ho'; rw [List.mem_singleton.1 ho']; trivial

end Growt.Agg
