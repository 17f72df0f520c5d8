import Verif.ConcSched
import Verif.ConcAny
import Verif.Props.Seq

/-!
# Properties of a bounded table used by any number of threads (C02 - C08, C11)
-/

set_option linter.unusedSectionVars false

namespace Growt
section
variable {T K V : Type} [DecidableEq T] [DecidableEq K] [DecidableEq V] [Inhabited V]

/-- Everything but the explicitly unsafe calls. (specification, no code) -/
def Op.isSafe : Op K V → Prop
  | .updateUnsafe _ _ | .insertOrUpdateUnsafe _ _ _ => False
  | _ => True

theorem Op.isSafe.split {ok : Op K V → Prop} (h : ∀ op, ok op → op.isSafe) (op : Op K V) (ho : ok op) :
    (∀ k f, op ≠ .updateUnsafe k f) ∧ ∀ k d f, op ≠ .insertOrUpdateUnsafe k d f :=
  ⟨fun k f e => by have := h op ho; subst e; exact this,
    fun k d f e => by have := h op ho; subst e; exact this⟩

/-- Element `(k, v)` is in the table. (specification, no code) -/
def Holds (E : Env K) (t : Tbl K V) (k : K) (v : V) : Prop :=
  ∃ p, p < E.M.total ∧ (t p).c = .live k v

/-- **C02 (partial: on tables without markable slots no key may be both erased and updated).**
For any number of threads and any interleaving of their atomic slot accesses, every history
is linearizable with respect to an ideal map (that may refuse an insertion of an absent key as
full).  Missing: keys that are concurrently erased and updated on a table without markable
slots, for which the property is false (`C05_update_erase_interfere`). -/
theorem C02_linearizable_partial {E : Env K} (hE : E.OK) {ok : Op K V → Prop} (hmix : Mix E.m ok)
    {l : List (TEv T K V)} {s : CSt T K V} (h : Exec (CStep E ok) CSt.init l s) :
    Linearizable (boundedObj E.m) (visible l) := by
  obtain ⟨hw, d, hl, -⟩ := exec_explained hE hmix h
  exact ⟨l, _, d, rfl, hw, hl⟩

theorem mix_markable : Mix (K := K) (V := V) true Op.isSafe :=
  ⟨fun op h => ⟨fun k f e => by subst e; exact h, fun k d f e => by subst e; exact h⟩, by simp⟩

/-- **C02 for markable slots**: all calls of the API may be mixed without restriction. -/
theorem C02_linearizable_markable {E : Env K} (hE : E.OK) (hm : E.m = true)
    {l : List (TEv T K V)} {s : CSt T K V} (h : Exec (CStep E Op.isSafe) CSt.init l s) :
    Linearizable (boundedObj E.m) (visible l) :=
  C02_linearizable_partial hE (by rw [hm]; exact mix_markable) h

/-! ## C03 -/

/-- Successful insertions of `k` among some effects. (specification, no code) -/
def wins (k : K) (l : List (Op K V × Ret K V)) : Nat :=
  l.countP fun x => decide (x.1.key = k) &&
    match x.1 with
    | .insert _ _ | .insertOrUpdate _ _ _ | .insertOrUpdateUnsafe _ _ _ => x.2.ok x.1
    | _ => false

/-- Successful removals of `k` among some effects. (specification, no code) -/
def losses (k : K) (l : List (Op K V × Ret K V)) : Nat :=
  l.countP fun x => decide (x.1.key = k) &&
    match x.1 with
    | .erase _ | .eraseIf _ _ => x.2.ok x.1
    | _ => false

theorem legal_balance {m : Bool} {k : K} {d d' : Dict K V} {op : Op K V} {r : Ret K V}
    (h : (boundedObj m).legal d op r d') :
    wins k [(op, r)] + (d k).isSome.toNat = losses k [(op, r)] + (d' k).isSome.toNat := by
  rcases h with ⟨rfl, hok, -⟩ | ⟨c, hc, rfl, rfl, hfull⟩
  · by_cases hk : op.key = k
    · subst hk
      cases op <;> simp only [Op.key, Op.toSpec, SOp.sem] at hok ⊢ <;>
        (try split at hok) <;>
        simp_all [wins, losses, Op.key, Dict.put, Dict.del]
    · cases op <;> simp only [Op.key, Op.toSpec, SOp.sem] at hk ⊢ <;>
        (repeat' split) <;>
        simp_all [wins, losses, Op.key, Dict.put, Dict.del, Ne.symm]
      all_goals
        first
        | (have hk' := Ne.symm hk; simp_all)
        | (have : ¬ k = _ := fun e => hk e.symm; simp_all)
  · cases op <;> simp [Op.mayRefuse] at hc <;>
      simp [wins, losses, Ret.ok, hc, ReturnCode.successful, ReturnCode.toNat]

theorem Legal.balance {m : Bool} {k : K} {d d' : Dict K V} {l : List (Op K V × Ret K V)}
    (h : Legal (boundedObj m) d l d') :
    wins k l + (d k).isSome.toNat = losses k l + (d' k).isSome.toNat := by
  induction h with
  | nil => simp [wins, losses]
  | @cons d d1 d' o r l h _ ih =>
    have := legal_balance (k := k) h
    simp only [wins, losses, List.countP_cons, List.countP_nil] at this ih ⊢
    omega

/-- A value-only update of a tombstone neither inserts nor erases. -/
theorem tomb_balance {k : K} {op : Op K V} {r : Ret K V} (h : TombOut op (.done r)) :
    wins k [(op, r)] = 0 ∧ losses k [(op, r)] = 0 := by
  cases h with
  | updated x h =>
    obtain ⟨k', ⟨f, rfl⟩ | ⟨f, b, rfl⟩ | ⟨d, f, rfl⟩⟩ := h <;> simp [wins, losses, Ret.ok]
  | gaveUp k' f b n h hb => subst h; simp [wins, losses]

/-- **C03.**  At every moment, for every key, the number of successful insertions exceeds the number
of successful erasures by one if the key is in the table and equals it otherwise.  All calls
(but the explicitly unsafe ones) may be mixed, with and without markable slots. -/
theorem C03_at_most_one_winner {E : Env K} (hE : E.OK) {ok : Op K V → Prop}
    (hok : ∀ op, ok op → op.isSafe)
    {l : List (TEv T K V)} {s : CSt T K V} (h : Exec (CStep E ok) CSt.init l s) (k : K) :
    (wins k (effects l) = losses k (effects l) + 1 ∧ ∃ v, Holds E s.tbl k v) ∨
    (wins k (effects l) = losses k (effects l) ∧ ∀ v, ¬ Holds E s.tbl k v) := by
  have hok' := Op.isSafe.split hok
  have key : ∃ d, Stores E s.tbl d ∧
      wins k (effects l) = losses k (effects l) + (d k).isSome.toNat := by
    induction h with
    | init => exact ⟨_, Stores.emptyTbl E, rfl⟩
    | silent h hs ih =>
      obtain ⟨d, hd, hb⟩ := ih
      exact ⟨d, (AInv.reach hE hok' h).other hE hok' hs (by simp) hd, hb⟩
    | @vis l s s' e h hs ih =>
      obtain ⟨d, hd, hb⟩ := ih
      have hI := AInv.reach hE hok' h
      rw [effects_append]
      have happ : ∀ x : List (Op K V × Ret K V), wins k (effects l ++ x) = wins k (effects l) + wins k x ∧
          losses k (effects l ++ x) = losses k (effects l) + losses k x := by
        intro x; simp [wins, losses]
      cases e with
      | lin i op r =>
        rw [(happ _).1, (happ _).2]
        rcases hI.lin hE hok' hs hd with ⟨d', h1, h2⟩ | ⟨h1, h2, -⟩
        · refine ⟨d', h1, ?_⟩
          have := legal_balance (k := k) h2
          simp only [effects]
          omega
        · refine ⟨d, h1, ?_⟩
          have := tomb_balance (k := k) h2
          simp only [effects]
          omega
      | call i op => exact ⟨d, hI.other hE hok' hs (by simp) hd, by simpa [effects] using hb⟩
      | ret i op r => exact ⟨d, hI.other hE hok' hs (by simp) hd, by simpa [effects] using hb⟩
  obtain ⟨d, hd, hb⟩ := key
  cases hdk : d k with
  | some v => left; simp [hdk] at hb; exact ⟨hb, v, (hd k v).1 hdk⟩
  | none =>
    right; simp [hdk] at hb
    refine ⟨hb, fun v hv => ?_⟩
    rw [(hd k v).2 hv] at hdk; cases hdk

/-! ## C04 -/

/-- What one reported result says about the value of key `k`: a successful insertion sets it, a
successful update applies the functor, a successful erasure removes it. (specification, no code) -/
def replay1 (m : Bool) (k : K) (cur : Option V) (x : Op K V × Ret K V) : Option V :=
  if x.1.key = k then
    match x.1 with
    | .insert _ d => if x.2.ok x.1 then some d else cur
    | .update _ f | .updateBackoff _ f _ =>
      if x.2.ok x.1 then cur.map fun w => (f.eff m w).1 else cur
    | .updateUnsafe _ f => if x.2.ok x.1 then cur.map f.upd else cur
    | .insertOrUpdate _ d f =>
      if x.2.ok x.1 then some d
      else if x.2.it.isSome then cur.map fun w => (f.eff m w).1 else cur
    | .insertOrUpdateUnsafe _ d f =>
      if x.2.ok x.1 then some d else if x.2.it.isSome then cur.map f.upd else cur
    | .erase _ | .eraseIf _ _ => if x.2.ok x.1 then none else cur
    | .find _ | .locate _ => cur
  else cur

theorem legal_replay {m : Bool} {k : K} {d d' : Dict K V} {op : Op K V} {r : Ret K V}
    (h : (boundedObj m).legal d op r d') : d' k = replay1 m k (d k) (op, r) := by
  rcases h with ⟨rfl, hok, hsh⟩ | ⟨c, hc, rfl, rfl, hfull⟩
  · by_cases hk : op.key = k
    · subst hk
      cases op <;> simp only [Op.key, Op.toSpec, SOp.sem, replay1, if_true] at hok hsh ⊢ <;>
        (try split at hok) <;>
        simp_all [Dict.put, Dict.del, UpdFn.effUnsafe]
      all_goals
        (intro hn
         simp [Ret.shown, hn] at hsh)
    · have hk' : k ≠ op.key := fun e => hk e.symm
      cases op <;> simp only [Op.key, Op.toSpec, SOp.sem, replay1] at hk hk' ⊢ <;>
        (repeat' split) <;> simp_all [Dict.put, Dict.del]
  · by_cases hk : op.key = k
    · cases op <;> simp [Op.mayRefuse] at hc <;>
        simp [replay1, Ret.ok, hc, ReturnCode.successful, ReturnCode.toNat]
    · simp [replay1, hk]

theorem Legal.replay {m : Bool} {k : K} {d d' : Dict K V} {l : List (Op K V × Ret K V)}
    (h : Legal (boundedObj m) d l d') : d' k = l.foldl (replay1 m k) (d k) := by
  induction h with
  | nil => rfl
  | cons h _ ih => rw [ih, legal_replay (k := k) h]; rfl

/-- **C04.**  At every moment of every execution the value of every key is obtained by replaying the
reported results in the order in which they took effect: every successful update has been applied
exactly once to the value left by the effect before it.  Missing (`Mix`): keys that are both erased
and updated on a table without markable slots, where the property is false
(`C04_acknowledged_increment_lost`). -/
theorem C04_no_lost_update_partial {E : Env K} (hE : E.OK) {ok : Op K V → Prop} (hmix : Mix E.m ok)
    {l : List (TEv T K V)} {s : CSt T K V} (h : Exec (CStep E ok) CSt.init l s) (k : K) (v : V) :
    Holds E s.tbl k v ↔ (effects l).foldl (replay1 E.m k) none = some v := by
  obtain ⟨-, d, hl, hd⟩ := exec_explained hE hmix h
  have := hl.replay (k := k)
  rw [← this]
  exact (hd k v).symm

end

section increments
variable {T K : Type} [DecidableEq T] [DecidableEq K]

/-- An effect on `k` is a find, a failed insertion, or an update by `incFn n` (which succeeded or
not). (specification, no code) -/
def Counts (k : K) (x : Op K Nat × Ret K Nat) : Prop :=
  x.1.key = k → x.1 = .find k ∨ (∃ d, x.1 = .insert k d ∧ x.2.ok x.1 = false) ∨
    ∃ n, x.1 = .update k (incFn n)

/-- Sum of the amounts of the successful increments of `k`. (specification, no code) -/
def incSum (k : K) (l : List (Op K Nat × Ret K Nat)) : Nat :=
  (l.map fun x => if x.1.key = k ∧ x.2.ok x.1 = true then
    (match x.1 with | .update _ f => f.upd 0 | _ => 0) else 0).sum

theorem replay_incs {m : Bool} {k : K} (l : List (Op K Nat × Ret K Nat)) (hc : ∀ x ∈ l, Counts k x)
    (v : Nat) : l.foldl (replay1 m k) (some v) = some (v + incSum k l) := by
  induction l generalizing v with
  | nil => simp [incSum]
  | cons x l ih =>
    obtain ⟨op, r⟩ := x
    have hx := hc (op, r) (by simp)
    have ih' := fun v => ih (fun x h => hc x (by simp [h])) v
    simp only [List.foldl_cons]
    by_cases hk : op.key = k
    · rcases hx hk with h | ⟨d, h, hf⟩ | ⟨n, h⟩
      · simp only at h; subst h
        simp [replay1, ih', incSum]
      · simp only at h hf; subst h
        simp [replay1, hf, ih', incSum]
      · simp only at h; subst h
        have hinc : ((incFn n).eff m v).1 = v + n := by cases m <;> rfl
        cases hok : r.ok (.update k (incFn n) : Op K Nat)
        · simp [replay1, Op.key, hok, ih', incSum]
        · have h0 : (incFn n).upd 0 = n := by simp [incFn]
          simp only [replay1, Op.key, if_true, hok, Option.map_some, hinc, ih', incSum, List.map_cons,
            List.sum_cons, and_self, h0]
          congr 1; omega
    · have : replay1 m k (some v) (op, r) = some v := by simp [replay1, hk]
      rw [this, ih']
      simp [incSum, hk]

/-- **C04**, counters: if key `k` has value `v0` at some moment and from then on all effects on `k`
are finds, failed insertions and increments, then its value is `v0` plus the sum of the
successful increments, by whichever threads and in whichever interleaving. -/
theorem C04_increments_add_up_partial {E : Env K} (hE : E.OK) {ok : Op K Nat → Prop} (hmix : Mix E.m ok)
    {l1 l2 : List (TEv T K Nat)} {s1 s : CSt T K Nat}
    (h1 : Exec (CStep E ok) CSt.init l1 s1) (h : Exec (CStep E ok) CSt.init (l1 ++ l2) s)
    {k : K} {v0 : Nat} (hv : Holds E s1.tbl k v0) (hc : ∀ x ∈ effects l2, Counts k x) :
    Holds E s.tbl k (v0 + incSum k (effects l2)) := by
  rw [C04_no_lost_update_partial hE hmix h, effects_append, List.foldl_append,
    (C04_no_lost_update_partial hE hmix h1 k v0).1 hv]
  exact replay_incs _ hc v0

/-- **C04 for markable slots**: both statements with all calls of the API mixed without
restriction. -/
theorem C04_markable {E : Env K} (hE : E.OK) (hm : E.m = true)
    {l1 l2 : List (TEv T K Nat)} {s1 s : CSt T K Nat}
    (h1 : Exec (CStep E Op.isSafe) CSt.init l1 s1) (h : Exec (CStep E Op.isSafe) CSt.init (l1 ++ l2) s)
    (k : K) :
    (∀ v, Holds E s.tbl k v ↔ (effects (l1 ++ l2)).foldl (replay1 true k) none = some v) ∧
    ∀ v0, Holds E s1.tbl k v0 → (∀ x ∈ effects l2, Counts k x) →
      Holds E s.tbl k (v0 + incSum k (effects l2)) := by
  have hmix : Mix (K := K) (V := Nat) E.m Op.isSafe := by rw [hm]; exact mix_markable
  refine ⟨fun v => ?_, fun v0 hv hc => C04_increments_add_up_partial hE hmix h1 h hv hc⟩
  have := C04_no_lost_update_partial hE hmix h k v
  rwa [hm] at this

end increments

section
variable {T K V : Type} [DecidableEq T] [DecidableEq K] [DecidableEq V] [Inhabited V]

/-! ## C06, C07, C08: single calls at the instant they take effect -/

theorem unchanged_other {E : Env K} {t t' : Tbl K V} {d d' : Dict K V} (h : Stores E t d)
    (h' : Stores E t' d') {k' : K} (he : d' k' = d k') (v : V) :
    Holds E t' k' v ↔ Holds E t k' v := by
  have h1 := h k' v
  have h2 := h' k' v
  rw [he] at h2
  exact h2.symm.trans h1

/-- **C06.**  `erase_if(k,d)` reports 1 only if `k ↦ d` at that instant, and then exactly this
element is removed; if it reports 0 it changed nothing and `k ↦ d` did not hold.  All calls (but
the explicitly unsafe ones) may be mixed, with and without markable slots. -/
theorem C06_erase_if {E : Env K} (hE : E.OK) {ok : Op K V → Prop} (hok : ∀ op, ok op → op.isSafe)
    {l : List (TEv T K V)} {s s' : CSt T K V} (h : Exec (CStep E ok) CSt.init l s)
    {i : T} {k : K} {d : V} {r : Ret K V}
    (hs : CStep E ok s (some (.lin i (.eraseIf k d) r)) s') :
    if r.ok (.eraseIf k d) then
      Holds E s.tbl k d ∧ (∀ v, ¬ Holds E s'.tbl k v) ∧
        ∀ k', k' ≠ k → ∀ v, (Holds E s'.tbl k' v ↔ Holds E s.tbl k' v)
    else ¬ Holds E s.tbl k d ∧ ∀ k' v, (Holds E s'.tbl k' v ↔ Holds E s.tbl k' v) := by
  have hok' := Op.isSafe.split hok
  have hI := AInv.reach hE hok' h
  obtain ⟨D, hd⟩ := AInv.stores hE hok' h
  rcases hI.lin hE hok' hs hd with ⟨D', hd', hleg⟩ | ⟨-, ht, -⟩
  rotate_left
  · cases ht with
    | updated x h => obtain ⟨k', ⟨f, h⟩ | ⟨f, b, h⟩ | ⟨d, f, h⟩⟩ := h <;> cases h
    | gaveUp k' f b n h hb => cases h
  rcases hleg with ⟨rfl, hok, -⟩ | ⟨c, hc, -⟩
  · simp only [Op.toSpec, SOp.sem] at hok hd'
    by_cases hD : D k = some d
    · simp only [hD, if_true] at hok hd'
      simp only [hok, if_true]
      refine ⟨(hd k d).1 hD, fun v hv => ?_, fun k' hk v => unchanged_other hd hd' ?_ v⟩
      · have := (hd' k v).2 hv
        simp [Dict.del] at this
      · simp [Dict.del, hk]
    · simp only [hD, if_false] at hok hd'
      simp only [hok, Bool.false_eq_true, if_false]
      exact ⟨fun hv => hD ((hd k d).2 hv), fun k' v => unchanged_other hd hd' rfl v⟩
  · exact hc.elim

/-- **C07.**  `insert_or_update(k,d,f)` reports `true` exactly if `k` was absent and is now mapped to
`d`; if it reports `false` with an element, `k` was mapped to some `w` and is now mapped to `f(w)`;
in both cases the iterator shows what was stored (for functors with an `atomic` member on
tables without markable slots: what that member returned).  Otherwise (full) nothing
changed and `k` is absent.  Other keys never change.  Missing (`Mix`): keys that are both erased and
updated on a table without markable slots, where the property is false
(`C07_absent_key_reported_updated`). -/
theorem C07_insert_or_update_partial {E : Env K} (hE : E.OK) {ok : Op K V → Prop} (hmix : Mix E.m ok)
    {l : List (TEv T K V)} {s s' : CSt T K V} (h : Exec (CStep E ok) CSt.init l s)
    {i : T} {k : K} {d : V} {f : UpdFn V} {r : Ret K V}
    (hs : CStep E ok s (some (.lin i (.insertOrUpdate k d f) r)) s') :
    (∀ k', k' ≠ k → ∀ v, (Holds E s'.tbl k' v ↔ Holds E s.tbl k' v)) ∧
    ((r.ok (.insertOrUpdate k d f) = true ∧ (∀ v, ¬ Holds E s.tbl k v) ∧ Holds E s'.tbl k d ∧
        r.shown = some d) ∨
      (r.ok (.insertOrUpdate k d f) = false ∧ ∃ w, Holds E s.tbl k w ∧
        Holds E s'.tbl k (f.eff E.m w).1 ∧ r.shown = some (f.eff E.m w).2) ∨
      (r = ⟨some .UNSUCCESS_FULL, none⟩ ∧ (∀ v, ¬ Holds E s.tbl k v) ∧
        ∀ v, ¬ Holds E s'.tbl k v)) := by
  have hI := CInv.reach hE hmix h
  obtain ⟨-, D, -, hd⟩ := exec_explained hE hmix h
  obtain ⟨D', hd', hleg⟩ := lin_legal hE hI hs hd
  have habs : ∀ {t : Tbl K V} {d : Dict K V}, Stores E t d → d k = none → ∀ v, ¬ Holds E t k v := by
    intro t d h hn v hv
    rw [(h k v).2 hv] at hn; cases hn
  rcases hleg with ⟨rfl, hok, hsh⟩ | ⟨c, hc, hr, rfl, hfull⟩
  · simp only [reduceCtorEq, exists_false, false_and, false_or] at hsh
    cases hD : D k with
    | none =>
      simp only [Op.toSpec, SOp.sem, hD] at hok hsh hd'
      refine ⟨fun k' hk v => unchanged_other hd hd' (by simp [Dict.put, hk]) v, .inl
        ⟨hok, habs hd hD, (hd' k d).1 (by simp [Dict.put]), hsh⟩⟩
    | some w =>
      simp only [Op.toSpec, SOp.sem, hD] at hok hsh hd'
      refine ⟨fun k' hk v => unchanged_other hd hd' (by simp [Dict.put, hk]) v, .inr (.inl
        ⟨hok, w, (hd k w).1 hD, (hd' k _).1 (by simp [Dict.put]), hsh⟩)⟩
  · simp only [Op.mayRefuse] at hc
    subst hc
    have hn := hfull rfl
    exact ⟨fun k' hk v => unchanged_other hd hd' rfl v, .inr (.inr ⟨hr, habs hd hn, habs hd' hn⟩)⟩

/-- `insert_or_assign` / the overwrite functor: after an `insert_or_update(k, d, overwrite d)` that
was not refused, `k` is mapped to `d`. -/
theorem C07_insert_or_assign_partial {E : Env K} (hE : E.OK) {ok : Op K V → Prop} (hmix : Mix E.m ok)
    {l : List (TEv T K V)} {s s' : CSt T K V} (h : Exec (CStep E ok) CSt.init l s)
    {i : T} {k : K} {d : V} {f : UpdFn V} (hf : ∀ w, (f.eff E.m w).1 = d) {r : Ret K V}
    (hs : CStep E ok s (some (.lin i (.insertOrUpdate k d f) r)) s')
    (hr : r.code ≠ some .UNSUCCESS_FULL) : Holds E s'.tbl k d := by
  rcases (C07_insert_or_update_partial hE hmix h hs).2 with ⟨-, -, h, -⟩ | ⟨-, w, -, h, -⟩ | ⟨h, -⟩
  · exact h
  · rw [hf] at h; exact h
  · rw [h] at hr; exact absurd rfl hr

/-- **C07 for markable slots**: all calls of the API may be mixed without restriction. -/
theorem C07_markable {E : Env K} (hE : E.OK) (hm : E.m = true)
    {l : List (TEv T K V)} {s s' : CSt T K V} (h : Exec (CStep E Op.isSafe) CSt.init l s)
    {i : T} {k : K} {d : V} {f : UpdFn V} {r : Ret K V}
    (hs : CStep E Op.isSafe s (some (.lin i (.insertOrUpdate k d f) r)) s') :
    (∀ k', k' ≠ k → ∀ v, (Holds E s'.tbl k' v ↔ Holds E s.tbl k' v)) ∧
    ((r.ok (.insertOrUpdate k d f) = true ∧ (∀ v, ¬ Holds E s.tbl k v) ∧ Holds E s'.tbl k d ∧
        r.shown = some d) ∨
      (r.ok (.insertOrUpdate k d f) = false ∧ ∃ w, Holds E s.tbl k w ∧
        Holds E s'.tbl k (f.upd w) ∧ r.shown = some (f.upd w)) ∨
      (r = ⟨some .UNSUCCESS_FULL, none⟩ ∧ (∀ v, ¬ Holds E s.tbl k v) ∧
        ∀ v, ¬ Holds E s'.tbl k v)) := by
  have hmix : Mix (K := K) (V := V) E.m Op.isSafe := by rw [hm]; exact mix_markable
  have := C07_insert_or_update_partial hE hmix h hs
  rw [hm] at this
  exact this

/-- **C08.**  An `update_with_backoff` that reports failure changed nothing, and either the key was
absent or the callback has answered `false`.  One that reports success applied the functor to the
value at that instant, or (only without markable slots) changed a tombstone, see C05. -/
theorem C08_update_with_backoff {E : Env K} (hE : E.OK) {ok : Op K V → Prop}
    (hok : ∀ op, ok op → op.isSafe)
    {l : List (TEv T K V)} {s s' : CSt T K V} (h : Exec (CStep E ok) CSt.init l s)
    {i : T} {k : K} {f : UpdFn V} {b : Nat → Bool} {r : Ret K V}
    (hs : CStep E ok s (some (.lin i (.updateBackoff k f b) r)) s') :
    if r.ok (.updateBackoff k f b) then
      (∃ w, Holds E s.tbl k w ∧ Holds E s'.tbl k (f.eff E.m w).1 ∧ r.shown = some (f.eff E.m w).2 ∧
        ∀ k', k' ≠ k → ∀ v, (Holds E s'.tbl k' v ↔ Holds E s.tbl k' v)) ∨
      (E.m = false ∧ ∀ k' v, (Holds E s'.tbl k' v ↔ Holds E s.tbl k' v))
    else (∀ k' v, (Holds E s'.tbl k' v ↔ Holds E s.tbl k' v)) ∧
      ((∀ v, ¬ Holds E s.tbl k v) ∨
        r.code = some .UNSUCCESS_BACKOFF ∧ ∃ n, b n = false) := by
  have hok' := Op.isSafe.split hok
  have hI := AInv.reach hE hok' h
  obtain ⟨D, hd⟩ := AInv.stores hE hok' h
  rcases hI.lin hE hok' hs hd with ⟨D', hd', hleg⟩ | ⟨hd', ht, hm⟩
  rotate_left
  · cases ht with
    | updated x h =>
      simp only [Ret.ok, ReturnCode.successful, ReturnCode.toNat]
      exact .inr ⟨hm, fun k' v => unchanged_other hd hd' rfl v⟩
    | gaveUp k' f' b' n h hb =>
      cases h
      exact ⟨fun k' v => unchanged_other hd hd' rfl v, .inr ⟨rfl, n, hb⟩⟩
  rcases hleg with ⟨rfl, hok, hsh⟩ | ⟨c, hc, hr, rfl, hfull⟩
  · simp only [reduceCtorEq, exists_false, false_and, false_or] at hsh
    cases hD : D k with
    | none =>
      simp only [Op.toSpec, SOp.sem, hD] at hok hsh hd'
      simp only [hok, Bool.false_eq_true, if_false]
      refine ⟨fun k' v => unchanged_other hd hd' rfl v, .inl fun v hv => ?_⟩
      rw [(hd k v).2 hv] at hD; cases hD
    | some w =>
      simp only [Op.toSpec, SOp.sem, hD] at hok hsh hd'
      simp only [hok, if_true]
      exact .inl ⟨w, (hd k w).1 hD, (hd' k _).1 (by simp [Dict.put]), hsh,
        fun k' hk v => unchanged_other hd hd' (by simp [Dict.put, hk]) v⟩
  · simp only [Op.mayRefuse] at hc
    obtain ⟨rfl, hb⟩ := hc
    have hno : r.ok (.updateBackoff k f b) = false := by
      rw [hr]; simp [Ret.ok, ReturnCode.successful, ReturnCode.toNat]
    simp only [hno, Bool.false_eq_true, if_false]
    exact ⟨fun k' v => unchanged_other hd hd' rfl v, .inr ⟨by rw [hr], hb⟩⟩

/-- **C08**: with a callback that always answers `true`, `update_with_backoff` takes the same steps
as `update`. -/
theorem C08_backoff_true_is_update (E : Env K) (t : Tbl K V) (k : K) (f : UpdFn V) (pc : PC K V) :
    let dropAtt : Out K V → Out K V := fun o => match o with
      | .cont (.load i _) => .cont (.load i 0)
      | .cont (.act i _ c) => .cont (.act i 0 c)
      | o => o
    (step E (.updateBackoff k f (fun _ => true)) pc t).1 = (step E (.update k f) pc t).1 ∧
    dropAtt (step E (.updateBackoff k f (fun _ => true)) pc t).2 =
      dropAtt (step E (.update k f) pc t).2 := by
  cases pc with
  | load i att =>
    simp only [step]
    split
    · exact ⟨rfl, rfl⟩
    · exact ⟨rfl, rfl⟩
  | act i att curr =>
    simp only [step]
    split
    · refine ⟨rfl, ?_⟩
      simp only [actStep, if_true]
      cases (atomicUpdate E.m k (t (E.M.remap i)) curr f).2.2 <;> rfl
    · exact ⟨rfl, rfl⟩

/-! ## C11 -/

/-- **C11 (partial: operations; migration is treated separately).**  In no reachable state of any
execution does the next step of any thread access a slot outside the allocation, for linear and
circular probing. -/
theorem C11_no_out_of_bounds_partial {E : Env K} (hE : E.OK) {ok : Op K V → Prop}
    (hok : ∀ op, ok op → op.isSafe)
    {l : List (TEv T K V)} {s : CSt T K V} (h : Exec (CStep E ok) CSt.init l s) {i : T}
    {op : Op K V} {pc : PC K V} (hi : s.thr i = .busy op pc) :
    (step E op pc s.tbl).2 ≠ .oob := by
  have hok' := Op.isSafe.split hok
  obtain ⟨-, -, -, hg⟩ := (AInv.reach hE hok' h).step hE hok' hi
  intro ho
  rw [ho] at hg
  exact hg

end

/-! ## C05: interference of erase and update on tables without markable slots -/

/-- A default table with 512 addressable slots, without markable slots (literal form of
`exEnv false false false`). (example, no code) -/
def exE : Env Nat := ⟨⟨false, false, 1536, 55, 0⟩, fun k => k * 36028797018963968 % 2 ^ 64, false⟩

theorem exE_ok : exE.OK := by
  have := exEnv_ok false false false
  rw [exEnv_lin_eq] at this
  exact this

/-- An update functor without `atomic` member that stores `n`. (example, no code) -/
def setFn (n : Nat) : UpdFn Nat := ⟨fun _ => n, fun _ => n, none⟩

/-- Thread `false` inserts `1 ↦ 0` and starts to update it to 5; thread `true` erases `1` if its
value is `0` while the update is between its load and its compare-and-swap. (example, no code) -/
def badSched : List (Sched Bool Nat Nat) :=
  [.call false (.insert 1 0), .step false, .step false, .ret false,
   .call false (.update 1 (setFn 5)), .step false,
   .call true (.eraseIf 1 0), .step true, .step true, .ret true,
   .step false, .ret false]

/-- The visible history of `badSched`. (example, no code) -/
def badHist : List (TEv Bool Nat Nat) :=
  [.call false (.insert 1 0),
   .ret false (.insert 1 0) ⟨some .SUCCESS_IN, some (1, ⟨false, .empty⟩)⟩,
   .call false (.update 1 (setFn 5)), .call true (.eraseIf 1 0),
   .ret true (.eraseIf 1 0) ⟨some .SUCCESS_DEL, none⟩,
   .ret false (.update 1 (setFn 5)) ⟨some .SUCCESS_UP, some (1, ⟨false, .live 1 5⟩)⟩]

theorem badHist_happens : ∃ l s, Exec (CStep exE Op.isSafe) CSt.init l s ∧ visible l = badHist := by
  have hrun : (runSched exE badSched CSt.init).map (fun x => visible x.1) = some badHist := by
    rfl
  cases h : runSched exE badSched CSt.init with
  | none => rw [h] at hrun; cases hrun
  | some x =>
    obtain ⟨l, s⟩ := x
    rw [h] at hrun
    refine ⟨l, s, ?_, by simpa using hrun⟩
    have := runSched_sound (ok := Op.isSafe) badSched [] CSt.init s l (by
      simp [badSched, Sched.allowed, Op.isSafe]) .init h
    simpa using this

theorem bad_update {d d1 : Dict Nat Nat}
    (h : (boundedObj false).legal d (.update 1 (setFn 5))
      ⟨some .SUCCESS_UP, some (1, ⟨false, .live 1 5⟩)⟩ d1) : d 1 ≠ none ∧ d1 1 = some 5 := by
  rcases h with ⟨rfl, h1, h2⟩ | ⟨c, hc, -⟩
  · cases hd : d 1 with
    | none => simp [Op.toSpec, SOp.sem, hd, Ret.ok, ReturnCode.successful, ReturnCode.toNat] at h1
    | some w => simp [Op.toSpec, SOp.sem, hd, setFn, UpdFn.eff, Dict.put]
  · exact hc.elim

theorem bad_erase {d d1 : Dict Nat Nat}
    (h : (boundedObj false).legal d (.eraseIf 1 0) ⟨some .SUCCESS_DEL, none⟩ d1) :
    d 1 = some 0 ∧ d1 1 = none := by
  rcases h with ⟨rfl, h1, h2⟩ | ⟨c, hc, -⟩
  · by_cases hd : d 1 = some 0
    · simp [Op.toSpec, SOp.sem, hd, Dict.del]
    · simp [Op.toSpec, SOp.sem, hd, Ret.ok, ReturnCode.successful, ReturnCode.toNat] at h1
  · exact hc.elim

/-- The history of `badSched` has no linearization. -/
theorem badHist_not_linearizable : ¬ Linearizable (boundedObj false) badHist := by
  apply not_linearizable
  unfold badHist
  refine NoLin.call (fun _ => ?_) (fun j o r d1 hj _ => by cases hj)
  refine NoLin.ret (fun hp => by simp at hp) (fun j o r d1 hj hl => ?_)
  obtain rfl | rfl : j = false ∨ j = true := by cases j <;> simp
  rotate_left
  · simp [setAt] at hj
  simp only [setAt_same, Phase.called.injEq] at hj
  subst hj
  refine NoLin.ret (fun hp => ?_) (fun j o r d1 hj hl => by cases j <;> simp [setAt] at hj)
  refine NoLin.call (fun _ => ?_) (fun j o r d1 hj hl => by cases j <;> simp [setAt] at hj)
  -- the update is pending
  refine NoLin.call (fun _ => ?_) (fun j o r d2 hj hl2 => ?_)
  · -- both pending
    refine NoLin.ret (fun hp => by simp at hp) (fun j o r d2 hj hl2 => ?_)
    cases j with
    | false =>
      simp [setAt] at hj; subst hj
      refine NoLin.ret (fun hp => by simp [setAt] at hp) (fun j o r' d3 hj hl3 => ?_)
      cases j with
      | false => simp [setAt] at hj
      | true =>
        simp [setAt] at hj; subst hj
        refine NoLin.ret (fun hp => ?_) (fun j o r' d3 hj _ => by cases j <;> simp [setAt] at hj)
        simp [setAt] at hp; subst hp
        refine NoLin.ret (fun hp => ?_) (fun j o r' d3 hj _ => by cases j <;> simp [setAt] at hj)
        simp [setAt] at hp; subst hp
        have h1 := bad_update hl2
        have h2 := bad_erase hl3
        rw [h1.2] at h2; simp at h2
    | true =>
      simp [setAt] at hj; subst hj
      refine NoLin.ret (fun hp => ?_) (fun j o r' d3 hj hl3 => ?_)
      · simp [setAt] at hp; subst hp
        refine NoLin.ret (fun hp => by simp [setAt] at hp) (fun j o r' d3 hj hl3 => ?_)
        cases j with
        | true => simp [setAt] at hj
        | false =>
          simp [setAt] at hj; subst hj
          refine NoLin.ret (fun hp => ?_) (fun j o r' d3 hj _ => by cases j <;> simp [setAt] at hj)
          simp [setAt] at hp; subst hp
          exact absurd (bad_erase hl2).2 (bad_update hl3).1
      · cases j with
        | true => simp [setAt] at hj
        | false =>
          simp [setAt] at hj; subst hj
          refine NoLin.ret (fun hp => ?_) (fun j o r' d3 hj _ => by cases j <;> simp [setAt] at hj)
          simp [setAt] at hp; subst hp
          refine NoLin.ret (fun hp => ?_) (fun j o r' d3 hj _ => by cases j <;> simp [setAt] at hj)
          simp [setAt] at hp; subst hp
          exact absurd (bad_erase hl2).2 (bad_update hl3).1
  · cases j with
    | true => simp [setAt] at hj
    | false =>
      simp [setAt] at hj; subst hj
      refine NoLin.call (fun _ => ?_) (fun j o r d1 hj hl => by cases j <;> simp [setAt] at hj)
      refine NoLin.ret (fun hp => by simp [setAt] at hp) (fun j o r' d3 hj hl3 => ?_)
      cases j with
      | false => simp [setAt] at hj
      | true =>
        simp [setAt] at hj; subst hj
        refine NoLin.ret (fun hp => ?_) (fun j o r' d3 hj _ => by cases j <;> simp [setAt] at hj)
        simp [setAt] at hp; subst hp
        refine NoLin.ret (fun hp => ?_) (fun j o r' d3 hj _ => by cases j <;> simp [setAt] at hj)
        simp [setAt] at hp; subst hp
        have h1 := bad_update hl2
        have h2 := bad_erase hl3
        rw [h1.2] at h2; simp at h2

/-- **C05 (violated by the code).**  On a table without markable slots there is an execution of one
`insert`, one `update` and one `erase_if` of the same key, all reporting success, that is not
linearizable: the update changes the mapped half of the tombstone. -/
theorem C05_update_erase_interfere :
    ∃ (l : List (TEv Bool Nat Nat)) (s : CSt Bool Nat Nat),
      Exec (CStep exE Op.isSafe) CSt.init l s ∧ ¬ Linearizable (boundedObj false) (visible l) := by
  obtain ⟨l, s, h, hv⟩ := badHist_happens
  exact ⟨l, s, h, by rw [hv]; exact badHist_not_linearizable⟩

section
variable {T K V : Type} [DecidableEq T] [DecidableEq K] [DecidableEq V] [Inhabited V]

/-- **C05 (partial).**  On a table without markable slots, executions in which no key is both erased
and updated are linearizable - erasures and updates of *different* keys never interfere.  Missing:
the same key both erased and updated (false, see `C05_update_erase_interfere`). -/
theorem C05_split_keys_partial {E : Env K} (hE : E.OK) (hm : E.m = false) {ok : Op K V → Prop}
    (hsafe : ∀ op, ok op → op.isSafe)
    (hsplit : ∀ k, (∀ op, ok op → ¬ op.removes k) ∨ ∀ op, ok op → ¬ op.modifies k)
    {l : List (TEv T K V)} {s : CSt T K V} (h : Exec (CStep E ok) CSt.init l s) :
    Linearizable (boundedObj false) (visible l) := by
  have := C02_linearizable_partial hE (ok := ok) ⟨fun op ho =>
    ⟨fun k f e => by subst e; exact hsafe _ ho, fun k d f e => by subst e; exact hsafe _ ho⟩,
    fun _ => hsplit⟩ h
  rwa [hm] at this

end

/-! ## The hypotheses are satisfiable -/

/-- Even keys are erased, odd keys are updated: a mix allowed on tables without markable slots. -/
example : Mix (K := Nat) (V := Nat) false
    (fun op => op.isSafe ∧ (∀ k, op.removes k → k % 2 = 0) ∧ ∀ k, op.modifies k → k % 2 = 1) := by
  refine ⟨fun op h => ⟨fun k f e => by subst e; exact h.1, fun k d f e => by subst e; exact h.1⟩,
    fun _ k => ?_⟩
  by_cases hk : k % 2 = 0
  · right; intro op ho hm; have := ho.2.2 k hm; omega
  · left; intro op ho hm; exact hk (ho.2.1 k hm)

/-- A markable default table and a mixed execution of it in which two threads race for one key. (example, no code) -/
def exM : Env Nat := { exE with m := true }

theorem exM_ok : exM.OK := ⟨exE_ok.1, exE_ok.2⟩

/-- As above. (example, no code) -/
def raceSched : List (Sched Bool Nat Nat) :=
  [.call false (.insert 1 10), .call true (.insert 1 20), .step false, .step true, .step true,
   .step false, .step false, .ret true, .ret false,
   .call false (.update 1 (incFn 3)), .call true (.update 1 (incFn 4)), .step false, .step true,
   .step false, .step true, .step true, .step true, .ret false, .ret true,
   .call true (.eraseIf 1 27), .step true, .step true, .ret true]

/-- One of the racing insertions fails and reports the winner's element; both increments are
applied; the conditional erase sees their sum. -/
example : ∃ (l : List (TEv Bool Nat Nat)) (s : CSt Bool Nat Nat),
    Exec (CStep exM Op.isSafe) CSt.init l s ∧
    (effects l).map (fun x => (x.2.ok x.1, x.2.shown)) =
      [(true, none), (false, some 20), (true, some 23), (true, some 27), (true, none)] := by
  have hrun : (runSched exM raceSched CSt.init).map
      (fun x => (effects x.1).map (fun x => (x.2.ok x.1, x.2.shown))) =
      some [(true, none), (false, some 20), (true, some 23), (true, some 27), (true, none)] := by
    decide +kernel
  cases h : runSched exM raceSched CSt.init with
  | none => rw [h] at hrun; cases hrun
  | some x =>
    obtain ⟨l, s⟩ := x
    rw [h] at hrun
    refine ⟨l, s, ?_, by simpa using hrun⟩
    have := runSched_sound (ok := Op.isSafe) raceSched [] CSt.init s l (by
      simp [raceSched, Sched.allowed, Op.isSafe]) .init h
    simpa using this

/-- A schedule that leads to a call's effect. -/
theorem sched_lin {T K V : Type} [DecidableEq T] [DecidableEq K] [DecidableEq V] [Inhabited V]
    {E : Env K} {ok : Op K V → Prop} {as : List (Sched T K V)} {i : T} {op : Op K V} {pc : PC K V}
    {r : Ret K V} (ha : ∀ a ∈ as, a.allowed ok)
    (h : (runSched E as CSt.init).map (fun x => (x.2.thr i, (step E op pc x.2.tbl).2)) =
      some (.busy op pc, .done r)) :
    ∃ (l : List (TEv T K V)) (s s' : CSt T K V), Exec (CStep E ok) CSt.init l s ∧
      CStep E ok s (some (.lin i op r)) s' := by
  cases hr : runSched E as (CSt.init : CSt T K V) with
  | none => rw [hr] at h; cases h
  | some x =>
    obtain ⟨l, s⟩ := x
    rw [hr] at h
    simp only [Option.map_some, Option.some.injEq, Prod.mk.injEq] at h
    have hex := runSched_sound (ok := ok) as [] CSt.init s l ha .init hr
    rw [List.nil_append] at hex
    exact ⟨l, s, _, hex, CStep.done h.1 (t' := (step E op pc s.tbl).1) (Prod.ext rfl h.2)⟩

/-- Two racing increments of key 1; the second one has to repeat its compare-and-swap. (example, no code) -/
def incSched : List (Sched Bool Nat Nat) :=
  [.call false (.update 1 (incFn 3)), .call true (.update 1 (incFn 4)), .step false, .step true,
   .step false, .step true, .step true, .step true, .ret false, .ret true]

/-- C04: two racing increments of an element that an earlier part of the execution inserted. -/
example : ∃ (l1 l2 : List (TEv Bool Nat Nat)) (s1 s : CSt Bool Nat Nat),
    Exec (CStep exM Op.isSafe) CSt.init l1 s1 ∧ Exec (CStep exM Op.isSafe) CSt.init (l1 ++ l2) s ∧
    Holds exM s1.tbl 1 10 ∧ (∀ x ∈ effects l2, Counts 1 x) ∧ incSum 1 (effects l2) = 7 := by
  have h1 : (runSched exM [.call false (.insert 1 10), .step false, .step false, .ret false]
      (CSt.init : CSt Bool Nat Nat)).map (fun x => (x.2.tbl 1).c) = some (.live 1 10) := rfl
  cases hr : runSched exM [.call false (.insert 1 10), .step false, .step false, .ret false]
      (CSt.init : CSt Bool Nat Nat) with
  | none => rw [hr] at h1; cases h1
  | some x =>
    obtain ⟨l1, s1⟩ := x
    rw [hr] at h1
    simp only [Option.map_some, Option.some.injEq] at h1
    have e1 := runSched_sound (ok := Op.isSafe) _ [] CSt.init s1 l1
      (by simp [Sched.allowed, Op.isSafe]) .init hr
    rw [List.nil_append] at e1
    have h2 : (runSched exM incSched s1).map (fun x => effects x.1) =
        some [(.update 1 (incFn 3), ⟨some .SUCCESS_UP, some (1, ⟨false, .live 1 13⟩)⟩),
          (.update 1 (incFn 4), ⟨some .SUCCESS_UP, some (1, ⟨false, .live 1 17⟩)⟩)] := by
      simp only [runSched] at hr
      injection hr with hr
      injection hr with hr1 hr2
      subst hr2
      rfl
    cases hq : runSched exM incSched s1 with
    | none => rw [hq] at h2; cases h2
    | some y =>
      obtain ⟨l2, s⟩ := y
      rw [hq] at h2
      simp only [Option.map_some, Option.some.injEq] at h2
      have e2 := runSched_sound (ok := Op.isSafe) _ l1 s1 s l2
        (by simp [incSched, Sched.allowed, Op.isSafe]) e1 hq
      refine ⟨l1, l2, s1, s, e1, e2, ⟨1, by decide, h1⟩, ?_, by rw [h2]; rfl⟩
      rw [h2]
      intro x hx _
      simp only [List.mem_cons, List.not_mem_nil, or_false] at hx
      rcases hx with rfl | rfl <;> exact .inr (.inr ⟨_, rfl⟩)

/-- C06: both outcomes of `erase_if` occur, the second one after another thread changed the value. -/
example : (∃ (l : List (TEv Bool Nat Nat)) (s s' : CSt Bool Nat Nat),
      Exec (CStep exM Op.isSafe) CSt.init l s ∧
      CStep exM Op.isSafe s (some (.lin true (.eraseIf 1 10) ⟨some .SUCCESS_DEL, none⟩)) s') ∧
    ∃ (l : List (TEv Bool Nat Nat)) (s s' : CSt Bool Nat Nat),
      Exec (CStep exM Op.isSafe) CSt.init l s ∧
      CStep exM Op.isSafe s (some (.lin true (.eraseIf 1 10) ⟨some .UNSUCCESS_NOT_FOUND, none⟩)) s' :=
  ⟨sched_lin (as := [.call false (.insert 1 10), .step false, .step false, .ret false,
      .call true (.eraseIf 1 10), .step true])
      (by simp [Sched.allowed, Op.isSafe]) (pc := .act 1 0 ⟨false, .live 1 10⟩) rfl,
   sched_lin (as := [.call false (.insert 1 10), .step false, .step false, .ret false,
      .call true (.eraseIf 1 10), .step true,
      .call false (.update 1 (incFn 3)), .step false, .step false, .ret false, .step true])
      (by simp [Sched.allowed, Op.isSafe]) (pc := .load 1 0) rfl⟩

/-- C07: `insert_or_update` inserts, and updates what another thread inserted in between, on tables
with and without markable slots. -/
example : (∃ (l : List (TEv Bool Nat Nat)) (s s' : CSt Bool Nat Nat),
      Exec (CStep exM Op.isSafe) CSt.init l s ∧ CStep exM Op.isSafe s
        (some (.lin true (.insertOrUpdate 1 7 (incFn 3)) ⟨some .SUCCESS_IN, some (1, ⟨false, .live 1 7⟩)⟩)) s') ∧
    (∃ (l : List (TEv Bool Nat Nat)) (s s' : CSt Bool Nat Nat),
      Exec (CStep exM Op.isSafe) CSt.init l s ∧ CStep exM Op.isSafe s
        (some (.lin true (.insertOrUpdate 1 7 (incFn 3)) ⟨some .SUCCESS_UP, some (1, ⟨false, .live 1 13⟩)⟩)) s') ∧
    ∃ (l : List (TEv Bool Nat Nat)) (s s' : CSt Bool Nat Nat),
      Exec (CStep exE (fun op => op.isSafe ∧ ∀ k, ¬ op.removes k)) CSt.init l s ∧
      CStep exE (fun op => op.isSafe ∧ ∀ k, ¬ op.removes k) s
        (some (.lin true (.insertOrUpdate 1 7 (incFn 3)) ⟨some .SUCCESS_UP, some (1, ⟨false, .live 1 10⟩)⟩)) s' :=
  ⟨sched_lin (as := [.call true (.insertOrUpdate 1 7 (incFn 3)), .step true])
      (by simp [Sched.allowed, Op.isSafe]) (pc := .act 1 0 ⟨false, .empty⟩) rfl,
   sched_lin (as := [.call true (.insertOrUpdate 1 7 (incFn 3)), .step true,
      .call false (.insert 1 10), .step false, .step false, .ret false, .step true, .step true])
      (by simp [Sched.allowed, Op.isSafe]) (pc := .act 1 0 ⟨false, .live 1 10⟩) rfl,
   sched_lin (as := [.call true (.insertOrUpdate 1 7 (incFn 3)), .step true,
      .call false (.insert 1 10), .step false, .step false, .ret false, .step true, .step true])
      (by simp [Sched.allowed, Op.isSafe, Op.removes]) (pc := .act 1 0 ⟨false, .live 1 10⟩) rfl⟩

/-- C07: the functor of `insert_or_assign` meets the hypothesis of the second part. -/
example (m : Bool) : ∀ w : Nat, ((⟨fun _ => 7, fun _ => 7, none⟩ : UpdFn Nat).eff m w).1 = 7 := by
  intro w; cases m <;> rfl

/-- C08: the update succeeds, and gives up when the back-off function says so. -/
example : (∃ (l : List (TEv Bool Nat Nat)) (s s' : CSt Bool Nat Nat),
      Exec (CStep exM Op.isSafe) CSt.init l s ∧ CStep exM Op.isSafe s
        (some (.lin true (.updateBackoff 1 (incFn 3) (fun n => n == 0))
          ⟨some .SUCCESS_UP, some (1, ⟨false, .live 1 13⟩)⟩)) s') ∧
    ∃ (l : List (TEv Bool Nat Nat)) (s s' : CSt Bool Nat Nat),
      Exec (CStep exM Op.isSafe) CSt.init l s ∧ CStep exM Op.isSafe s
        (some (.lin true (.updateBackoff 1 (incFn 3) (fun n => n != 0))
          ⟨some .UNSUCCESS_BACKOFF, none⟩)) s' :=
  ⟨sched_lin (as := [.call false (.insert 1 10), .step false, .step false, .ret false,
      .call true (.updateBackoff 1 (incFn 3) (fun n => n == 0)), .step true])
      (by simp [Sched.allowed, Op.isSafe]) (pc := .act 1 0 ⟨false, .live 1 10⟩) rfl,
   sched_lin (as := [.call false (.insert 1 10), .step false, .step false, .ret false,
      .call true (.updateBackoff 1 (incFn 3) (fun n => n != 0)), .step true,
      .call false (.update 1 (incFn 3)), .step false, .step false, .ret false])
      (by simp [Sched.allowed, Op.isSafe]) (pc := .act 1 0 ⟨false, .live 1 10⟩) rfl⟩

/-! ## C04, C07 are violated on tables without markable slots -/

/-- Thread `false` inserts `1 ↦ 0` and is about to add 3 to it; thread `true` erases `1`, and inserts
`1 ↦ 10`; then the increment of thread `false` hits the tombstone. (example, no code) -/
def lostSched : List (Sched Bool Nat Nat) :=
  [.call false (.insert 1 0), .step false, .step false, .ret false,
   .call false (.update 1 (incFn 3)), .step false,
   .call true (.erase 1), .step true, .step true, .ret true,
   .call true (.insert 1 10), .step true, .step true, .step true, .ret true,
   .step false, .ret false]

/-- **C04 is violated on tables without markable slots**: an update that adds 3 reports success,
at that moment key 1 has the value 10, and it still has that value afterwards. -/
theorem C04_acknowledged_increment_lost :
    ∃ (l : List (TEv Bool Nat Nat)) (s : CSt Bool Nat Nat),
      Exec (CStep exE Op.isSafe) CSt.init l s ∧
      (effects l).map (fun x => (x.1.key, x.2.ok x.1)) = [(1, true), (1, true), (1, true), (1, true)] ∧
      (∃ r, (effects l).getLast? = some (.update 1 (incFn 3), r) ∧ r.ok (.update 1 (incFn 3)) = true) ∧
      Holds exE s.tbl 1 10 ∧ ¬ Holds exE s.tbl 1 13 := by
  have hrun : (runSched exE lostSched CSt.init).map (fun x => (effects x.1, (x.2.tbl 2).c)) = some
      ([(.insert 1 0, ⟨some .SUCCESS_IN, some (1, ⟨false, .empty⟩)⟩), (.erase 1, ⟨some .SUCCESS_DEL, none⟩),
        (.insert 1 10, ⟨some .SUCCESS_IN, some (2, ⟨false, .empty⟩)⟩),
        (.update 1 (incFn 3), ⟨some .SUCCESS_UP, some (1, ⟨false, .live 1 0⟩)⟩)], .live 1 10) := by
    rfl
  cases h : runSched exE lostSched CSt.init with
  | none => rw [h] at hrun; cases hrun
  | some x =>
    obtain ⟨l, s⟩ := x
    rw [h] at hrun
    simp only [Option.map_some, Option.some.injEq, Prod.mk.injEq] at hrun
    obtain ⟨hrun, hcell⟩ := hrun
    have hex := runSched_sound (ok := Op.isSafe) lostSched [] CSt.init s l (by
      simp [lostSched, Sched.allowed, Op.isSafe]) .init h
    rw [List.nil_append] at hex
    have hv : Holds exE s.tbl 1 10 := ⟨2, by decide, hcell⟩
    refine ⟨l, s, hex, by rw [hrun]; rfl, ⟨_, by rw [hrun]; rfl, rfl⟩, hv, fun hv' => ?_⟩
    obtain ⟨d, hd⟩ := AInv.stores exE_ok (Op.isSafe.split fun _ h => h) hex
    have h1 := (hd 1 10).2 hv
    rw [(hd 1 13).2 hv'] at h1
    cases h1

/-- Thread `false` inserts `1 ↦ 0` and calls `insert_or_update(1, 7, += 3)`; thread `true` erases
`1` between the load and the addition. (example, no code) -/
def absentSched : List (Sched Bool Nat Nat) :=
  [.call false (.insert 1 0), .step false, .step false, .ret false,
   .call false (.insertOrUpdate 1 7 (incFn 3)), .step false,
   .call true (.erase 1), .step true, .step true, .ret true]

/-- **C07 is violated on tables without markable slots**: `insert_or_update` reports that it found
and updated the key, which is absent at that moment and remains so. -/
theorem C07_absent_key_reported_updated :
    ∃ (l : List (TEv Bool Nat Nat)) (s s' : CSt Bool Nat Nat) (r : Ret Nat Nat),
      Exec (CStep exE Op.isSafe) CSt.init l s ∧
      CStep exE Op.isSafe s (some (.lin false (.insertOrUpdate 1 7 (incFn 3)) r)) s' ∧
      r.ok (.insertOrUpdate 1 7 (incFn 3)) = false ∧ r.code = some .SUCCESS_UP ∧
      (∀ v, ¬ Holds exE s.tbl 1 v) ∧ ∀ v, ¬ Holds exE s'.tbl 1 v := by
  have hrun : (runSched exE absentSched CSt.init).map (fun x => (effects x.1, x.2.thr false, x.2.tbl 1)) =
      some ([(.insert 1 0, ⟨some .SUCCESS_IN, some (1, ⟨false, .empty⟩)⟩),
        (.erase 1, ⟨some .SUCCESS_DEL, none⟩)],
        .busy (.insertOrUpdate 1 7 (incFn 3)) (.act 1 0 ⟨false, .live 1 0⟩), ⟨false, .deleted 0⟩) := by
    rfl
  cases h : runSched exE absentSched CSt.init with
  | none => rw [h] at hrun; cases hrun
  | some x =>
    obtain ⟨l, s⟩ := x
    rw [h] at hrun
    simp only [Option.map_some, Option.some.injEq, Prod.mk.injEq] at hrun
    obtain ⟨hrun, hthr, hcell⟩ := hrun
    have hex := runSched_sound (ok := Op.isSafe) absentSched [] CSt.init s l (by
      simp [absentSched, Sched.allowed, Op.isSafe]) .init h
    rw [List.nil_append] at hex
    have hst : step exE (.insertOrUpdate 1 7 (incFn 3)) (.act 1 0 ⟨false, .live 1 0⟩) s.tbl =
        (s.tbl.set 1 ⟨false, .deleted 3⟩, .done ⟨some .SUCCESS_UP, some (1, ⟨false, .live 1 0⟩)⟩) := by
      have h0 : step exE (.insertOrUpdate 1 7 (incFn 3)) (.act 1 0 ⟨false, .live 1 0⟩) s.tbl =
          (s.tbl.set 1 ((s.tbl 1).setMapped ((s.tbl 1).mapped + 3)),
            .done ⟨some .SUCCESS_UP, some (1, Cell.liveCell 1 (s.tbl 1).mapped)⟩) := rfl
      rw [h0, hcell]; rfl
    have hs : CStep exE Op.isSafe s _ _ := CStep.done hthr hst
    have habs : ∀ s'' : CSt Bool Nat Nat, ∀ l', Exec (CStep exE Op.isSafe) CSt.init l' s'' →
        wins 1 (effects l') = losses 1 (effects l') → ∀ v, ¬ Holds exE s''.tbl 1 v := by
      intro s'' l' hx hw
      rcases C03_at_most_one_winner exE_ok (fun _ h => h) hx 1 with ⟨h, -⟩ | ⟨-, h⟩
      · omega
      · exact h
    refine ⟨l, s, _, _, hex, hs, rfl, rfl, habs _ l hex (by rw [hrun]; rfl),
      habs _ _ (hex.vis hs) ?_⟩
    rw [effects_append, hrun]; rfl

end Growt
