import Verif.Agg
import Verif.Props.Conc
import Verif.Props.SyncLin
import Verif.Props.AsyncLin
import Verif.Props.AsyncRun
import Verif.Props.Words
import Verif.Props.HeapVal
import Verif.Props.Tsx
import Verif.Props.Wrapper

/-!
# C77: counting with `insert_or_update`

Threads add to keys by `insert_or_update(k, v, Increment(), v)` (`tests/agg_test.cpp:71-73`) and look keys up.
-/

set_option linter.unusedSectionVars false

namespace Growt.Agg

section
variable {T A K V : Type} [DecidableEq T] [DecidableEq A] [Inhabited A] [DecidableEq K] [DecidableEq V]

/-! ## Calls and what they add and show -/

/-- `growt::example::Increment` with the argument `v` (`example/update_fcts.hpp:12-26`): `operator()` returns the new
value, `atomic` the one before. -/
def addFn (N : Num V) (v : V) : UpdFn V :=
  ⟨fun w => N.plus w v, fun w => N.plus w v, some fun w => (N.plus w v, w)⟩

/-- What a call of a table adds (`tests/agg_test.cpp:71`). -/
def addOf : Op K V → Option (K × V)
  | .insertOrUpdate k v _ => some (k, v)
  | _ => none

/-- The key a call looks up (`tests/agg_test.cpp:85`). -/
def lookOf : Op K V → Option K
  | .find k => some k
  | _ => none

/-- The calls with key `k` are additions and look-ups; whatever is done with other keys.
(specification, no code) -/
def Adding (N : Num V) (k : K) (op : Op K V) : Prop :=
  op.key = k → op = .find k ∨ ∃ v, op = .insertOrUpdate k v (addFn N v)

/-- Tables of fixed size: an addition was done if the iterator returned is not `end()`
(`tests/agg_test.cpp:71-73`). -/
def viewB : View (Op K V) (Ret K V) K V := ⟨addOf, fun _ r => r.it.isSome, lookOf, Ret.shown⟩

/-- Growing tables: every addition that returns was done. (specification, no code) -/
def viewG : View (Op K V) (SRes V) K V := ⟨addOf, fun _ _ => true, lookOf, SRes.shown⟩

theorem addOf_some {op : Op K V} {k : K} {v : V} (h : addOf op = some (k, v)) : ∃ f, op = .insertOrUpdate k v f := by
  cases op <;> simp [addOf] at h
  obtain ⟨rfl, rfl⟩ := h
  exact ⟨_, rfl⟩

theorem lookOf_some {op : Op K V} {k : K} (h : lookOf op = some k) : op = .find k := by
  cases op <;> simp [lookOf] at h
  rw [h]

/-- An addition, sequentially. -/
theorem add_sem (N : Num V) (m : Bool) (k : K) (v : V) (d : Dict K V) :
    (((Op.insertOrUpdate k v (addFn N v)).toSpec m).sem d).1 =
        d.put k (match d k with | none => v | some w => N.plus w v) ∧
      (((Op.insertOrUpdate k v (addFn N v)).toSpec m).sem d).2.shown.isSome = true := by
  simp only [Op.toSpec, SOp.sem]
  cases d k with
  | none => exact ⟨rfl, rfl⟩
  | some w => cases m <;> exact ⟨rfl, rfl⟩

theorem key_sem {m : Bool} {op : Op K V} {k : K} (h : op.key ≠ k) (d : Dict K V) :
    ((op.toSpec m).sem d).1 k = d k := by
  cases op <;> simp only [Op.key] at h <;> simp only [Op.toSpec, SOp.sem] <;> (try split) <;>
    simp [Dict.put, Dict.del, Ne.symm h]

theorem counterB (N : Num V) (m : Bool) (k : K) : Counter N (boundedObj m) (viewB (K := K) (V := V)) k (Adding N k) where
  init := rfl
  adds := by
    intro d d' o r v hP hl ha hd
    obtain ⟨f, rfl⟩ := addOf_some ha
    rcases hP rfl with h | ⟨v', h⟩
    · cases h
    · cases h
      rcases hl with ⟨rfl, -⟩ | ⟨c, -, rfl, -⟩
      · rw [(add_sem N m k v d).1]; simp only [Dict.put, if_true]; cases d k <;> rfl
      · cases hd
  keeps := by
    intro d d' o r hP hl hn
    by_cases hk : o.key = k
    · rcases hP hk with rfl | ⟨v, rfl⟩
      · rcases hl with ⟨rfl, -⟩ | ⟨c, -, -, rfl, -⟩ <;> rfl
      · rcases hn with hn | hn
        · exact absurd rfl (hn v)
        · rcases hl with ⟨-, -, h3⟩ | ⟨c, -, -, rfl, -⟩
          · rcases h3 with ⟨⟨_, _, h⟩, -⟩ | h3
            · cases h
            · have := (add_sem N m k v d).2
              rw [← h3] at this
              unfold Ret.shown at this
              have hit : r.it = none := by simpa [viewB] using hn
              rw [hit] at this; cases this
          · rfl
    · rcases hl with ⟨rfl, -⟩ | ⟨c, -, -, rfl, -⟩
      · exact key_sem hk d
      · rfl
  looks := by
    intro d d' o r hP hl hk
    have := lookOf_some hk
    subst this
    rcases hl with ⟨-, -, h3⟩ | ⟨c, h, -⟩
    · rcases h3 with ⟨⟨_, _, h⟩, -⟩ | h3
      · cases h
      · exact h3
    · exact absurd h (by simp [Op.mayRefuse])

theorem counterG (N : Num V) (m : Bool) (k : K) : Counter N (Sync.growObj m) (viewG (K := K) (V := V)) k (Adding N k) where
  init := rfl
  adds := by
    intro d d' o r v hP hl ha hd
    obtain ⟨f, rfl⟩ := addOf_some ha
    rcases hP rfl with h | ⟨v', h⟩
    · cases h
    · cases h
      rcases hl with ⟨rfl, -⟩ | ⟨⟨_, _, _, _, h, -⟩, -⟩
      · rw [(add_sem N m k v d).1]; simp only [Dict.put, if_true]; cases d k <;> rfl
      · cases h
  keeps := by
    intro d d' o r hP hl hn
    by_cases hk : o.key = k
    · rcases hP hk with rfl | ⟨v, rfl⟩
      · rcases hl with ⟨rfl, -⟩ | ⟨-, -, rfl⟩ <;> rfl
      · rcases hn with hn | hn
        · exact absurd rfl (hn v)
        · cases hn
    · rcases hl with ⟨rfl, -⟩ | ⟨-, -, rfl⟩
      · exact key_sem hk d
      · rfl
  looks := by
    intro d d' o r hP hl hk
    have := lookOf_some hk
    subst this
    rcases hl with ⟨-, -, h3⟩ | ⟨⟨_, _, _, _, h, -⟩, -⟩
    · rcases h3 with ⟨⟨_, _, h⟩, -⟩ | h3
      · cases h
      · exact h3
    · cases h

/-! ## The tables -/

variable [Inhabited V]

/-- **C77, tables of fixed size.**  In every execution, if key `k` is only added to and looked up: a look-up counts
every addition that returned successfully before it was called and no addition that was called after it returned;
after all calls have returned it shows exactly the sum of the successful ones. -/
theorem C77_bounded {N : Num V} {E : Env K} (hE : E.OK) {ok : Op K V → Prop} (hmix : Mix E.m ok)
    {l : List (TEv T K V)} {s : CSt T K V} (h : Exec (CStep E ok) CSt.init l s) {k : K}
    (hk : Only (Adding N k) (visible l)) : Counts N viewB k (visible l) :=
  (counterB N E.m k).counts (C02_linearizable_partial hE hmix h) hk

/-- **C77, synchronised growth.**  The same, with all additions successful.  Missing: the executions excluded by
`C30_linearizable_partial`. -/
theorem C77_sync_partial {N : Num V} {u : Bool} {ok : Op K V → Prop} {E : Env K} (hE : E.OK)
    (hcombo : E.M.cm = true → E.M.cp = true) (hmix : Mix E.m ok) {a : A}
    {l : List (Ev T (Op K V) (SRes V))} {s : Sync.DSt T A K V}
    (h : Exec (Sync.DStepW u ok) (Sync.DSt.init E a) l s) {k : K} (hk : Only (Adding N k) (visible l)) :
    Counts N viewG k (visible l) :=
  (counterG N E.m k).counts (Sync.C30_linearizable_partial hE hcombo hmix h) hk

/-- **C77, asynchronous growth.**  The same.  Missing: the executions excluded by `C24_linearizable_partial`. -/
theorem C77_async_partial {N : Num V} {u : Bool} {ok : Op K V → Prop} (hok : ∀ op, ok op → op.isSafe)
    {E : Env K} (hE : E.OK) (hcombo : E.M.cm = true → E.M.cp = true) (hm : E.m = true) {a : A}
    {l : List (Ev T (Op K V) (SRes V))} {s : Async.DSt T A K V}
    (h : Exec (Async.DStepW u ok) (Async.DSt.init E a) l s) {k : K} (hk : Only (Adding N k) l) :
    Counts N viewG k l :=
  (counterG N true k).counts (Async.C24_linearizable_partial hok hE hcombo hm h) hk

/-! ## Machine words, heap elements, transactions, other libraries -/

/-- Tables of machine words (`tests/agg_test.cpp:71-73, 85-86`). -/
def viewW (m : Bool) (b : Nat) : View (Op Nat V) (Words.WRet V) Nat V :=
  ⟨addOf, fun _ r => r.it.isSome, lookOf, fun r => (r.shown m b).map Prod.snd⟩

theorem counterW (N : Num V) (m : Bool) (b k : Nat) :
    Counter N (Words.wordObj m b) (viewW (V := V) m b) k (Adding N k) where
  init := rfl
  adds := by
    intro d d' o r v hP hl ha hd
    obtain ⟨f, rfl⟩ := addOf_some ha
    rcases hP rfl with h | ⟨v', h⟩
    · cases h
    · cases h
      rcases hl with ⟨rfl, -⟩ | ⟨c, -, rfl, -⟩
      · rw [(add_sem N m k v d).1]; simp only [Dict.put, if_true]; cases d k <;> rfl
      · cases hd
  keeps := by
    intro d d' o r hP hl hn
    by_cases hk : o.key = k
    · rcases hP hk with rfl | ⟨v, rfl⟩
      · rcases hl with ⟨rfl, -⟩ | ⟨c, -, -, rfl, -⟩ <;> rfl
      · rcases hn with hn | hn
        · exact absurd rfl (hn v)
        · rcases hl with ⟨-, -, h3⟩ | ⟨c, -, -, rfl, -⟩
          · rcases h3 with ⟨⟨_, _, h⟩, -⟩ | h3
            · cases h
            · have := (add_sem N m k v d).2
              have hit : r.it = none := by simpa [viewW] using hn
              unfold Words.WRet.shown at h3
              rw [hit] at h3
              cases hs : (((Op.insertOrUpdate k v (addFn N v)).toSpec m).sem d).2.shown with
              | none => rw [hs] at this; cases this
              | some w => rw [hs] at h3; cases h3
          · rfl
    · rcases hl with ⟨rfl, -⟩ | ⟨c, -, -, rfl, -⟩
      · exact key_sem hk d
      · rfl
  looks := by
    intro d d' o r hP hl hk
    have := lookOf_some hk
    subst this
    rcases hl with ⟨-, -, h3⟩ | ⟨c, h, -⟩
    · rcases h3 with ⟨⟨_, _, h⟩, -⟩ | h3
      · cases h
      · show (r.shown m b).map Prod.snd = d k
        rw [h3]
        show ((d k).map _).map _ = _
        cases d k <;> rfl
    · exact absurd h (by simp [Op.mayRefuse])

/-- **C77, tables of machine words** whose slots are loaded in one piece (C70). -/
theorem C77_words {N : Num V} {b : Nat} (hb : 1 ≤ b) {E : Env Nat} (hE : E.OK) {ok : Op Nat V → Prop}
    (hmix : Mix E.m ok) (hok : ∀ op, ok op → LegalKey E.m b op.key) {l : List (Words.WEv T V)}
    {s : Words.WSt T V} (h : Exec (Words.WStep true b E ok) Words.WSt.init l s) {k : Nat}
    (hk : Only (Adding N k) (visible l)) : Counts N (viewW E.m b) k (visible l) :=
  (counterW N E.m b k).counts (Words.C70_words_linearizable_partial hb hE hmix hok h) hk

/-- Tables of heap allocated elements (`tests/agg_test.cpp:71-73, 85-86`). -/
def viewH : View (HeapVal.HOp K V) (HeapVal.HRes V) K V where
  add := fun o => match o with | .insertOrUpdate k v _ => some (k, v) | _ => none
  done := fun _ x => x.elem
  look := fun o => match o with | .find k => some k | _ => none
  shown := fun x => x.shown

/-- Additions and look-ups on heap elements. (specification, no code) -/
def AddingH (N : Num V) (k : K) (op : HeapVal.HOp K V) : Prop :=
  op.key = k → op = .find k ∨ ∃ v, op = .insertOrUpdate k v fun w => N.plus w v

theorem counterH (N : Num V) (full : Bool) (k : K) :
    Counter N (HeapVal.valObj full) (viewH (K := K) (V := V)) k (AddingH N k) where
  init := rfl
  adds := by
    intro d d' o r v hP hl ha hd
    cases o <;> simp [viewH] at ha
    obtain ⟨rfl, rfl⟩ := ha
    rename_i k v f
    rcases hP rfl with h | ⟨v', h⟩
    · cases h
    · cases h
      simp only [HeapVal.valObj] at hl
      cases hdk : d k with
      | none =>
        rw [hdk] at hl
        rcases hl with ⟨rfl, -⟩ | ⟨-, -, rfl⟩
        · simp [Dict.put]
        · cases hd
      | some w => rw [hdk] at hl; obtain ⟨rfl, -⟩ := hl; simp [Dict.put]
  keeps := by
    intro d d' o r hP hl hn
    by_cases hk : o.key = k
    · rcases hP hk with rfl | ⟨v, rfl⟩
      · obtain ⟨rfl, -⟩ := hl; rfl
      · rcases hn with hn | hn
        · exact absurd rfl (hn v)
        · simp only [HeapVal.valObj] at hl
          cases hdk : d k with
          | none =>
            rw [hdk] at hl
            rcases hl with ⟨-, rfl⟩ | ⟨-, rfl, -⟩
            · cases hn
            · rw [hdk]
          | some w => rw [hdk] at hl; obtain ⟨-, rfl⟩ := hl; cases hn
    · cases o with
      | find k' => obtain ⟨rfl, -⟩ := hl; rfl
      | insert k' v =>
        simp only [HeapVal.HOp.key] at hk
        simp only [HeapVal.valObj] at hl
        split at hl
        · obtain ⟨rfl, -⟩ := hl; rfl
        · rcases hl with ⟨rfl, -⟩ | ⟨-, rfl, -⟩
          · simp [Dict.put, Ne.symm hk]
          · rfl
      | update k' f =>
        simp only [HeapVal.HOp.key] at hk
        simp only [HeapVal.valObj] at hl
        split at hl
        · obtain ⟨rfl, -⟩ := hl; simp [Dict.put, Ne.symm hk]
        · obtain ⟨rfl, -⟩ := hl; rfl
      | insertOrUpdate k' v f =>
        simp only [HeapVal.HOp.key] at hk
        simp only [HeapVal.valObj] at hl
        split at hl
        · obtain ⟨rfl, -⟩ := hl; simp [Dict.put, Ne.symm hk]
        · rcases hl with ⟨rfl, -⟩ | ⟨-, rfl, -⟩
          · simp [Dict.put, Ne.symm hk]
          · rfl
  looks := by
    intro d d' o r hP hl hk
    cases o <;> simp [viewH] at hk
    subst hk
    obtain ⟨-, rfl⟩ := hl
    rfl

/-- **C77, heap allocated elements**, updated in place, in a table of fixed size (C72). -/
theorem C77_heap_bounded {N : Num V} {E : Env K} (hE : E.OK) {l : List (Ev T (HeapVal.HOp K V) (HeapVal.HRes V))}
    {s : HeapVal.HSt (CSt T K A) T K V A}
    (h : Exec (HeapVal.HStep (CStep E HeapVal.addrCall) HeapVal.ansB) (HeapVal.HSt.init CSt.init) l s) {k : K}
    (hk : Only (AddingH N k) l) : Counts N viewH k l :=
  (counterH N true k).counts (HeapVal.C72_bounded hE h).1 hk

/-- **C77, heap allocated elements**, synchronised growth (C72). -/
theorem C77_heap_sync_partial {H : Type} [DecidableEq H] {N : Num V} {u : Bool} {E : Env K} (hE : E.OK)
    (hcombo : E.M.cm = true → E.M.cp = true) {a : H} {l : List (Ev T (HeapVal.HOp K V) (HeapVal.HRes V))}
    {s : HeapVal.HSt (Sync.DSt T H K A) T K V A}
    (h : Exec (HeapVal.HStep (Sync.DStepW u HeapVal.addrCall) HeapVal.ansG) (HeapVal.HSt.init (Sync.DSt.init E a)) l s)
    {k : K} (hk : Only (AddingH N k) l) : Counts N viewH k l :=
  (counterH N false k).counts (HeapVal.C72_sync_partial hE hcombo h).1 hk

/-- **C77, heap allocated elements**, asynchronous growth (C72). -/
theorem C77_heap_async_partial {H : Type} [DecidableEq H] {N : Num V} {u : Bool} {E : Env K} (hE : E.OK)
    (hcombo : E.M.cm = true → E.M.cp = true) (hm : E.m = true) {a : H}
    {l : List (Ev T (HeapVal.HOp K V) (HeapVal.HRes V))} {s : HeapVal.HSt (Async.DSt T H K A) T K V A}
    (h : Exec (HeapVal.HStep (Async.DStepW u HeapVal.addrCall) HeapVal.ansG) (HeapVal.HSt.init (Async.DSt.init E a)) l s)
    {k : K} (hk : Only (AddingH N k) l) : Counts N viewH k l :=
  (counterH N false k).counts (HeapVal.C72_async_partial hE hcombo hm h).1 hk

/-- Tables with transactions (`tests/agg_test.cpp:71-73, 85-86`). -/
def viewT : View (Tsx.Call K V) (Tsx.Ret K V) K V where
  add := fun o => match o with | .insertOrUpdate k v _ => some (k, v) | _ => none
  done := fun _ _ => true
  look := fun o => match o with | .find k => some k | _ => none
  shown := Tsx.Ret.shown

/-- Additions and look-ups on tables with transactions. (specification, no code) -/
def AddingT (N : Num V) (k : K) (op : Tsx.Call K V) : Prop :=
  op.key = k → op = .find k ∨ ∃ v, op = .insertOrUpdate k v (addFn N v)

theorem counterT (N : Num V) (k : K) : Counter N Tsx.idealObj (viewT (K := K) (V := V)) k (AddingT N k) where
  init := rfl
  adds := by
    intro d d' o r v hP hl ha hd
    cases o <;> simp [viewT] at ha
    rename_i k' v' f
    obtain ⟨rfl, rfl⟩ := ha
    rcases hP rfl with h | ⟨v1, h⟩
    · cases h
    · cases h
      obtain ⟨o, ho, rfl, -, -⟩ := Tsx.legal_any hl
      simp only [Tsx.Call.meanings, List.mem_cons, List.not_mem_nil, or_false] at ho
      rcases ho with rfl | rfl <;> simp only [SOp.sem] <;> cases hd : d k' <;> simp [Dict.put, addFn]
  keeps := by
    intro d d' o r hP hl hn
    obtain ⟨o', ho, rfl, -, -⟩ := Tsx.legal_any hl
    by_cases hk : o.key = k
    · rcases hP hk with rfl | ⟨v, rfl⟩
      · simp only [Tsx.Call.meanings, List.mem_cons, List.not_mem_nil, or_false] at ho
        subst ho; rfl
      · rcases hn with hn | hn
        · exact absurd rfl (hn v)
        · cases hn
    · cases o <;> simp only [Tsx.Call.key] at hk <;>
        simp only [Tsx.Call.meanings, List.mem_cons, List.not_mem_nil, or_false] at ho <;>
        (first | subst ho | (rcases ho with rfl | rfl)) <;>
        simp only [SOp.sem] <;> (try split) <;> simp [Dict.put, Dict.del, Ne.symm hk]
  looks := by
    intro d d' o r hP hl hk
    cases o <;> simp [viewT] at hk
    subst hk
    obtain ⟨o', ho, -, -, h⟩ := Tsx.legal_any hl
    simp only [Tsx.Call.meanings, List.mem_cons, List.not_mem_nil, or_false] at ho
    subst ho
    exact h

/-- **C77, tables with transactions** (C61): calls that commit and calls that use compare-and-swap, mixed. -/
theorem C77_tsx {N : Num V} {Q : Tsx.Tab K} (hQ : Q.OK) {l : List (Tsx.TEv T K V)} {s : Tsx.St T K V}
    (h : Exec (Tsx.Step Q) Tsx.St.init l s) {k : K} (hk : Only (AddingT N k) (visible l)) :
    Counts N viewT k (visible l) :=
  (counterT N k).counts (Tsx.C61_linearizable hQ h) hk

/-- The wrappers (`tests/agg_test.cpp:71-73, 85-86`). -/
def viewS : View (SOp K V) (SRes V) K V where
  add := fun o => match o with | .insertOrModify k v _ => some (k, v) | _ => none
  done := fun _ _ => true
  look := fun o => match o with | .find k => some k | _ => none
  shown := fun x => x.shown

/-- Additions and look-ups on wrappers. (specification, no code) -/
def AddingS (N : Num V) (k : K) (op : SOp K V) : Prop :=
  op.key = k → op = .find k ∨ ∃ v, op = .insertOrModify k v fun w => (N.plus w v, N.plus w v)

theorem key_semS {o : SOp K V} {k : K} (h : o.key ≠ k) (d : Dict K V) : (o.sem d).1 k = d k := by
  cases o <;> simp only [SOp.key] at h <;> simp only [SOp.sem] <;> (try split) <;>
    simp [Dict.put, Dict.del, Ne.symm h]

theorem counterS (N : Num V) (k : K) : Counter N Wrap.mapObj (viewS (K := K) (V := V)) k (AddingS N k) where
  init := rfl
  adds := by
    intro d d' o r v hP hl ha hd
    cases o <;> simp [viewS] at ha
    rename_i k' v' f
    obtain ⟨rfl, rfl⟩ := ha
    rcases hP rfl with h | ⟨v1, h⟩
    · cases h
    · cases h
      have hl : _ = (d', r) := hl
      have := congrArg Prod.fst hl
      simp only at this
      subst this
      simp only [SOp.sem]
      cases hd : d k' <;> simp [Dict.put]
  keeps := by
    intro d d' o r hP hl hn
    have hl : _ = (d', r) := hl
    have := congrArg Prod.fst hl
    simp only at this
    subst this
    by_cases hk : o.key = k
    · rcases hP hk with rfl | ⟨v, rfl⟩
      · rfl
      · rcases hn with hn | hn
        · exact absurd rfl (hn v)
        · cases hn
    · exact key_semS hk d
  looks := by
    intro d d' o r hP hl hk
    cases o <;> simp [viewS] at hk
    subst hk
    have hl : _ = (d', r) := hl
    have := congrArg Prod.snd hl
    simp only [SOp.sem] at this
    subst this
    rfl

/-- **C77, wrapper around `tbb::concurrent_hash_map`** (C76).  Missing: the default key (C76). -/
theorem C77_locked_partial {N : Num V} {k0 : K} {v0 : V} {adm : SOp K V → Prop} (hadm : ∀ o, adm o → o.key ≠ k0)
    {h : List (Ev T (SOp K V) (SRes V))} {s : Wrap.HSt T K V}
    (hx : Exec (Wrap.HStep k0 v0 adm) Wrap.HSt.init h s) {k : K} (hk : Only (AddingS N k) h) : Counts N viewS k h :=
  (counterS N k).counts (Wrap.C76_locked_linearizable_partial hadm hx) hk

/-- What is visible of calls on tables that hand out references. (specification, no code) -/
def viewR : View (SOp K V) Wrap.Seen K V where
  add := fun o => match o with | .insertOrModify k v _ => some (k, v) | _ => none
  done := fun _ _ => true
  look := fun _ => none
  shown := fun _ => none

theorem counterR (N : Num V) (k : K) : Counter N Wrap.seenObj (viewR (K := K) (V := V)) k (AddingS N k) where
  init := rfl
  adds := by
    intro d d' o r v hP hl ha hd
    cases o <;> simp [viewR] at ha
    rename_i k' v' f
    obtain ⟨rfl, rfl⟩ := ha
    rcases hP rfl with h | ⟨v1, h⟩
    · cases h
    · cases h
      obtain ⟨rfl, -⟩ := hl
      simp only [SOp.sem]
      cases hd : d k' <;> simp [Dict.put]
  keeps := by
    intro d d' o r hP hl hn
    obtain ⟨rfl, -⟩ := hl
    by_cases hk : o.key = k
    · rcases hP hk with rfl | ⟨v, rfl⟩
      · rfl
      · rcases hn with hn | hn
        · exact absurd rfl (hn v)
        · cases hn
    · exact key_semS hk d
  looks := by
    intro d d' o r hP hl hk
    cases hk

/-- **C77, wrappers around `folly::ConcurrentHashMap` and `tbb::concurrent_unordered_map`** (C76): after all calls have
returned, the library's table holds exactly the sum of the additions. -/
theorem C77_references {N : Num V} {er : Bool} {adm : SOp K V → Prop} (her : ∀ k, adm (.erase k) → er = true) {v : V}
    {h : List (Ev T (SOp K V) Wrap.Seen)} {s : Wrap.RSt T K V} (hx : Exec (Wrap.RStep er adm) (Wrap.RSt.init v) h s)
    {k : K} (hk : Only (AddingS N k) h) (hQ : Quiet h) :
    (s.idx k).map s.val =
      tally N (retSum ((viewR (V := V)).oneDone k) h) (retSum ((viewR (V := V)).amountDone N k) h) := by
  obtain ⟨l, p, hv, hw, hl⟩ := Wrap.C76_references_content her hx
  subst hv
  have := (counterR N k).after hw hl (only_of_visible hk)
  rw [quiet_sums hw (hQ.idle hw), quiet_sums hw (hQ.idle hw)] at this
  rw [retSum_visible, retSum_visible]
  exact this

/-! ## The aggregation benchmark -/

/-- `sum` of one thread: a 32-bit number (`tests/agg_test.cpp:82-87`). -/
def threadSum : List (Option UInt64) → UInt32
  | [] => 0
  | none :: l => threadSum l
  | some w :: l => w.toUInt32 + threadSum l

/-- `valsum`: the sums of the threads (`tests/agg_test.cpp:89`). -/
def valsum : List (List (Option UInt64)) → UInt64
  | [] => 0
  | l :: ls => (threadSum l).toUInt64 + valsum ls

/-- 64-bit numbers with wrap-around (`example/update_fcts.hpp:14`). -/
def u64 : Num UInt64 where
  enc := UInt64.ofNat
  dec := UInt64.toNat
  plus := (· + ·)
  enc_dec := fun _ => UInt64.ofNat_toNat
  enc_add := UInt64.ofNat_add

/-- Natural numbers. (specification, no code) -/
def nat : Num Nat := ⟨id, id, (· + ·), fun _ => rfl, fun _ _ => rfl⟩

/-- The value of a look-up. (specification, no code) -/
def valueOf (x : Option UInt64) : Nat := (x.map UInt64.toNat).getD 0

theorem threadSum_eq {l : List (Option UInt64)} (h : (l.map valueOf).sum < 2 ^ 32) :
    (threadSum l).toNat = (l.map valueOf).sum := by
  induction l with
  | nil => rfl
  | cons x l ih =>
    simp only [List.map_cons, List.sum_cons] at h ⊢
    have := ih (by omega)
    cases x with
    | none => simpa [threadSum, valueOf] using this
    | some w =>
      simp only [threadSum, valueOf, Option.map_some, Option.getD_some, UInt32.toNat_add, UInt64.toNat_toUInt32] at h ⊢
      rw [this]
      omega

theorem valsum_eq {ls : List (List (Option UInt64))} (h : (ls.flatten.map valueOf).sum < 2 ^ 32) :
    (valsum ls).toNat = (ls.flatten.map valueOf).sum := by
  induction ls with
  | nil => rfl
  | cons l ls ih =>
    simp only [List.flatten_cons, List.map_append, List.sum_append] at h ⊢
    have h1 := ih (by omega)
    have h2 := threadSum_eq (l := l) (by omega)
    simp only [valsum, UInt64.toNat_add, UInt32.toNat_toUInt64, h1, h2]
    omega

theorem retSum_zero {O R : Type} {f g : O → R → Nat} (hfg : ∀ o r, f o r = 0 → g o r = 0) {h : List (Ev T O R)}
    (hz : retSum f h = 0) : retSum g h = 0 := by
  induction h with
  | nil => rfl
  | cons e h ih =>
    cases e with
    | ret i o r =>
      simp only [retSum] at hz ⊢
      have := hfg o r (by omega)
      have := ih (by omega)
      omega
    | _ => exact ih hz

theorem View.zero {O R : Type} (N : Num V) (W : View O R K V) (k : K) (o : O) (r : R) (h : W.oneDone k o r = 0) :
    W.amountDone N k o r = 0 := by
  revert h
  simp only [View.oneDone, View.amountDone, View.one, View.amount]
  cases W.done o r <;> simp
  cases W.add o with
  | none => simp
  | some kv => obtain ⟨k', v⟩ := kv; by_cases hk : k' = k <;> simp [hk]

theorem sum_perm {a b : List Nat} (h : a.Perm b) : a.sum = b.sum := by
  induction h with
  | nil => rfl
  | cons _ _ ih => simp [ih]
  | swap _ _ _ => simp only [List.sum_cons]; omega
  | trans _ _ ih1 ih2 => exact ih1.trans ih2

theorem sum_le {ks : List K} {f : K → Nat} {k : K} (h : k ∈ ks) : f k ≤ (ks.map f).sum := by
  induction ks with
  | nil => cases h
  | cons a ks ih =>
    simp only [List.map_cons, List.sum_cons]
    rcases List.mem_cons.1 h with rfl | h
    · omega
    · have := ih h; omega

/-- The benchmark: each of fewer than `2^32` calls adds 1 to one of the keys `ks` and returns (`h1`); then every key is
looked up once (`h2`), by any of the threads; `vals k` is what was shown for `k`, `found` is what the threads saw.
Then `valsum` and the number of errors make up the number of calls (`tests/agg_test.cpp:66-91, 155`). -/
theorem benchmark {O R D : Type} {S : Obj O R D} {W : View O R K UInt64} {h1 h2 : List (Ev T O R)}
    (hl : Linearizable S (h1 ++ h2)) (hQ : Quiet h1) {ks : List K} (hn : ks.Nodup)
    (hC : ∀ k ∈ ks, Counts u64 W k (h1 ++ h2))
    (hks : ∀ i o k v, Ev.call i o ∈ h1 → W.add o = some (k, v) → k ∈ ks ∧ v = 1)
    (hno : ∀ i o, Ev.call i o ∈ h2 → W.add o = none) (hlt : callSum W.isAdd h1 < 2 ^ 32)
    {vals : K → Option UInt64}
    (hv : ∀ k ∈ ks, ∃ i o r, Ev.ret i o r ∈ h2 ∧ W.look o = some k ∧ W.shown r = vals k)
    {found : List (List (Option UInt64))} (hf : found.flatten.Perm (ks.map vals)) :
    (valsum found).toNat + retSum W.failed h1 = callSum W.isAdd h1 := by
  have ht := total (N := u64) (W := W) hl hQ hn (fun i o k v hm ha => by
    obtain ⟨q1, q2⟩ := hks i o k v hm ha
    exact ⟨q1, by rw [q2]; rfl⟩)
  have hval : ∀ k ∈ ks, valueOf (vals k) = retSum (W.amountDone u64 k) h1 := by
    intro k hk
    obtain ⟨i, o, r, q1, q2, q3⟩ := hv k hk
    have := (hC k hk).after h1 h2 rfl hQ (fun i o v hm he => by rw [hno i o hm] at he; cases he) i o r q1 q2
    rw [← q3, this]
    have hle := sum_le (f := fun k => retSum (W.amountDone u64 k) h1) hk
    unfold tally
    split
    · rename_i h0
      rw [retSum_zero (View.zero u64 W k) h0]; rfl
    · show (UInt64.ofNat _).toNat = _
      rw [UInt64.toNat_ofNat']
      omega
  have hsum : (found.flatten.map valueOf).sum = (ks.map fun k => retSum (W.amountDone u64 k) h1).sum := by
    rw [sum_perm (hf.map valueOf), List.map_map]
    congr 1
    exact List.map_congr_left fun k hk => hval k hk
  rw [valsum_eq (by omega), hsum]
  exact ht

/-- **C77, the benchmark on a table of fixed size**: `valsum` plus `errors` is the number of calls. -/
theorem C77_benchmark_bounded {E : Env K} (hE : E.OK) {ok : Op K UInt64 → Prop} (hmix : Mix E.m ok)
    {l : List (TEv T K UInt64)} {s : CSt T K UInt64} (h : Exec (CStep E ok) CSt.init l s)
    {h1 h2 : List (TEv T K UInt64)} (he : visible l = h1 ++ h2) (hQ : Quiet h1) {ks : List K} (hn : ks.Nodup)
    (h1c : ∀ i o, Ev.call i o ∈ h1 → ∃ k ∈ ks, o = .insertOrUpdate k 1 (addFn u64 1))
    (h2c : ∀ i o, Ev.call i o ∈ h2 → ∃ k, o = .find k) (hlt : callSum viewB.isAdd h1 < 2 ^ 32)
    {vals : K → Option UInt64} (hv : ∀ k ∈ ks, ∃ i r, Ev.ret i (.find k) r ∈ h2 ∧ r.shown = vals k)
    {found : List (List (Option UInt64))} (hf : found.flatten.Perm (ks.map vals)) :
    (valsum found).toNat + retSum viewB.failed h1 = callSum viewB.isAdd h1 := by
  have hl := C02_linearizable_partial hE hmix h
  rw [he] at hl
  refine benchmark hl hQ hn (fun k _ => ?_) (fun i o k v hm ha => ?_) (fun i o hm => ?_) hlt (fun k hk => ?_) hf
  · rw [← he]
    refine C77_bounded hE hmix h fun i o hm hk => ?_
    rw [he] at hm
    rcases List.mem_append.1 hm with hm | hm
    · obtain ⟨k', -, rfl⟩ := h1c i o hm
      cases hk
      exact .inr ⟨1, rfl⟩
    · obtain ⟨k', rfl⟩ := h2c i o hm
      cases hk
      exact .inl rfl
  · obtain ⟨k', hk', rfl⟩ := h1c i o hm
    cases ha
    exact ⟨hk', rfl⟩
  · obtain ⟨k', rfl⟩ := h2c i o hm
    rfl
  · obtain ⟨i, r, q1, q2⟩ := hv k hk
    exact ⟨i, _, r, q1, rfl, q2⟩

theorem failedG {h : List (Ev T (Op K V) (SRes V))} : retSum (viewG (K := K) (V := V)).failed h = 0 := by
  induction h with
  | nil => rfl
  | cons e h ih =>
    cases e with
    | ret i o r => show 0 + _ = 0; rw [Nat.zero_add]; exact ih
    | _ => exact ih

/-- **C77, the benchmark on a synchronously growing table**: `valsum` is the number of calls. -/
theorem C77_benchmark_sync_partial {u : Bool} {ok : Op K UInt64 → Prop} {E : Env K} (hE : E.OK)
    (hcombo : E.M.cm = true → E.M.cp = true) (hmix : Mix E.m ok) {a : A}
    {l : List (Ev T (Op K UInt64) (SRes UInt64))} {s : Sync.DSt T A K UInt64}
    (h : Exec (Sync.DStepW u ok) (Sync.DSt.init E a) l s)
    {h1 h2 : List (Ev T (Op K UInt64) (SRes UInt64))} (he : visible l = h1 ++ h2) (hQ : Quiet h1) {ks : List K}
    (hn : ks.Nodup) (h1c : ∀ i o, Ev.call i o ∈ h1 → ∃ k ∈ ks, o = .insertOrUpdate k 1 (addFn u64 1))
    (h2c : ∀ i o, Ev.call i o ∈ h2 → ∃ k, o = .find k) (hlt : callSum viewG.isAdd h1 < 2 ^ 32)
    {vals : K → Option UInt64} (hv : ∀ k ∈ ks, ∃ i r, Ev.ret i (.find k) r ∈ h2 ∧ r.shown = vals k)
    {found : List (List (Option UInt64))} (hf : found.flatten.Perm (ks.map vals)) :
    (valsum found).toNat = callSum viewG.isAdd h1 := by
  have hl := Sync.C30_linearizable_partial hE hcombo hmix h
  rw [he] at hl
  have := benchmark (W := viewG) hl hQ hn (fun k _ => ?_) (fun i o k v hm ha => ?_) (fun i o hm => ?_) hlt
    (fun k hk => ?_) hf
  · rwa [failedG] at this
  · rw [← he]
    refine C77_sync_partial hE hcombo hmix h fun i o hm hk => ?_
    rw [he] at hm
    rcases List.mem_append.1 hm with hm | hm
    · obtain ⟨k', -, rfl⟩ := h1c i o hm
      cases hk
      exact .inr ⟨1, rfl⟩
    · obtain ⟨k', rfl⟩ := h2c i o hm
      cases hk
      exact .inl rfl
  · obtain ⟨k', hk', rfl⟩ := h1c i o hm
    cases ha
    exact ⟨hk', rfl⟩
  · obtain ⟨k', rfl⟩ := h2c i o hm
    rfl
  · obtain ⟨i, r, q1, q2⟩ := hv k hk
    exact ⟨i, _, r, q1, rfl, q2⟩

/-- **C77, the benchmark on an asynchronously growing table**: `valsum` is the number of calls. -/
theorem C77_benchmark_async_partial {u : Bool} {ok : Op K UInt64 → Prop} (hok : ∀ op, ok op → op.isSafe)
    {E : Env K} (hE : E.OK) (hcombo : E.M.cm = true → E.M.cp = true) (hm : E.m = true) {a : A}
    {h1 h2 : List (Ev T (Op K UInt64) (SRes UInt64))} {s : Async.DSt T A K UInt64}
    (h : Exec (Async.DStepW u ok) (Async.DSt.init E a) (h1 ++ h2) s) (hQ : Quiet h1) {ks : List K}
    (hn : ks.Nodup) (h1c : ∀ i o, Ev.call i o ∈ h1 → ∃ k ∈ ks, o = .insertOrUpdate k 1 (addFn u64 1))
    (h2c : ∀ i o, Ev.call i o ∈ h2 → ∃ k, o = .find k) (hlt : callSum viewG.isAdd h1 < 2 ^ 32)
    {vals : K → Option UInt64} (hv : ∀ k ∈ ks, ∃ i r, Ev.ret i (.find k) r ∈ h2 ∧ r.shown = vals k)
    {found : List (List (Option UInt64))} (hf : found.flatten.Perm (ks.map vals)) :
    (valsum found).toNat = callSum viewG.isAdd h1 := by
  have hl := Async.C24_linearizable_partial hok hE hcombo hm h
  have := benchmark (W := viewG) hl hQ hn (fun k _ => ?_) (fun i o k v hm ha => ?_) (fun i o hm => ?_) hlt
    (fun k hk => ?_) hf
  · rwa [failedG] at this
  · refine C77_async_partial hok hE hcombo hm h fun i o hm hk => ?_
    rcases List.mem_append.1 hm with hm | hm
    · obtain ⟨k', -, rfl⟩ := h1c i o hm
      cases hk
      exact .inr ⟨1, rfl⟩
    · obtain ⟨k', rfl⟩ := h2c i o hm
      cases hk
      exact .inl rfl
  · obtain ⟨k', hk', rfl⟩ := h1c i o hm
    cases ha
    exact ⟨hk', rfl⟩
  · obtain ⟨k', rfl⟩ := h2c i o hm
    rfl
  · obtain ⟨i, r, q1, q2⟩ := hv k hk
    exact ⟨i, _, r, q1, rfl, q2⟩

/-- **C77 (violated by the benchmark)**: after `2^32` additions to a key, counted exactly by the table, the 32-bit
`sum` of `validate_aggregate` is 0, and an error is reported. -/
theorem C77_benchmark_wraps : tally u64 (2 ^ 32) (2 ^ 32) = some 4294967296 ∧ valsum [[some 4294967296]] = 0 := by
  decide

end

/-! ## Concrete executions -/

/-- Two threads add 1 to the same key at the same time; the slower one updates the element of the other. Then one
looks the key up. (model bookkeeping, no code) -/
def aggSched (N : Num V) (v : V) : List (Sched Bool Nat V) :=
  [.call false (.insertOrUpdate 1 v (addFn N v)), .call true (.insertOrUpdate 1 v (addFn N v)), .step false, .step true,
   .step true, .step false, .step false, .step false, .ret true, .ret false, .call true (.find 1), .step true, .ret true]

/-- The additions of `aggSched`. (model bookkeeping, no code) -/
def aggAdds : List (TEv Bool Nat UInt64) :=
  [.call false (.insertOrUpdate 1 1 (addFn u64 1)), .call true (.insertOrUpdate 1 1 (addFn u64 1)),
   .ret true (.insertOrUpdate 1 1 (addFn u64 1)) ⟨some .SUCCESS_IN, some (1, ⟨false, .live 1 1⟩)⟩,
   .ret false (.insertOrUpdate 1 1 (addFn u64 1)) ⟨some .SUCCESS_UP, some (1, ⟨false, .live 1 1⟩)⟩]

/-- The look-up of `aggSched`. (model bookkeeping, no code) -/
def aggLook : List (TEv Bool Nat UInt64) := [.call true (.find 1), .ret true (.find 1) ⟨none, some (1, ⟨false, .live 1 2⟩)⟩]

/-- The calls of the benchmark. (model bookkeeping, no code) -/
def aggCall {K V : Type} : Op K V → Prop
  | .find _ | .insertOrUpdate _ _ _ => True
  | _ => False

theorem agg_mix {K V : Type} (m : Bool) : Mix m (aggCall (K := K) (V := V)) := by
  refine ⟨fun op h => ⟨fun k f e => by subst e; exact h, fun k d f e => by subst e; exact h⟩,
    fun _ k => .inl fun op h hr => ?_⟩
  cases op <;> simp_all [aggCall, Op.removes]

theorem agg_safe {K V : Type} (op : Op K V) (h : aggCall op) : op.isSafe := by
  cases op <;> simp_all [aggCall, Op.isSafe]

theorem aggAdds_quiet : Quiet aggAdds := by
  intro a i o b h
  rcases a with _ | ⟨x, _ | ⟨y, _ | ⟨z, _ | ⟨w, a⟩⟩⟩⟩ <;>
    simp only [aggAdds, List.nil_append, List.cons_append, List.cons.injEq, reduceCtorEq, false_and, and_false,
      List.nil_eq, List.append_eq_nil_iff, Ev.call.injEq] at h
  · obtain ⟨⟨rfl, rfl⟩, rfl⟩ := h; exact ⟨_, _, by simp; exact ⟨rfl, rfl⟩⟩
  · obtain ⟨-, ⟨rfl, rfl⟩, rfl⟩ := h; exact ⟨_, _, by simp; exact ⟨rfl, rfl⟩⟩

/-- **C77, not vacuous for tables of fixed size**: two threads add 1 to the same key; the key is looked up afterwards and
shows 2; the benchmark finds the sum 2. -/
theorem C77_bounded_not_vacuous : ∃ (l : List (TEv Bool Nat UInt64)) (s : CSt Bool Nat UInt64),
    Exec (CStep exE aggCall) CSt.init l s ∧ visible l = aggAdds ++ aggLook ∧ Only (Adding u64 1) (visible l) ∧
    Quiet aggAdds ∧ callSum viewB.isAdd aggAdds = 2 ∧ retSum (viewB.oneDone 1) aggAdds = 2 ∧
    (∀ i o, Ev.call i o ∈ aggAdds → ∃ k ∈ [1], o = .insertOrUpdate k 1 (addFn u64 1)) ∧
    (∀ i o, Ev.call i o ∈ aggLook → ∃ k, o = .find k) ∧
    (∀ k ∈ [1], ∃ i r, Ev.ret i (.find k) r ∈ aggLook ∧ r.shown = some 2) ∧ (valsum [[some 2], []]).toNat = 2 := by
  have hrun : (runSched exE (aggSched u64 1) CSt.init).map (fun x => visible x.1) = some (aggAdds ++ aggLook) := by rfl
  cases e : runSched exE (aggSched u64 1) CSt.init with
  | none => rw [e] at hrun; cases hrun
  | some x =>
    obtain ⟨l, s⟩ := x
    rw [e] at hrun
    simp only [Option.map_some, Option.some.injEq] at hrun
    have hX := runSched_sound (ok := aggCall) (aggSched u64 1) [] CSt.init s l (by
      simp [aggSched, Sched.allowed, aggCall]) .init e
    simp only [List.nil_append] at hX
    refine ⟨l, s, hX, hrun, ?_, aggAdds_quiet, rfl, rfl, ?_, ?_, ?_, rfl⟩
    · rw [hrun]
      intro i o hm hk
      simp only [aggAdds, aggLook, List.cons_append, List.nil_append, List.mem_cons, List.not_mem_nil, or_false,
        reduceCtorEq, false_or, Ev.call.injEq] at hm
      rcases hm with ⟨-, rfl⟩ | ⟨-, rfl⟩ | ⟨-, rfl⟩
      · exact .inr ⟨1, rfl⟩
      · exact .inr ⟨1, rfl⟩
      · exact .inl rfl
    · intro i o hm
      simp only [aggAdds, List.mem_cons, List.not_mem_nil, or_false, reduceCtorEq, Ev.call.injEq] at hm
      rcases hm with ⟨-, rfl⟩ | ⟨-, rfl⟩ <;> exact ⟨1, by simp, rfl⟩
    · intro i o hm
      simp only [aggLook, List.mem_cons, List.not_mem_nil, or_false, reduceCtorEq, Ev.call.injEq] at hm
      exact ⟨1, hm.2⟩
    · intro k hk
      simp only [List.mem_singleton] at hk
      subst hk
      exact ⟨true, _, by simp [aggLook]; rfl, rfl⟩

/-! ### Synchronised growth -/

open Sync in
/-- A thread alone in an operation, with the memory it leaves. -/
theorem solo_keep {T A K V : Type} [DecidableEq T] [DecidableEq A] [DecidableEq K] [DecidableEq V] [Inhabited V]
    {u : Bool} {ok : Op K V → Prop} {s0 : DSt T A K V} {t : T} {h : Hd} {a : A} {v : Nat}
    {o : Sync.Obj A} {op : Op K V} {g : Tbl K V} {r : Ret K V} {x : SRes V} (hx : answer op r = some x) :
    ∀ n pc l (s : DSt T A K V), Exec (DStepW u ok) s0 l s → s.small → s.p.pc t = .op h a v →
    s.p.heap a = some o → o.ver = v → s.thr t = .busy op pc →
    run (s.env a) op n pc (published (s.mem a)) = .done g r →
    ∃ mem : A → MTbl K V, published (mem a) = g ∧ Exec (DStepW u ok) s0 (l ++ [.lin t op x])
        { s with mem := mem, thr := setAt s.thr t (.fin op x) } := by
  intro n
  induction n with
  | zero => intro pc l s _ _ _ _ _ _ hr; cases hr
  | succ n ih =>
    intro pc l s hX hsm hp ho hv ht hr
    have hop := Step.opStep (shells := false) hp ho hv
    unfold run at hr
    rcases hst : Growt.step (s.env a) op pc (published (s.mem a)) with ⟨g1, out⟩
    rw [hst] at hr
    cases out with
    | oob => cases hr
    | done r1 =>
      cases hr
      exact ⟨Sync.upd s.mem a (store (s.mem a) g), by simp [Sync.upd, published_store],
        hX.vis ⟨.opLin hop ht hst hx, DSt.small.within hsm⟩⟩
    | cont pc1 =>
      have h1 := hX.silent ⟨.op hop ht hst, DSt.small.within hsm⟩
      obtain ⟨mem, h2, h3⟩ := ih pc1 l _ h1 hsm hp ho hv (setAt_same ..)
        (by simpa [Sync.upd, published_store] using hr)
      have e : ∀ x y : UThr K V, setAt (setAt s.thr t x) t y = setAt s.thr t y := by
        intro x y; funext z; unfold setAt; split <;> rfl
      simp only [e] at h3
      exact ⟨mem, h2, h3⟩

open Sync in
/-- Thread 0 carries out an operation while nobody else does anything. -/
theorem op_keep {a v : Nat} {e : Int} {heap : Nat → Option (Sync.Obj Nat)} {s0 s : DSt Nat Nat Nat Nat}
    {l : List (Ev Nat (Op Nat Nat) (SRes Nat))}
    {o : Sync.Obj Nat} {op : Op Nat Nat} {g : Tbl Nat Nat} {r : Ret Nat Nat} {x : SRes Nat} (n : Nat)
    (hX : Exec (DStepW false exOk) s0 l s) (hsm : s.small) (hp : s.p = calm a e heap)
    (ho : heap a = some o) (_hv : o.ver = v) (ht : s.thr 0 = .idle) (hop : exOk op)
    (hr : run (s.env a) op n (Growt.start (s.env a) op) (published (s.mem a)) = .done g r)
    (hx : answer op r = some x) :
    ∃ mem, published (mem a) = g ∧ Exec (DStepW false exOk) s0 (l ++ [.call 0 op] ++ [.lin 0 op x] ++ [.ret 0 op x])
      { s with mem := mem } := by
  obtain ⟨p, env, mem, torn, jobs, thr⟩ := s
  simp only at hp ht hr
  subst hp
  have ee : ∀ y z : UThr Nat Nat, setAt (setAt thr 0 y) 0 z = setAt thr 0 z := by
    intro y z; funext w; unfold setAt; split <;> rfl
  have h1 := hX.vis ⟨.call (t := 0) (h := ⟨0, false⟩) (op := op) rfl ht hop, DSt.small.within hsm⟩
  have h2 := quietX h1 hsm (Step.call (t := 0) rfl)
  have h3 := quietX h2 hsm (Step.gtLoad (t := 0) rfl rfl)
  have h4 := quietX h3 hsm (Step.gtStore (t := 0) rfl)
  have h5 := h4.silent ⟨.enter (op := op) (Step.gtSame (t := 0) rfl rfl ho) (setAt_same thr 0 _),
    DSt.small.within hsm⟩
  obtain ⟨mem', hm, h6⟩ := solo_keep (t := 0) (a := a) (g := g) (r := r) hx n _ _ _ h5 hsm rfl ho rfl
    (setAt_same (setAt thr 0 (.pend op)) 0 _) hr
  simp only [ee] at h6
  have h7 := h6.silent ⟨.exit (Step.opEnd (t := 0) rfl .plain) (.inr ⟨op, x, setAt_same thr 0 _⟩)
    (by decide), DSt.small.within hsm⟩
  have h8 := h7.vis ⟨.ret (t := 0) (h := ⟨0, false⟩) rfl (setAt_same thr 0 _), DSt.small.within hsm⟩
  simp only [ee] at h8
  refine ⟨mem', hm, ?_⟩
  have e1 : setAt thr 0 UThr.idle = thr := by
    funext w; unfold setAt; split
    · rename_i hw; rw [hw]; exact ht.symm
    · rfl
  rw [e1] at h8
  refine normX h8 (calm_eq rfl rfl rfl rfl (fun i => ?_) (fun _ => rfl) rfl (fun t => ?_) rfl)
  · simp only [St.at, calm, upd]; split <;> rfl
  · simp only [St.at, calm, upd, Exit.next]; (repeat' split) <;> simp_all

/-- The additions in the example of the growing tables. (model bookkeeping, no code) -/
def growAdds (m : Bool) : List (Ev Nat (Op Nat Nat) (SRes Nat)) :=
  [.call 0 (.insertOrUpdate 7 2 (addFn nat 2)), .ret 0 (.insertOrUpdate 7 2 (addFn nat 2)) ⟨true, some 2⟩,
   .call 0 (.insertOrUpdate 7 3 (addFn nat 3)), .ret 0 (.insertOrUpdate 7 3 (addFn nat 3)) ⟨false, some (if m then 5 else 2)⟩]

/-- The look-up in the example of the growing tables. (model bookkeeping, no code) -/
def growLook : List (Ev Nat (Op Nat Nat) (SRes Nat)) := [.call 0 (.find 7), .ret 0 (.find 7) ⟨true, some 5⟩]

theorem growAdds_quiet (m : Bool) : Quiet (growAdds m) := by
  intro a i o b h
  rcases a with _ | ⟨x, _ | ⟨y, _ | ⟨z, _ | ⟨w, a⟩⟩⟩⟩ <;>
    simp only [growAdds, List.nil_append, List.cons_append, List.cons.injEq, reduceCtorEq, false_and, and_false,
      List.nil_eq, List.append_eq_nil_iff, Ev.call.injEq] at h
  · obtain ⟨⟨rfl, rfl⟩, rfl⟩ := h; exact ⟨_, _, List.mem_cons_self ..⟩
  · obtain ⟨-, -, ⟨rfl, rfl⟩, rfl⟩ := h; exact ⟨_, _, List.mem_cons_self ..⟩

theorem grow_only (m : Bool) : Only (Adding nat 7) (growAdds m ++ growLook) := by
  intro i o hm hk
  simp only [growAdds, growLook, List.cons_append, List.nil_append, List.mem_cons, List.not_mem_nil, or_false,
    reduceCtorEq, false_or, Ev.call.injEq] at hm
  rcases hm with ⟨-, rfl⟩ | ⟨-, rfl⟩ | ⟨-, rfl⟩
  · exact .inr ⟨2, rfl⟩
  · exact .inr ⟨3, rfl⟩
  · exact .inl rfl

/-- The table with 2 or 5 at key 7. (model bookkeeping, no code) -/
def tab7 (w : Nat) : Tbl Nat Nat := fun q => if q = 7 then ⟨false, .live 7 w⟩ else Cell.emptyCell

theorem tab7_set (t : Tbl Nat Nat) (w : Nat) (h : ∀ q, q ≠ 7 → t q = Cell.emptyCell) :
    t.set 7 ⟨false, .live 7 w⟩ = tab7 w := by
  funext q
  simp only [Tbl.set, tab7]
  split
  · rfl
  · exact h q ‹_›

/-- The second addition finds the entry of the first one (proof, no code). -/
theorem run7_up : run exE (Op.insertOrUpdate 7 3 (addFn nat 3)) 5 (start exE (Op.insertOrUpdate 7 3 (addFn nat 3)))
    (tab7 2) = .done (tab7 5) ⟨some .SUCCESS_UP, some (7, ⟨false, .live 7 2⟩)⟩ := by
  rw [← tab7_set (tab7 2) 5 (fun q hq => by simp [tab7, hq])]
  with_unfolding_all rfl

/-- A search finds the sum of both (proof, no code). -/
theorem run7_find : run exE (Op.find 7) 5 (start exE (Op.find 7)) (tab7 5) =
    .done (tab7 5) ⟨none, some (7, ⟨false, .live 7 5⟩)⟩ := by
  with_unfolding_all rfl

open Sync in
/-- **C77, not vacuous for synchronised growth**: 2 and 3 are added to key 7, which shows 5 then. -/
theorem C77_sync_not_vacuous : ∃ (l : List (Ev Nat (Op Nat Nat) (SRes Nat))) (s : DSt Nat Nat Nat Nat),
    Exec (DStepW false exOk) (DSt.init exE 0) l s ∧ visible l = growAdds false ++ growLook ∧
    Only (Adding nat 7) (visible l) ∧ Quiet (growAdds false) ∧
    retSum (viewG.amountDone nat 7) (growAdds false) = 5 := by
  have ok7 : ∀ v, exOk (.insertOrUpdate 7 v (addFn nat v)) := by
    intro v
    refine ⟨trivial, ?_, ?_⟩
    · intro k h; rcases h with h | ⟨_, h⟩ <;> cases h
    · intro k h; rcases h with ⟨_, h⟩ | ⟨_, _, h⟩ | ⟨_, _, h⟩ <;> cases h; rfl
  have okf : exOk (.find 7) := by
    refine ⟨trivial, ?_, ?_⟩
    · intro k h; rcases h with h | ⟨_, h⟩ <;> cases h
    · intro k h; rcases h with ⟨_, h⟩ | ⟨_, _, h⟩ | ⟨_, _, h⟩ <;> cases h
  have hsm : ∀ p mem, DSt.small { start0 with p := p, mem := mem } := fun p _ _ => exE_small
  have h0 := two_handlesX
  have hm0 : published (start0.mem 0) = fun _ => Cell.emptyCell := by
    funext q
    show (if q < exE.M.total then some Cell.emptyCell else none).getD _ = _
    split <;> rfl
  obtain ⟨m1, e1, h1⟩ := op_keep (x := ⟨true, some 2⟩) 5 h0 (hsm _ _) rfl rfl rfl rfl (ok7 2)
    (g := tab7 2) (r := ⟨some .SUCCESS_IN, some (7, ⟨false, .live 7 2⟩)⟩)
    (by
      show run exE _ 5 _ (published (start0.mem 0)) = _
      rw [hm0, ← tab7_set (fun _ => Cell.emptyCell) 2 (fun _ _ => rfl)]; rfl) rfl
  obtain ⟨m2, e2, h2⟩ := op_keep (x := ⟨false, some 2⟩) 5 h1 (hsm _ _) rfl rfl rfl rfl (ok7 3)
    (g := tab7 5) (r := ⟨some .SUCCESS_UP, some (7, ⟨false, .live 7 2⟩)⟩)
    (by
      show run exE _ 5 (start exE _) (published (m1 0)) = _
      rw [e1]; exact run7_up) (by with_unfolding_all rfl)
  obtain ⟨m3, e3, h3⟩ := op_keep (x := ⟨true, some 5⟩) 5 h2 (hsm _ _) rfl rfl rfl rfl okf
    (g := tab7 5) (r := ⟨none, some (7, ⟨false, .live 7 5⟩)⟩)
    (by
      show run exE _ 5 (start exE _) (published (m2 0)) = _
      rw [e2]; exact run7_find) (by with_unfolding_all rfl)
  refine ⟨_, _, h3, rfl, grow_only false, growAdds_quiet false, rfl⟩

/-! ### Asynchronous growth -/

open Async in
/-- **C77, not vacuous for asynchronous growth**: the same. -/
theorem C77_async_not_vacuous : ∃ s : Async.DSt Nat Nat Nat Nat,
    Exec (Async.DStepW false aggCall) (Async.DSt.init exM 0) (growAdds true ++ growLook) s ∧
    Only (Adding nat 7) (growAdds true ++ growLook) ∧ Quiet (growAdds true) ∧
    retSum (viewG.amountDone nat 7) (growAdds true) = 5 := by
  have k : ∀ a : Nat, (exM.M.cp = false) ∧ exM.M.addr < 2 ^ 32 := fun _ => exM_small
  obtain ⟨s, h, hA, hH, -⟩ := part_a1 false true aggCall
  obtain ⟨s1, h1, hA1, hH1, -⟩ := enterX h hA hH k (fun _ => rfl) (op := .insertOrUpdate 7 2 (addFn nat 2)) trivial
  obtain ⟨s2, h2, hA2, hH2, -⟩ := (opX0 h1 hA1 hH1 k (fun _ => rfl)
    (g := fun _ => Cell.emptyCell) (out := .cont (.act 7 0 Cell.emptyCell)) rfl).1 _ rfl
  obtain ⟨s3, h3, hA3, hH3, -⟩ := (opX0 h2 hA2 hH2 k (fun _ => rfl)
    (g := tab7 2) (out := .done ⟨some .SUCCESS_IN, some (7, ⟨false, .live 7 2⟩)⟩) (by
      rw [← tab7_set (fun _ => Cell.emptyCell) 2 (fun _ _ => rfl)]; rfl)).2 _ ⟨true, some 2⟩ rfl rfl
  obtain ⟨s4, h4, hA4, hH4, -⟩ := enterX h3 hA3 hH3 k (fun _ => rfl) (op := .insertOrUpdate 7 3 (addFn nat 3)) trivial
  obtain ⟨s5, h5, hA5, hH5, -⟩ := (opX0 h4 hA4 hH4 k (fun _ => rfl)
    (g := tab7 2) (out := .cont (.act 7 0 ⟨false, .live 7 2⟩)) rfl).1 _ rfl
  obtain ⟨s6, h6, hA6, hH6, -⟩ := (opX0 h5 hA5 hH5 k (fun _ => rfl)
    (g := tab7 5) (out := .done ⟨some .SUCCESS_UP, some (7, ⟨false, .live 7 5⟩)⟩) (by
      rw [← tab7_set (tab7 2) 5 (fun q hq => by simp [tab7, hq])]
      with_unfolding_all rfl)).2 _ ⟨false, some 5⟩ rfl rfl
  obtain ⟨s7, h7, hA7, hH7, -⟩ := enterX h6 hA6 hH6 k (fun _ => rfl) (op := .find 7) trivial
  obtain ⟨s8, h8, hA8, hH8, -⟩ := (opX0 h7 hA7 hH7 k (fun _ => rfl)
    (g := tab7 5) (out := .done ⟨none, some (7, ⟨false, .live 7 5⟩)⟩) rfl).2 _ ⟨true, some 5⟩ rfl rfl
  exact ⟨s8, h8.mono (fun _ _ _ => XStep.stepW), grow_only true, growAdds_quiet true, rfl⟩

end Growt.Agg
