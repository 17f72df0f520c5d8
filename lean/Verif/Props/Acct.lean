import Verif.Acct
import Verif.Props.Agg

/-!
# C78, C79, C80: one key at a time

C78: insertions and erasures of a key alternate.  C79: calls on a key that do not overlap behave like calls of a
single thread, whatever happens to other keys.  C80: what all calls keep true of the values of a key is true of every
value shown.
-/

set_option linter.unusedSectionVars false
set_option linter.unusedSimpArgs false

namespace Growt.Agg

section
variable {T A K V : Type} [DecidableEq T] [DecidableEq A] [Inhabited A] [DecidableEq K] [DecidableEq V]

/-! ## Ideal maps -/

/-- The books of an ideal map. (specification, no code) -/
def bookS : Book (SOp K V) (SRes V) K V where
  put := fun o => match o with | .insert k _ | .insertOrModify k _ _ => some k | _ => none
  take := fun o => match o with | .erase k | .eraseIf k _ => some k | _ => none
  won := fun _ r => r.ok
  look := fun o => match o with | .find k => some k | _ => none
  shown := fun r => r.shown

theorem sem_frame (o : SOp K V) (d : Dict K V) {k : K} (h : o.key ≠ k) : (o.sem d).1 k = d k := by
  cases o <;> simp only [SOp.key] at h <;> simp only [SOp.sem] <;> (try split) <;>
    simp [Dict.put, Dict.del, Ne.symm h]

theorem sem_move (o : SOp K V) {d e : Dict K V} (h : e o.key = d o.key) :
    o.sem e = (Dict.at e o.key ((o.sem d).1 o.key), (o.sem d).2) := by
  have same : ∀ k, e k = d k → Dict.at e k (d k) = e := fun k hk => funext fun k' => by
    unfold Dict.at; split
    · rename_i h; rw [h, hk]
    · rfl
  have put : ∀ k w, Dict.at e k ((d.put k w) k) = e.put k w := fun k w => funext fun k' => by
    simp [Dict.at, Dict.put]
  have del : ∀ k, Dict.at e k ((d.del k) k) = e.del k := fun k => funext fun k' => by
    simp [Dict.at, Dict.del]
  cases o <;> simp only [SOp.key] at h <;> simp only [SOp.sem, SOp.key, h] <;> (try split) <;>
    simp only [put, del, same _ h]

theorem sem_book (o : SOp K V) (d : Dict K V) (k : K) :
    pres ((o.sem d).1 k) + (if (o.sem d).2.ok then bookS.mayTake k o else 0) =
      pres (d k) + (if (o.sem d).2.ok then bookS.mayPut k o else 0) := by
  by_cases hk : o.key = k
  · subst hk
    cases o with
    | eraseIf k v =>
      simp only [SOp.sem, SOp.key]
      by_cases h : d k = some v
      · simp [h, pres, Dict.del, Book.mayTake, Book.mayPut, bookS]
      · simp [h]
    | find k | insert k v | modify k g | insertOrModify k v g | erase k =>
      simp only [SOp.sem, SOp.key]
      rcases Option.eq_none_or_eq_some (d k) with hd | ⟨w, hd⟩ <;> simp [hd, pres, Dict.put, Dict.del, Book.mayTake, Book.mayPut, bookS]
  · rw [sem_frame o d hk]
    cases o <;> simp only [SOp.key] at hk <;> simp [Book.mayTake, Book.mayPut, bookS, hk]

/-- A call as a call on an ideal map, or a refusal. -/
theorem like_step {O R : Type} {W : Book O R K V} {o : O} {r : R} {d d' : Dict K V} {k : K}
    (h : (∃ o' : SOp K V, W.put o = bookS.put o' ∧ W.take o = bookS.take o' ∧ d' = (o'.sem d).1 ∧
        (W.put o ≠ none ∨ W.take o ≠ none → W.won o r = (o'.sem d).2.ok)) ∨ (d' = d ∧
        (W.put o ≠ none ∨ W.take o ≠ none → W.won o r = false))) :
    pres (d' k) + W.hasTaken k o r = pres (d k) + W.hasPut k o r := by
  rcases h with ⟨o', h1, h2, rfl, h4⟩ | ⟨rfl, h2⟩
  · have := sem_book o' d k
    have e1 : W.mayTake k o = bookS.mayTake k o' := by simp [Book.mayTake, h2]
    have e2 : W.mayPut k o = bookS.mayPut k o' := by simp [Book.mayPut, h1]
    unfold Book.hasTaken Book.hasPut
    rw [e1, e2]
    by_cases hc : W.put o ≠ none ∨ W.take o ≠ none
    · rw [h4 hc]; exact this
    · have hp : W.put o = none := Classical.byContradiction fun h => hc (.inl h)
      have ht : W.take o = none := Classical.byContradiction fun h => hc (.inr h)
      have z1 : bookS.mayTake k o' = 0 := by rw [← e1]; simp [Book.mayTake, ht]
      have z2 : bookS.mayPut k o' = 0 := by rw [← e2]; simp [Book.mayPut, hp]
      rw [z1, z2] at this ⊢
      simpa using this
  · unfold Book.hasTaken Book.hasPut
    by_cases hc : W.put o ≠ none ∨ W.take o ≠ none
    · rw [h2 hc]; simp
    · have hp : W.put o = none := Classical.byContradiction fun h => hc (.inl h)
      have ht : W.take o = none := Classical.byContradiction fun h => hc (.inr h)
      simp [Book.mayTake, Book.mayPut, hp, ht]

/-! ## The calls of the tables -/

/-- The key a call may insert (`base_linear.hpp:192-243`). -/
def putOf : Op K V → Option K
  | .insert k _ | .insertOrUpdate k _ _ | .insertOrUpdateUnsafe k _ _ => some k
  | _ => none

/-- The key a call may erase (`base_linear.hpp:192-243`). -/
def takeOf : Op K V → Option K
  | .erase k | .eraseIf k _ => some k
  | _ => none

/-- Tables of fixed size: the boolean of the result (`base_linear.hpp:918-1064`). -/
def bookB : Book (Op K V) (Ret K V) K V := ⟨putOf, takeOf, fun o r => r.ok o, lookOf, Ret.shown⟩

/-- Growing tables: the boolean of the result (`migration_table.hpp:590-1000`). -/
def bookG : Book (Op K V) (SRes V) K V := ⟨putOf, takeOf, fun _ r => r.ok, lookOf, SRes.shown⟩

theorem putOf_spec (m : Bool) (op : Op K V) : putOf op = bookS.put (op.toSpec m) := by cases op <;> rfl

theorem takeOf_spec (m : Bool) (op : Op K V) : takeOf op = bookS.take (op.toSpec m) := by cases op <;> rfl

theorem refused_ok {op : Op K V} {c : ReturnCode} (h : op.mayRefuse c) : (⟨some c, none⟩ : Ret K V).ok op = false := by
  cases op <;> simp only [Op.mayRefuse] at h <;> first | exact h.elim | (subst h; rfl) | (obtain ⟨rfl, -⟩ := h; rfl)

theorem keeperB (m : Bool) (k : K) : Keeper (boundedObj m) (bookB (K := K) (V := V)) k where
  init := rfl
  step := by
    intro d d' o r h
    refine like_step ?_
    rcases h with ⟨rfl, h, -⟩ | ⟨c, hc, rfl, rfl, -⟩
    · exact .inl ⟨_, putOf_spec m o, takeOf_spec m o, rfl, fun _ => h⟩
    · exact .inr ⟨rfl, fun _ => refused_ok hc⟩
  looks := by
    intro d d' o r hl hk
    have := lookOf_some hk
    subst this
    rcases hl with ⟨-, -, h3⟩ | ⟨c, h, -⟩
    · rcases h3 with ⟨⟨_, _, h⟩, -⟩ | h3
      · cases h
      · exact congrArg Option.isSome h3
    · exact absurd h (by simp [Op.mayRefuse])

theorem keeperG (m : Bool) (k : K) : Keeper (Sync.growObj m) (bookG (K := K) (V := V)) k where
  init := rfl
  step := by
    intro d d' o r h
    refine like_step ?_
    rcases h with ⟨rfl, h, -⟩ | ⟨⟨k', f, b, n, rfl, -⟩, rfl, rfl⟩
    · exact .inl ⟨_, putOf_spec m o, takeOf_spec m o, rfl, fun _ => h⟩
    · exact .inr ⟨rfl, fun _ => rfl⟩
  looks := by
    intro d d' o r hl hk
    have := lookOf_some hk
    subst this
    rcases hl with ⟨-, -, h3⟩ | ⟨⟨_, _, _, _, h, -⟩, -⟩
    · rcases h3 with ⟨⟨_, _, h⟩, -⟩ | h3
      · cases h
      · exact congrArg Option.isSome h3
    · cases h

theorem sem_local {m : Bool} {o : Op K V} {d e : Dict K V} (he : e o.key = d o.key) :
    ((o.toSpec m).sem e).1 = Dict.at e o.key (((o.toSpec m).sem d).1 o.key) ∧
      ((o.toSpec m).sem e).2 = ((o.toSpec m).sem d).2 := by
  have hk : (o.toSpec m).key = o.key := by cases o <;> rfl
  have := sem_move (o.toSpec m) (d := d) (e := e) (by rw [hk]; exact he)
  rw [this, hk]; exact ⟨rfl, rfl⟩

theorem Dict.at_same {d : Dict K V} {k : K} {x : Option V} (h : d k = x) : Dict.at d k x = d :=
  funext fun k' => by
    unfold Dict.at; split
    · rename_i e; rw [e, h]
    · rfl

theorem localB (m : Bool) : Local (boundedObj (K := K) (V := V) m) Op.key where
  frame := by
    intro d d' o r k h hk
    rcases h with ⟨rfl, -⟩ | ⟨c, -, -, rfl, -⟩
    · exact key_sem hk d
    · rfl
  move := by
    intro d d' o r e h he
    rcases h with ⟨rfl, h⟩ | ⟨c, hc, rfl, rfl, h⟩
    · obtain ⟨h1, h2⟩ := sem_local (m := m) he
      exact .inl ⟨h1.symm, by rw [h2]; exact h⟩
    · exact .inr ⟨c, hc, rfl, Dict.at_same he, fun hf => he.trans (h hf)⟩

theorem localG (m : Bool) : Local (Sync.growObj (K := K) (V := V) m) Op.key where
  frame := by
    intro d d' o r k h hk
    rcases h with ⟨rfl, -⟩ | ⟨-, -, rfl⟩
    · exact key_sem hk d
    · rfl
  move := by
    intro d d' o r e h he
    rcases h with ⟨rfl, h⟩ | ⟨h1, h2, rfl⟩
    · obtain ⟨h1, h2⟩ := sem_local (m := m) he
      exact .inl ⟨h1.symm, by rw [h2]; exact h⟩
    · exact .inr ⟨h1, h2, Dict.at_same he⟩

/-- Tables of machine words (`base_linear.hpp:918-1064`). -/
def bookW (m : Bool) (b : Nat) : Book (Op Nat V) (Words.WRet V) Nat V :=
  ⟨putOf, takeOf, fun o r => r.ok o, lookOf, fun r => (r.shown m b).map Prod.snd⟩

theorem refusedW_ok {op : Op Nat V} {c : ReturnCode} (h : op.mayRefuse c) :
    (⟨some c, none⟩ : Words.WRet V).ok op = false := by
  cases op <;> simp only [Op.mayRefuse] at h <;> first | exact h.elim | (subst h; rfl) | (obtain ⟨rfl, -⟩ := h; rfl)

theorem keeperW (m : Bool) (b k : Nat) : Keeper (Words.wordObj m b) (bookW (V := V) m b) k where
  init := rfl
  step := by
    intro d d' o r h
    refine like_step ?_
    rcases h with ⟨rfl, h, -⟩ | ⟨c, hc, rfl, rfl, -⟩
    · exact .inl ⟨_, putOf_spec m o, takeOf_spec m o, rfl, fun _ => h⟩
    · exact .inr ⟨rfl, fun _ => refusedW_ok hc⟩
  looks := by
    intro d d' o r hl hk
    have := lookOf_some hk
    subst this
    rcases hl with ⟨-, -, h3⟩ | ⟨c, h, -⟩
    · rcases h3 with ⟨⟨_, _, h⟩, -⟩ | h3
      · cases h
      · show ((r.shown m b).map Prod.snd).isSome = _
        rw [h3]
        simp [Op.toSpec, SOp.sem]
    · exact absurd h (by simp [Op.mayRefuse])

theorem localW (m : Bool) (b : Nat) : Local (Words.wordObj (V := V) m b) Op.key where
  frame := by
    intro d d' o r k h hk
    rcases h with ⟨rfl, -⟩ | ⟨c, -, -, rfl, -⟩
    · exact key_sem hk d
    · rfl
  move := by
    intro d d' o r e h he
    rcases h with ⟨rfl, h⟩ | ⟨c, hc, rfl, rfl, h⟩
    · obtain ⟨h1, h2⟩ := sem_local (m := m) he
      exact .inl ⟨h1.symm, by rw [h2]; exact h⟩
    · exact .inr ⟨c, hc, rfl, Dict.at_same he, fun hf => he.trans (h hf)⟩

/-- Tables with transactions (`tsx_circular.hpp:91-105, 448-889`). -/
def bookT : Book (Tsx.Call K V) (Tsx.Ret K V) K V where
  put := fun o => match o with | .insert k _ | .insertOrUpdate k _ _ => some k | _ => none
  take := fun o => match o with | .erase k => some k | _ => none
  won := fun o r => r.ok o
  look := fun o => match o with | .find k => some k | _ => none
  shown := Tsx.Ret.shown

theorem meanings_key {op : Tsx.Call K V} {o : SOp K V} (h : o ∈ op.meanings) :
    o.key = op.key ∧ bookT.put op = bookS.put o ∧ bookT.take op = bookS.take o := by
  cases op <;> simp only [Tsx.Call.meanings, List.mem_cons, List.not_mem_nil, or_false] at h
  case update => rcases h with rfl | rfl <;> exact ⟨rfl, rfl, rfl⟩
  case insertOrUpdate => rcases h with rfl | rfl <;> exact ⟨rfl, rfl, rfl⟩
  all_goals (subst h; exact ⟨rfl, rfl, rfl⟩)

theorem keeperT (k : K) : Keeper Tsx.idealObj (bookT (K := K) (V := V)) k where
  init := rfl
  step := by
    intro d d' o r h
    obtain ⟨o', ho, rfl, h, -⟩ := Tsx.legal_any h
    obtain ⟨-, h1, h2⟩ := meanings_key ho
    exact like_step (.inl ⟨o', h1, h2, rfl, fun _ => h⟩)
  looks := by
    intro d d' o r hl hk
    cases o <;> simp [bookT] at hk
    subst hk
    obtain ⟨o', ho, -, -, h⟩ := Tsx.legal_any hl
    simp only [Tsx.Call.meanings, List.mem_cons, List.not_mem_nil, or_false] at ho
    subst ho
    exact congrArg Option.isSome h

theorem localT : Local (Tsx.idealObj (K := K) (V := V)) Tsx.Call.key where
  frame := by
    intro d d' o r k h hk
    obtain ⟨o', ho, rfl, -⟩ := Tsx.legal_any h
    exact sem_frame o' d (by rw [(meanings_key ho).1]; exact hk)
  move := by
    intro d d' o r e h he
    obtain ⟨rfl, h1, h2⟩ := h
    have hk := (meanings_key (o.meaning_mem r.committed)).1
    have := sem_move (o.meaning r.committed) (d := d) (e := e) (by rw [hk]; exact he)
    rw [← hk] at he ⊢
    exact ⟨by rw [this], by rw [this]; exact h1, by rw [this]; exact h2⟩

/-- Tables of heap allocated elements; erasing is excluded there (`base_linear.hpp:918-1064`). -/
def bookH : Book (HeapVal.HOp K V) (HeapVal.HRes V) K V where
  put := fun o => match o with | .insert k _ | .insertOrUpdate k _ _ => some k | _ => none
  take := fun _ => none
  won := fun _ x => x.ok
  look := fun o => match o with | .find k => some k | _ => none
  shown := fun x => x.shown

theorem localH (full : Bool) : Local (HeapVal.valObj (K := K) (V := V) full) HeapVal.HOp.key where
  frame := by
    intro d d' o r k h hk
    cases o <;> simp only [HeapVal.HOp.key] at hk <;> simp only [HeapVal.valObj] at h
    case find => rw [h.1]
    all_goals
      split at h
      · rw [h.1]; try simp [Dict.put, Ne.symm hk]
      · first
        | (rcases h with ⟨rfl, -⟩ | ⟨-, rfl, -⟩ <;> simp [Dict.put, Ne.symm hk])
        | rw [h.1]
  move := by
    intro d d' o r e h he
    have put : ∀ k w, Dict.at e k ((d.put k w) k) = e.put k w := fun k w => funext fun k' => by
      simp [Dict.at, Dict.put]
    cases o with
    | find k =>
      obtain ⟨rfl, rfl⟩ := h
      exact ⟨Dict.at_same he, by rw [show d' k = e k from he.symm]⟩
    | insert k v =>
      simp only [HeapVal.HOp.key] at he ⊢
      simp only [HeapVal.valObj, he] at h ⊢
      split at h
      · rename_i w hw
        obtain ⟨rfl, rfl⟩ := h
        rw [hw] at he ⊢
        exact ⟨Dict.at_same he, rfl⟩
      · rename_i hw
        rw [hw] at he
        rcases h with ⟨rfl, rfl⟩ | ⟨hf, rfl, rfl⟩
        · exact .inl ⟨put k v, rfl⟩
        · exact .inr ⟨hf, by rw [hw]; exact Dict.at_same he, rfl⟩
    | update k f =>
      simp only [HeapVal.HOp.key] at he ⊢
      simp only [HeapVal.valObj, he] at h ⊢
      split at h
      · rename_i w hw
        obtain ⟨rfl, rfl⟩ := h
        exact ⟨put k _, rfl⟩
      · rename_i hw
        obtain ⟨rfl, rfl⟩ := h
        rw [hw] at he ⊢
        exact ⟨Dict.at_same he, rfl⟩
    | insertOrUpdate k v f =>
      simp only [HeapVal.HOp.key] at he ⊢
      simp only [HeapVal.valObj, he] at h ⊢
      split at h
      · rename_i w hw
        obtain ⟨rfl, rfl⟩ := h
        exact ⟨put k _, rfl⟩
      · rename_i hw
        rw [hw] at he
        rcases h with ⟨rfl, rfl⟩ | ⟨hf, rfl, rfl⟩
        · exact .inl ⟨put k v, rfl⟩
        · exact .inr ⟨hf, by rw [hw]; exact Dict.at_same he, rfl⟩

theorem keeperH (full : Bool) (k : K) : Keeper (HeapVal.valObj full) (bookH (K := K) (V := V)) k where
  init := rfl
  step := by
    intro d d' o r h
    by_cases hk : o.key = k
    · subst hk
      have ht : bookH.hasTaken o.key o r = 0 := by simp [Book.hasTaken, Book.mayTake, bookH]
      rw [ht]
      cases o with
      | find k => obtain ⟨rfl, rfl⟩ := h; simp [Book.hasPut, Book.mayPut, bookH]
      | insert k v =>
        simp only [HeapVal.valObj, HeapVal.HOp.key] at h ⊢
        split at h
        · rename_i w hw
          obtain ⟨rfl, rfl⟩ := h; simp [Book.hasPut, Book.mayPut, bookH]
        · rename_i hw
          rcases h with ⟨rfl, rfl⟩ | ⟨hf, rfl, rfl⟩ <;>
            simp [Book.hasPut, Book.mayPut, bookH, hw, pres, Dict.put]
      | update k f =>
        simp only [HeapVal.valObj, HeapVal.HOp.key] at h ⊢
        split at h
        · rename_i w hw
          obtain ⟨rfl, rfl⟩ := h; simp [Book.hasPut, Book.mayPut, bookH, hw, pres, Dict.put]
        · obtain ⟨rfl, rfl⟩ := h; simp [Book.hasPut, Book.mayPut, bookH]
      | insertOrUpdate k v f =>
        simp only [HeapVal.valObj, HeapVal.HOp.key] at h ⊢
        split at h
        · rename_i w hw
          obtain ⟨rfl, rfl⟩ := h; simp [Book.hasPut, Book.mayPut, bookH, hw, pres, Dict.put]
        · rename_i hw
          rcases h with ⟨rfl, rfl⟩ | ⟨hf, rfl, rfl⟩ <;>
            simp [Book.hasPut, Book.mayPut, bookH, hw, pres, Dict.put]
    · rw [(localH full).frame h hk]
      cases o <;> simp only [HeapVal.HOp.key] at hk <;>
        simp [Book.hasTaken, Book.hasPut, Book.mayPut, Book.mayTake, bookH, hk]
  looks := by
    intro d d' o r hl hk
    cases o <;> simp [bookH] at hk
    subst hk
    obtain ⟨-, rfl⟩ := hl
    rfl

theorem keeperS (k : K) : Keeper Wrap.mapObj (bookS (K := K) (V := V)) k where
  init := rfl
  step := by
    intro d d' o r h
    have h' : o.sem d = (d', r) := h
    exact like_step (.inl ⟨o, rfl, rfl, by rw [h'], fun _ => by rw [h']; rfl⟩)
  looks := by
    intro d d' o r hl hk
    cases o <;> simp [bookS] at hk
    subst hk
    have h' : (d, (⟨(d _).isSome, d _⟩ : SRes V)) = (d', r) := hl
    rw [← (Prod.mk.inj h').2]
    rfl

theorem localS : Local (Wrap.mapObj (K := K) (V := V)) SOp.key where
  frame := by
    intro d d' o r k h hk
    have h' : o.sem d = (d', r) := h
    have := sem_frame o d hk
    rw [h'] at this
    exact this
  move := by
    intro d d' o r e h he
    have h' : o.sem d = (d', r) := h
    have := sem_move o he
    rw [h'] at this
    exact this

variable [Inhabited V]

/-! ## C78: insertions and erasures of a key alternate -/

/-- **C78, tables of fixed size.**  At any time of any execution: at most one insertion of `k` more has been reported
successful than erasures of `k` have been called, and no more erasures than insertions have been called; look-ups agree
with that; and after all calls have returned a look-up finds `k` if and only if one insertion more than erasures has
been successful. -/
theorem C78_bounded {E : Env K} (hE : E.OK) {ok : Op K V → Prop} (hmix : Mix E.m ok) {l : List (TEv T K V)}
    {s : CSt T K V} (h : Exec (CStep E ok) CSt.init l s) (k : K) : Balanced bookB k (visible l) :=
  (keeperB E.m k).balanced (C02_linearizable_partial hE hmix h)

/-- **C78, synchronised growth.**  Missing: the executions excluded by `C30_linearizable_partial`. -/
theorem C78_sync_partial {u : Bool} {ok : Op K V → Prop} {E : Env K} (hE : E.OK)
    (hcombo : E.M.cm = true → E.M.cp = true) (hmix : Mix E.m ok) {a : A}
    {l : List (Ev T (Op K V) (SRes V))} {s : Sync.DSt T A K V}
    (h : Exec (Sync.DStepW u ok) (Sync.DSt.init E a) l s) (k : K) : Balanced bookG k (visible l) :=
  (keeperG E.m k).balanced (Sync.C30_linearizable_partial hE hcombo hmix h)

/-- **C78, asynchronous growth.**  Missing: the executions excluded by `C24_linearizable_partial`. -/
theorem C78_async_partial {u : Bool} {ok : Op K V → Prop} (hok : ∀ op, ok op → op.isSafe) {E : Env K} (hE : E.OK)
    (hcombo : E.M.cm = true → E.M.cp = true) (hm : E.m = true) {a : A}
    {l : List (Ev T (Op K V) (SRes V))} {s : Async.DSt T A K V}
    (h : Exec (Async.DStepW u ok) (Async.DSt.init E a) l s) (k : K) : Balanced bookG k l :=
  (keeperG true k).balanced (Async.C24_linearizable_partial hok hE hcombo hm h)

/-- **C78, tables of machine words** (C70). -/
theorem C78_words {b : Nat} (hb : 1 ≤ b) {E : Env Nat} (hE : E.OK) {ok : Op Nat V → Prop}
    (hmix : Mix E.m ok) (hok : ∀ op, ok op → LegalKey E.m b op.key) {l : List (Words.WEv T V)}
    {s : Words.WSt T V} (h : Exec (Words.WStep true b E ok) Words.WSt.init l s) (k : Nat) :
    Balanced (bookW E.m b) k (visible l) :=
  (keeperW E.m b k).balanced (Words.C70_words_linearizable_partial hb hE hmix hok h)

/-- **C78, tables with transactions** (C61). -/
theorem C78_tsx {Q : Tsx.Tab K} (hQ : Q.OK) {l : List (Tsx.TEv T K V)} {s : Tsx.St T K V}
    (h : Exec (Tsx.Step Q) Tsx.St.init l s) (k : K) : Balanced bookT k (visible l) :=
  (keeperT k).balanced (Tsx.C61_linearizable hQ h)

/-- **C78, heap allocated elements** in a table of fixed size (C72). -/
theorem C78_heap_bounded {E : Env K} (hE : E.OK) {l : List (Ev T (HeapVal.HOp K V) (HeapVal.HRes V))}
    {s : HeapVal.HSt (CSt T K A) T K V A}
    (h : Exec (HeapVal.HStep (CStep E HeapVal.addrCall) HeapVal.ansB) (HeapVal.HSt.init CSt.init) l s) (k : K) :
    Balanced bookH k l :=
  (keeperH true k).balanced (HeapVal.C72_bounded hE h).1

/-- **C78, heap allocated elements**, synchronised growth (C72). -/
theorem C78_heap_sync_partial {H : Type} [DecidableEq H] {u : Bool} {E : Env K} (hE : E.OK)
    (hcombo : E.M.cm = true → E.M.cp = true) {a : H} {l : List (Ev T (HeapVal.HOp K V) (HeapVal.HRes V))}
    {s : HeapVal.HSt (Sync.DSt T H K A) T K V A}
    (h : Exec (HeapVal.HStep (Sync.DStepW u HeapVal.addrCall) HeapVal.ansG) (HeapVal.HSt.init (Sync.DSt.init E a)) l s)
    (k : K) : Balanced bookH k l :=
  (keeperH false k).balanced (HeapVal.C72_sync_partial hE hcombo h).1

/-- **C78, heap allocated elements**, asynchronous growth (C72). -/
theorem C78_heap_async_partial {H : Type} [DecidableEq H] {u : Bool} {E : Env K} (hE : E.OK)
    (hcombo : E.M.cm = true → E.M.cp = true) (hm : E.m = true) {a : H}
    {l : List (Ev T (HeapVal.HOp K V) (HeapVal.HRes V))} {s : HeapVal.HSt (Async.DSt T H K A) T K V A}
    (h : Exec (HeapVal.HStep (Async.DStepW u HeapVal.addrCall) HeapVal.ansG) (HeapVal.HSt.init (Async.DSt.init E a)) l s)
    (k : K) : Balanced bookH k l :=
  (keeperH false k).balanced (HeapVal.C72_async_partial hE hcombo hm h).1

/-- **C78, wrapper around `tbb::concurrent_hash_map`** (C76).  Missing: the default key (C76). -/
theorem C78_locked_partial {k0 : K} {v0 : V} {adm : SOp K V → Prop} (hadm : ∀ o, adm o → o.key ≠ k0)
    {h : List (Ev T (SOp K V) (SRes V))} {s : Wrap.HSt T K V}
    (hx : Exec (Wrap.HStep k0 v0 adm) Wrap.HSt.init h s) (k : K) : Balanced bookS k h :=
  (keeperS k).balanced (Wrap.C76_locked_linearizable_partial hadm hx)

/-! ## C79: calls on a key that do not overlap behave sequentially -/

/-- **C79, tables of fixed size.** -/
theorem C79_bounded {E : Env K} (hE : E.OK) {ok : Op K V → Prop} (hmix : Mix E.m ok) {l : List (TEv T K V)}
    {s : CSt T K V} (h : Exec (CStep E ok) CSt.init l s) (k : K) :
    Sequential (boundedObj E.m) Op.key k (visible l) :=
  (localB E.m).sequential (C02_linearizable_partial hE hmix h) k

/-- **C79, synchronised growth.**  Missing: the executions excluded by `C30_linearizable_partial`. -/
theorem C79_sync_partial {u : Bool} {ok : Op K V → Prop} {E : Env K} (hE : E.OK)
    (hcombo : E.M.cm = true → E.M.cp = true) (hmix : Mix E.m ok) {a : A}
    {l : List (Ev T (Op K V) (SRes V))} {s : Sync.DSt T A K V}
    (h : Exec (Sync.DStepW u ok) (Sync.DSt.init E a) l s) (k : K) :
    Sequential (Sync.growObj E.m) Op.key k (visible l) :=
  (localG E.m).sequential (Sync.C30_linearizable_partial hE hcombo hmix h) k

/-- **C79, asynchronous growth.**  Missing: the executions excluded by `C24_linearizable_partial`. -/
theorem C79_async_partial {u : Bool} {ok : Op K V → Prop} (hok : ∀ op, ok op → op.isSafe) {E : Env K} (hE : E.OK)
    (hcombo : E.M.cm = true → E.M.cp = true) (hm : E.m = true) {a : A}
    {l : List (Ev T (Op K V) (SRes V))} {s : Async.DSt T A K V}
    (h : Exec (Async.DStepW u ok) (Async.DSt.init E a) l s) (k : K) :
    Sequential (Sync.growObj true) Op.key k (l) :=
  (localG true).sequential (Async.C24_linearizable_partial hok hE hcombo hm h) k

/-- **C79, tables of machine words.** -/
theorem C79_words {b : Nat} (hb : 1 ≤ b) {E : Env Nat} (hE : E.OK) {ok : Op Nat V → Prop}
    (hmix : Mix E.m ok) (hok : ∀ op, ok op → LegalKey E.m b op.key) {l : List (Words.WEv T V)}
    {s : Words.WSt T V} (h : Exec (Words.WStep true b E ok) Words.WSt.init l s) (k : Nat) :
    Sequential (Words.wordObj E.m b) Op.key k (visible l) :=
  (localW E.m b).sequential (Words.C70_words_linearizable_partial hb hE hmix hok h) k

/-- **C79, tables with transactions.** -/
theorem C79_tsx {Q : Tsx.Tab K} (hQ : Q.OK) {l : List (Tsx.TEv T K V)} {s : Tsx.St T K V}
    (h : Exec (Tsx.Step Q) Tsx.St.init l s) (k : K) :
    Sequential (Tsx.idealObj) Tsx.Call.key k (visible l) :=
  (localT).sequential (Tsx.C61_linearizable hQ h) k

/-- **C79, heap allocated elements in a table of fixed size.** -/
theorem C79_heap_bounded {E : Env K} (hE : E.OK) {l : List (Ev T (HeapVal.HOp K V) (HeapVal.HRes V))}
    {s : HeapVal.HSt (CSt T K A) T K V A}
    (h : Exec (HeapVal.HStep (CStep E HeapVal.addrCall) HeapVal.ansB) (HeapVal.HSt.init CSt.init) l s) (k : K) :
    Sequential (HeapVal.valObj true) HeapVal.HOp.key k (l) :=
  (localH true).sequential ((HeapVal.C72_bounded hE h).1) k

/-- **C79, heap allocated elements, synchronised growth.**  Missing: as in C72. -/
theorem C79_heap_sync_partial {H : Type} [DecidableEq H] {u : Bool} {E : Env K} (hE : E.OK)
    (hcombo : E.M.cm = true → E.M.cp = true) {a : H} {l : List (Ev T (HeapVal.HOp K V) (HeapVal.HRes V))}
    {s : HeapVal.HSt (Sync.DSt T H K A) T K V A}
    (h : Exec (HeapVal.HStep (Sync.DStepW u HeapVal.addrCall) HeapVal.ansG) (HeapVal.HSt.init (Sync.DSt.init E a)) l s)
    (k : K) :
    Sequential (HeapVal.valObj false) HeapVal.HOp.key k (l) :=
  (localH false).sequential ((HeapVal.C72_sync_partial hE hcombo h).1) k

/-- **C79, heap allocated elements, asynchronous growth.**  Missing: as in C72. -/
theorem C79_heap_async_partial {H : Type} [DecidableEq H] {u : Bool} {E : Env K} (hE : E.OK)
    (hcombo : E.M.cm = true → E.M.cp = true) (hm : E.m = true) {a : H}
    {l : List (Ev T (HeapVal.HOp K V) (HeapVal.HRes V))} {s : HeapVal.HSt (Async.DSt T H K A) T K V A}
    (h : Exec (HeapVal.HStep (Async.DStepW u HeapVal.addrCall) HeapVal.ansG) (HeapVal.HSt.init (Async.DSt.init E a)) l s)
    (k : K) :
    Sequential (HeapVal.valObj false) HeapVal.HOp.key k (l) :=
  (localH false).sequential ((HeapVal.C72_async_partial hE hcombo hm h).1) k

/-- **C79, wrapper around `tbb::concurrent_hash_map`.**  Missing: the default key (C76). -/
theorem C79_locked_partial {k0 : K} {v0 : V} {adm : SOp K V → Prop} (hadm : ∀ o, adm o → o.key ≠ k0)
    {l : List (Ev T (SOp K V) (SRes V))} {s : Wrap.HSt T K V}
    (h : Exec (Wrap.HStep k0 v0 adm) Wrap.HSt.init l s) (k : K) :
    Sequential (Wrap.mapObj) SOp.key k (l) :=
  (localS).sequential (Wrap.C76_locked_linearizable_partial hadm h) k

/-! ### The benchmarks with insertions and deletions -/

/-- Stage 0.1 and stage 1 of a thread of the deletion benchmark, on its indices `pre` and `work`: insert the keys of
`pre`; then for each index of `work` insert its key and erase the oldest key the thread has in the table
(`tests/del_test.cpp:139-192`).  `window buffer work` are the calls of stage 1; when the buffer is empty nothing is
erased and the new key is not put into the buffer (lines 176-181).  The insertion benchmarks are the case without
`work` (`tests/ins_test.cpp:90-113`, `tests/con_test.cpp:63-74`).  The calls of a thread are taken as a list, their
results do not influence it. -/
def window (keys : Nat → K) (val : Nat → V) : List K → List Nat → List (Op K V)
  | _, [] => []
  | [], i :: l => .insert (keys i) (val i) :: window keys val [] l
  | k :: b, i :: l => .insert (keys i) (val i) :: .erase k :: window keys val (b ++ [keys i]) l

/-- The calls of a thread (`tests/del_test.cpp:139-192`). -/
def threadCalls (keys : Nat → K) (val : Nat → V) (pre work : List Nat) : List (Op K V) :=
  (pre.map fun i => .insert (keys i) (val i)) ++ window keys val (pre.map keys) work

/-- The keys a thread leaves in the table (`tests/del_test.cpp:149-186`). -/
def left (keys : Nat → K) : List K → List Nat → List K
  | b, [] => b
  | [], i :: l => (i :: l).map keys
  | _ :: b, i :: l => left keys (b ++ [keys i]) l

theorem left_nil (keys : Nat → K) (l : List Nat) : left keys [] l = l.map keys := by cases l <;> rfl

/-- A sliding window keeps its size. -/
theorem left_length (keys : Nat → K) {b : List K} (l : List Nat) (hb : b ≠ []) : (left keys b l).length = b.length := by
  induction l generalizing b with
  | nil => cases b <;> rfl
  | cons i l ih =>
    cases b with
    | nil => exact absurd rfl hb
    | cons k b => rw [left, ih (by simp)]; simp

theorem left_sub (keys : Nat → K) {b : List K} {l : List Nat} {k : K} (h : k ∈ left keys b l) :
    k ∈ b ∨ k ∈ l.map keys := by
  induction l generalizing b with
  | nil => cases b <;> exact .inl h
  | cons i l ih =>
    cases b with
    | nil => exact .inr h
    | cons k' b =>
      rcases ih h with h' | h'
      · rcases List.mem_append.1 h' with h' | h'
        · exact .inl (List.mem_cons_of_mem _ h')
        · exact .inr (by rw [List.mem_singleton.1 h']; simp)
      · exact .inr (by simp only [List.map_cons]; exact List.mem_cons_of_mem _ h')

theorem key_ins (k : K) (v : V) : (Op.insert k v).key = k := rfl

theorem key_era (k : K) : (Op.erase k : Op K V).key = k := rfl

/-- The calls on a key in stage 1. -/
theorem window_on (keys : Nat → K) (val : Nat → V) {b : List K} {l : List Nat} (hn : (b ++ l.map keys).Nodup) (k : K) :
    (k ∈ b → (window keys val b l).filter (fun o => decide (o.key = k)) = if k ∈ left keys b l then [] else [.erase k]) ∧
    (∀ i ∈ l, keys i = k → (window keys val b l).filter (fun o => decide (o.key = k)) =
      if k ∈ left keys b l then [.insert k (val i)] else [.insert k (val i), .erase k]) ∧
    (k ∉ b → k ∉ l.map keys → (window keys val b l).filter (fun o => decide (o.key = k)) = []) := by
  induction l generalizing b with
  | nil =>
    refine ⟨fun h => ?_, fun i hi => (by cases hi), fun _ _ => ?_⟩ <;> cases b <;> simp_all [window, left]
  | cons i l ih =>
    cases b with
    | nil =>
      have hn' : ([] ++ l.map keys : List K).Nodup := by simpa using (List.nodup_cons.1 (by simpa using hn)).2
      have hni : keys i ∉ l.map keys := (List.nodup_cons.1 (by simpa using hn)).1
      obtain ⟨-, h2, h3⟩ := ih hn'
      refine ⟨fun h => (by cases h), fun j hj hk => ?_, fun _ h => ?_⟩
      · rw [left_nil, if_pos (by rw [← hk]; exact List.mem_map_of_mem hj)]
        rcases List.mem_cons.1 hj with rfl | hj'
        · subst hk
          simp [window, key_ins, key_era, h3 (by simp) hni]
        · have : keys i ≠ k := fun h => hni (by rw [h, ← hk]; exact List.mem_map_of_mem hj')
          have := h2 j hj' hk
          rw [left_nil, if_pos (by rw [← hk]; exact List.mem_map_of_mem hj')] at this
          simp [window, key_ins, key_era, *]
      · simp only [List.map_cons, List.mem_cons, not_or] at h
        simp [window, key_ins, key_era, Ne.symm h.1, h3 (by simp) h.2]
    | cons k0 b =>
      have hn0 : k0 ∉ (b ++ [keys i]) ++ l.map keys ∧ ((b ++ [keys i]) ++ l.map keys).Nodup :=
        List.nodup_cons.1 (by simpa using hn)
      obtain ⟨hk0, hn'⟩ := hn0
      have hleft : left keys (k0 :: b) (i :: l) = left keys (b ++ [keys i]) l := rfl
      rw [hleft]
      have hk0' : k0 ∉ left keys (b ++ [keys i]) l := fun h => hk0 (List.mem_append.2 (left_sub keys h))
      have hk0i : keys i ≠ k0 := fun h => hk0 (by simp [h])
      obtain ⟨h1, h2, h3⟩ := ih hn'
      refine ⟨fun h => ?_, fun j hj hk => ?_, fun hb hl => ?_⟩
      · rcases List.mem_cons.1 h with rfl | h'
        · have e := h3 (fun h => hk0 (List.mem_append.2 (.inl h))) (fun h => hk0 (List.mem_append.2 (.inr h)))
          simp [window, key_ins, key_era, hk0', hk0i, e]
        · have e := h1 (List.mem_append.2 (.inl h'))
          have a1 : k0 ≠ k := fun h => hk0 (by simp [h, h'])
          have a2 : keys i ≠ k := fun h => by
            have := (List.nodup_append.1 (List.nodup_append.1 hn').1).2.2 k h' (keys i) (by simp)
            exact this h.symm
          simp [window, key_ins, key_era, a1, a2, e]
      · rcases List.mem_cons.1 hj with rfl | hj'
        · subst hk
          have e := h1 (List.mem_append.2 (.inr (by simp)))
          simp only [window, List.filter_cons, key_ins, key_era, decide_true, if_true, Ne.symm hk0i, decide_false,
            Bool.false_eq_true, if_false, e]
          split <;> rfl
        · have e := h2 j hj' hk
          have hmem : k ∈ l.map keys := by rw [← hk]; exact List.mem_map_of_mem hj'
          have a1 : k0 ≠ k := fun h => hk0 (by rw [h]; exact List.mem_append.2 (.inr hmem))
          have a2 : keys i ≠ k := fun h =>
            (List.nodup_append.1 hn').2.2 (keys i) (by simp) k hmem h
          simp [window, key_ins, key_era, a1, a2, e]
      · simp only [List.mem_cons, not_or] at hb
        simp only [List.map_cons, List.mem_cons, not_or] at hl
        have e := h3 (by simp [hb.2, hl.1]) hl.2
        simp [window, key_ins, key_era, Ne.symm hb.1, Ne.symm hl.1, e]

theorem pre_on (keys : Nat → K) (val : Nat → V) {l : List Nat} (hn : (l.map keys).Nodup) (k : K) :
    (∀ i ∈ l, keys i = k → (l.map fun i => (.insert (keys i) (val i) : Op K V)).filter (fun o => decide (o.key = k)) =
      [.insert k (val i)]) ∧
    (k ∉ l.map keys →
      (l.map fun i => (.insert (keys i) (val i) : Op K V)).filter (fun o => decide (o.key = k)) = []) := by
  induction l with
  | nil => exact ⟨fun i hi => (by cases hi), fun _ => rfl⟩
  | cons i l ih =>
    have hn0 : keys i ∉ l.map keys ∧ (l.map keys).Nodup := List.nodup_cons.1 (by simpa using hn)
    obtain ⟨hni, hn'⟩ := hn0
    obtain ⟨h1, h2⟩ := ih hn'
    refine ⟨fun j hj hk => ?_, fun h => ?_⟩
    · rcases List.mem_cons.1 hj with rfl | hj'
      · subst hk
        simp [key_ins, key_era, h2 hni]
      · have a : keys i ≠ k := fun h => hni (by rw [h, ← hk]; exact List.mem_map_of_mem hj')
        have e := h1 j hj' hk
        simp [key_ins, key_era, a, e]
    · simp only [List.map_cons, List.mem_cons, not_or] at h
      have e := h2 h.2
      simp [key_ins, key_era, Ne.symm h.1, e]

/-- The calls of a thread on a key. -/
theorem calls_on (keys : Nat → K) (val : Nat → V) {pre work : List Nat} (hn : ((pre ++ work).map keys).Nodup) (k : K) :
    (∀ i ∈ pre ++ work, keys i = k → (threadCalls keys val pre work).filter (fun o => decide (o.key = k)) =
      if k ∈ left keys (pre.map keys) work then [.insert k (val i)] else [.insert k (val i), .erase k]) ∧
    (k ∉ (pre ++ work).map keys → (threadCalls keys val pre work).filter (fun o => decide (o.key = k)) = []) := by
  rw [List.map_append] at hn
  obtain ⟨hp, hw, hd⟩ := List.nodup_append.1 hn
  obtain ⟨p1, p2⟩ := pre_on keys val hp k
  obtain ⟨w1, w2, w3⟩ := window_on keys val hn k
  refine ⟨fun i hi hk => ?_, fun h => ?_⟩
  · unfold threadCalls
    rw [List.filter_append]
    rcases List.mem_append.1 hi with h | h
    · have hm : k ∈ pre.map keys := by rw [← hk]; exact List.mem_map_of_mem h
      rw [p1 i h hk, w1 hm]
      split <;> rfl
    · have hm : k ∈ work.map keys := by rw [← hk]; exact List.mem_map_of_mem h
      rw [p2 fun h' => hd k h' k hm rfl, w2 i h hk]
      rfl
  · simp only [List.map_append, List.mem_append, not_or] at h
    unfold threadCalls
    rw [List.filter_append, p2 h.1, w3 h.1 h.2]
    rfl

/-- The benchmark has run through stages 0.1 and 1, all calls have returned; since then there have been look-ups only.
No key occurs twice. (specification, no code) -/
structure DelRun (keys : Nat → K) (val : Nat → V) (pre work : T → List Nat) (h1 h2 : List (Ev T (Op K V) (SRes V))) :
    Prop where
  quiet : Quiet h1
  calls : ∀ t, byThread t h1 = threadCalls keys val (pre t) (work t)
  once : ∀ t, ((pre t ++ work t).map keys).Nodup
  apart : ∀ t t', t ≠ t' → ∀ i ∈ pre t ++ work t, ∀ j ∈ pre t' ++ work t', keys i ≠ keys j
  finds : Only (fun o => ∃ k, o = .find k) h2

/-- What the benchmark observes: all insertions and erasures have been successful; a look-up shows the inserted value
of the keys in the windows of the threads, and nothing for all other keys. (specification, no code) -/
structure DelSeen (keys : Nat → K) (val : Nat → V) (pre work : T → List Nat) (h1 h2 : List (Ev T (Op K V) (SRes V))) :
    Prop where
  noErrors : ∀ t o r, Ev.ret t o r ∈ h1 → r.ok = true
  found : ∀ t k r, Ev.ret t (.find k) r ∈ h2 → ∀ t' i, i ∈ pre t' ++ work t' → keys i = k →
    r.shown = if k ∈ left keys ((pre t').map keys) (work t') then some (val i) else none
  missing : ∀ t k r, Ev.ret t (.find k) r ∈ h2 → (∀ t', k ∉ (pre t' ++ work t').map keys) → r.shown = none

theorem call_byThread {O R : Type} {h : List (Ev T O R)} {t : T} {o : O} : Ev.call t o ∈ h ↔ o ∈ byThread t h := by
  unfold byThread
  rw [← mem_callsOf]
  simp [List.mem_map, List.mem_filter]

theorem window_keys (keys : Nat → K) (val : Nat → V) {b : List K} {l : List Nat} {o : Op K V}
    (h : o ∈ window keys val b l) : o.key ∈ b ∨ o.key ∈ l.map keys := by
  induction l generalizing b with
  | nil => cases b <;> cases h
  | cons i l ih =>
    cases b with
    | nil =>
      simp only [window, List.mem_cons] at h
      rcases h with rfl | h
      · right; simp [Op.key]
      · rcases ih h with h | h
        · cases h
        · right; simp only [List.map_cons]; exact List.mem_cons_of_mem _ h
    | cons k b =>
      simp only [window, List.mem_cons] at h
      rcases h with rfl | rfl | h
      · right; simp [Op.key]
      · left; simp [Op.key]
      · rcases ih h with h | h
        · rcases List.mem_append.1 h with h | h
          · left; exact List.mem_cons_of_mem _ h
          · right; rw [List.mem_singleton.1 h]; simp
        · right; simp only [List.map_cons]; exact List.mem_cons_of_mem _ h

theorem threadCalls_key (keys : Nat → K) (val : Nat → V) {pre work : List Nat} {o : Op K V}
    (h : o ∈ threadCalls keys val pre work) : o.key ∈ (pre ++ work).map keys := by
  rw [List.map_append]
  rcases List.mem_append.1 h with h | h
  · obtain ⟨i, hi, rfl⟩ := List.mem_map.1 h
    exact List.mem_append.2 (.inl (List.mem_map_of_mem hi))
  · exact List.mem_append.2 (window_keys keys val h)

theorem find_keeps {m : Bool} {k : K} {d d' : Dict K V} {r : SRes V} (h : (Sync.growObj m).legal d (.find k) r d') :
    d' = d ∧ r.ok = (d k).isSome ∧ r.shown = d k := by
  rcases h with ⟨rfl, h1, h2⟩ | ⟨⟨_, _, _, _, h, -⟩, -⟩
  · rcases h2 with ⟨⟨_, _, h⟩, -⟩ | h2
    · cases h
    · exact ⟨rfl, h1, h2⟩
  · cases h

theorem insert_first {m : Bool} {k : K} {v : V} {d d' : Dict K V} {r : SRes V}
    (h : (Sync.growObj m).legal d (.insert k v) r d') (hd : d k = none) : d' k = some v ∧ r.ok = true := by
  rcases h with ⟨rfl, h1, -⟩ | ⟨⟨_, _, _, _, h, -⟩, -⟩
  · simp only [Op.toSpec, SOp.sem, hd] at h1 ⊢
    exact ⟨by simp [Dict.put], h1⟩
  · cases h

theorem erase_there {m : Bool} {k : K} {v : V} {d d' : Dict K V} {r : SRes V}
    (h : (Sync.growObj m).legal d (.erase k) r d') (hd : d k = some v) : d' k = none ∧ r.ok = true := by
  rcases h with ⟨rfl, h1, -⟩ | ⟨⟨_, _, _, _, h, -⟩, -⟩
  · simp only [Op.toSpec, SOp.sem, hd] at h1 ⊢
    exact ⟨by simp [Dict.del], h1⟩
  · cases h

theorem del_seen {m : Bool} {keys : Nat → K} {val : Nat → V} {pre work : T → List Nat}
    {h1 h2 : List (Ev T (Op K V) (SRes V))} (hl : Linearizable (Sync.growObj m) (h1 ++ h2))
    (hR : DelRun keys val pre work h1 h2) : DelSeen keys val pre work h1 h2 := by
  have owner : ∀ j o, Ev.call j o ∈ h1 → ∃ i ∈ pre j ++ work j, keys i = o.key := by
    intro j o hc
    rw [call_byThread, hR.calls] at hc
    exact List.mem_map.1 (threadCalls_key keys val hc)
  have keep : ∀ k j o, Ev.call j o ∈ h2 → o.key = k → ∀ d d' r, (Sync.growObj m).legal d o r d' → d' k = d k := by
    intro k j o hc _ d d' r h
    obtain ⟨k', rfl⟩ := hR.finds j o hc
    rw [(find_keeps h).1]
  have main : ∀ t i, i ∈ pre t ++ work t →
      (∀ j o r, Ev.ret j o r ∈ h1 → o.key = keys i → r.ok = true) ∧
      ∀ j r, Ev.ret j (.find (keys i)) r ∈ h2 →
        r.shown = if keys i ∈ left keys ((pre t).map keys) (work t) then some (val i) else none := by
    intro t i hi
    obtain ⟨ps, d, hps, hd, hret, hlater⟩ := own_calls (localG m) hl hR.quiet (k := keys i) (t := t)
      (fun j o hc hk => by
        obtain ⟨i', hi', he⟩ := owner j o hc
        refine Classical.byContradiction fun hne => ?_
        exact hR.apart j t hne i' hi' i hi (he.trans hk)) (keep _)
    rw [hR.calls, (calls_on keys val (hR.once t) (keys i)).1 i hi rfl] at hps
    have fin : (∀ x ∈ ps, x.2.ok = true) ∧
        d (keys i) = if keys i ∈ left keys ((pre t).map keys) (work t) then some (val i) else none := by
      by_cases hc : keys i ∈ left keys ((pre t).map keys) (work t)
      · rw [if_pos hc] at hps ⊢
        match ps, hps, hd with
        | [(o, r)], hps, .cons h (.nil _) =>
          simp only [List.map_cons, List.map_nil, List.cons.injEq, and_true] at hps
          subst hps
          obtain ⟨a1, a2⟩ := insert_first h rfl
          exact ⟨fun x hx => by rw [List.mem_singleton.1 hx]; exact a2, a1⟩
      · rw [if_neg hc] at hps ⊢
        match ps, hps, hd with
        | [(o, r), (o', r')], hps, .cons h (.cons h' (.nil _)) =>
          simp only [List.map_cons, List.map_nil, List.cons.injEq, and_true] at hps
          obtain ⟨rfl, rfl⟩ := hps
          obtain ⟨a1, a2⟩ := insert_first h rfl
          obtain ⟨b1, b2⟩ := erase_there h' a1
          refine ⟨fun x hx => ?_, b1⟩
          simp only [List.mem_cons, List.not_mem_nil, or_false] at hx
          rcases hx with rfl | rfl
          · exact a2
          · exact b2
    refine ⟨fun j o r hr hk => fin.1 _ (hret j o r hr hk), fun j r hr => ?_⟩
    obtain ⟨d1, d2, e1, e2⟩ := hlater j _ r hr
    rw [(find_keeps e1).2.2, e2, fin.2]
  refine ⟨fun t o r hr => ?_, fun t k r hr t' i hi hk => ?_, fun t k r hr hno => ?_⟩
  · obtain ⟨l, p, d0, rfl, hw, -⟩ := state_prefix hl
    obtain ⟨i, hi, he⟩ := who_called hw (fun j o => ∃ i ∈ pre j ++ work j, keys i = o.key)
      (fun _ _ h => by cases h) (fun _ _ _ h => by cases h)
      (fun j o hm => owner j o (call_visible hm)) t o r (.inr (ret_of_visible hr))
    exact (main t i hi).1 t o r hr he.symm
  · subst hk
    exact (main t' i hi).2 t r hr
  · obtain ⟨ps, d, hps, hd, -, hlater⟩ := own_calls (localG m) hl hR.quiet (k := k) (t := t)
      (fun j o hc hk => by
        obtain ⟨i', hi', he⟩ := owner j o hc
        exact absurd (List.mem_map.2 ⟨i', hi', he.trans hk⟩) (hno j)) (keep _)
    rw [hR.calls, (calls_on keys val (hR.once t) k).2 (hno t)] at hps
    have : ps = [] := List.map_eq_nil_iff.1 hps
    subst this
    cases hd
    obtain ⟨d1, d2, e1, e2⟩ := hlater t _ r hr
    rw [(find_keeps e1).2.2, e2]
    rfl

/-- **C79, insertion and deletion benchmarks with synchronised growth**: no errors, and validation finds exactly the
keys in the windows. -/
theorem C79_sync_window_partial {u : Bool} {ok : Op K V → Prop} {E : Env K} (hE : E.OK)
    (hcombo : E.M.cm = true → E.M.cp = true) (hmix : Mix E.m ok) {a : A}
    {l : List (Ev T (Op K V) (SRes V))} {s : Sync.DSt T A K V}
    (h : Exec (Sync.DStepW u ok) (Sync.DSt.init E a) l s) {keys : Nat → K} {val : Nat → V} {pre work : T → List Nat}
    {h1 h2 : List (Ev T (Op K V) (SRes V))} (hl : visible l = h1 ++ h2) (hR : DelRun keys val pre work h1 h2) :
    DelSeen keys val pre work h1 h2 :=
  del_seen (hl ▸ Sync.C30_linearizable_partial hE hcombo hmix h) hR

/-- **C79, insertion and deletion benchmarks with asynchronous growth.** -/
theorem C79_async_window_partial {u : Bool} {ok : Op K V → Prop} (hok : ∀ op, ok op → op.isSafe) {E : Env K}
    (hE : E.OK) (hcombo : E.M.cm = true → E.M.cp = true) (hm : E.m = true) {a : A}
    {l : List (Ev T (Op K V) (SRes V))} {s : Async.DSt T A K V}
    (h : Exec (Async.DStepW u ok) (Async.DSt.init E a) l s) {keys : Nat → K} {val : Nat → V} {pre work : T → List Nat}
    {h1 h2 : List (Ev T (Op K V) (SRes V))} (hl : l = h1 ++ h2) (hR : DelRun keys val pre work h1 h2) :
    DelSeen keys val pre work h1 h2 :=
  del_seen (hl ▸ Async.C24_linearizable_partial hok hE hcombo hm h) hR

/-! ## C80: what all calls keep true of the values of a key is true of every value shown -/

/-- The call keeps `I` true of the values of its key. (specification, no code) -/
def Stays (I : V → Prop) : SOp K V → Prop
  | .insert _ v => I v
  | .modify _ g => ∀ w, I w → I (g w).1
  | .insertOrModify _ v g => I v ∧ ∀ w, I w → I (g w).1
  | .find _ | .erase _ | .eraseIf _ _ => True

/-- Calls on key `k` keep `I`; `means` says what a call means on an ideal map. (specification, no code) -/
def Keeping {O : Type} (key : O → K) (means : O → List (SOp K V)) (k : K) (I : V → Prop) (o : O) : Prop :=
  key o = k → ∀ o' ∈ means o, Stays I o'

theorem sem_keeps {I : V → Prop} {k : K} {o : SOp K V} (hs : o.key = k → Stays I o) {d : Dict K V}
    (hd : ∀ v, d k = some v → I v) : ∀ v, (o.sem d).1 k = some v → I v := by
  by_cases hk : o.key = k
  · subst hk
    have hs := hs rfl
    intro v hv
    cases o with
    | find k => exact hd v hv
    | insert k w =>
      simp only [SOp.key, SOp.sem] at hd hv ⊢
      rcases Option.eq_none_or_eq_some (d k) with h | ⟨u, h⟩ <;> simp [h, Dict.put] at hv
      · subst hv; exact hs
      · subst hv; exact hd _ h
    | modify k g =>
      simp only [SOp.key, SOp.sem] at hd hv ⊢
      rcases Option.eq_none_or_eq_some (d k) with h | ⟨u, h⟩ <;> simp [h, Dict.put] at hv
      subst hv; exact hs u (hd u h)
    | insertOrModify k w g =>
      simp only [SOp.key, SOp.sem] at hd hv ⊢
      rcases Option.eq_none_or_eq_some (d k) with h | ⟨u, h⟩ <;> simp [h, Dict.put] at hv
      · subst hv; exact hs.1
      · subst hv; exact hs.2 u (hd u h)
    | erase k =>
      simp only [SOp.key, SOp.sem] at hd hv ⊢
      rcases Option.eq_none_or_eq_some (d k) with h | ⟨u, h⟩ <;> simp [h, Dict.del] at hv
    | eraseIf k w =>
      simp only [SOp.key, SOp.sem] at hd hv ⊢
      by_cases h : d k = some w
      · simp [h, Dict.del] at hv
      · simp only [h, if_false] at hv; exact hd v hv
  · rw [sem_frame o d hk]; exact hd

/-- What look-ups of `k` show. (specification, no code) -/
def seenBy {O R : Type} (look : O → Option K) (shown : R → Option V) (k : K) (o : O) (r : R) : Option V :=
  if look o = some k then shown r else none

theorem seenBy_pos {O R : Type} {look : O → Option K} {shown : R → Option V} {k : K} {o : O} {r : R} {v : V}
    (h : look o = some k) (hv : shown r = some v) : seenBy look shown k o r = some v := by
  rw [seenBy, if_pos h, hv]

theorem keepsB (m : Bool) (k : K) (I : V → Prop) :
    Keeps (boundedObj m) k I (Keeping Op.key (fun o => [o.toSpec m]) k I) (seenBy lookOf Ret.shown k) where
  init := rfl
  step := by
    intro d d' o r hP hl hd
    rcases hl with ⟨rfl, -⟩ | ⟨c, -, -, rfl, -⟩
    · exact sem_keeps (fun h => hP (by rw [← h]; cases o <;> rfl) _ (List.mem_singleton.2 rfl)) hd
    · exact hd
  shows := by
    intro d d' o r hP hl hd v hv
    unfold seenBy at hv
    split at hv
    · rename_i hk
      have := lookOf_some hk
      subst this
      rcases hl with ⟨-, -, h3⟩ | ⟨c, h, -⟩
      · rcases h3 with ⟨⟨_, _, h⟩, -⟩ | h3
        · cases h
        · exact hd v (h3.symm.trans hv)
      · exact absurd h (by simp [Op.mayRefuse])
    · cases hv

theorem keepsG (m : Bool) (k : K) (I : V → Prop) :
    Keeps (Sync.growObj m) k I (Keeping Op.key (fun o => [o.toSpec m]) k I) (seenBy lookOf SRes.shown k) where
  init := rfl
  step := by
    intro d d' o r hP hl hd
    rcases hl with ⟨rfl, -⟩ | ⟨-, -, rfl⟩
    · exact sem_keeps (fun h => hP (by rw [← h]; cases o <;> rfl) _ (List.mem_singleton.2 rfl)) hd
    · exact hd
  shows := by
    intro d d' o r hP hl hd v hv
    unfold seenBy at hv
    split at hv
    · rename_i hk
      have := lookOf_some hk
      subst this
      rw [(find_keeps hl).2.2] at hv
      exact hd v hv
    · cases hv

theorem keepsW (m : Bool) (b k : Nat) (I : V → Prop) :
    Keeps (Words.wordObj m b) k I (Keeping Op.key (fun o => [o.toSpec m]) k I)
      (seenBy lookOf (fun r : Words.WRet V => (r.shown m b).map Prod.snd) k) where
  init := rfl
  step := by
    intro d d' o r hP hl hd
    rcases hl with ⟨rfl, -⟩ | ⟨c, -, -, rfl, -⟩
    · exact sem_keeps (fun h => hP (by rw [← h]; cases o <;> rfl) _ (List.mem_singleton.2 rfl)) hd
    · exact hd
  shows := by
    intro d d' o r hP hl hd v hv
    unfold seenBy at hv
    split at hv
    · rename_i hk
      have := lookOf_some hk
      subst this
      rcases hl with ⟨-, -, h3⟩ | ⟨c, h, -⟩
      · rcases h3 with ⟨⟨_, _, h⟩, -⟩ | h3
        · cases h
        · refine hd v ?_
          have h4 : (r.shown m b).map Prod.snd = d k := by
            rw [h3]
            show ((d k).map _).map _ = _
            cases d k <;> rfl
          exact h4.symm.trans hv
      · exact absurd h (by simp [Op.mayRefuse])
    · cases hv

/-- Look-ups in tables with transactions (`tsx_circular.hpp:448-889`). -/
def lookT : Tsx.Call K V → Option K
  | .find k => some k
  | _ => none

theorem keepsT (k : K) (I : V → Prop) :
    Keeps Tsx.idealObj k I (Keeping Tsx.Call.key Tsx.Call.meanings k I) (seenBy lookT Tsx.Ret.shown k) where
  init := rfl
  step := by
    intro d d' o r hP hl hd
    obtain ⟨o', ho, rfl, -⟩ := Tsx.legal_any hl
    exact sem_keeps (fun h => hP (by rw [← h, (meanings_key ho).1]) _ ho) hd
  shows := by
    intro d d' o r hP hl hd v hv
    unfold seenBy at hv
    split at hv
    · rename_i hk
      cases o <;> simp [lookT] at hk
      subst hk
      obtain ⟨o', ho, -, -, h⟩ := Tsx.legal_any hl
      simp only [Tsx.Call.meanings, List.mem_cons, List.not_mem_nil, or_false] at ho
      subst ho
      exact hd v (h.symm.trans hv)
    · cases hv

/-- What calls on heap allocated elements mean. (specification, no code) -/
def meansH : HeapVal.HOp K V → List (SOp K V)
  | .find k => [.find k]
  | .insert k v => [.insert k v]
  | .update k f => [.modify k fun w => (f w, f w)]
  | .insertOrUpdate k v f => [.insertOrModify k v fun w => (f w, f w)]

/-- Look-ups of heap allocated elements (`base_linear.hpp:192-243`). -/
def lookH : HeapVal.HOp K V → Option K
  | .find k => some k
  | _ => none

theorem keepsH (full : Bool) (k : K) (I : V → Prop) :
    Keeps (HeapVal.valObj full) k I (Keeping HeapVal.HOp.key meansH k I) (seenBy lookH (fun x : HeapVal.HRes V => x.shown) k) where
  init := rfl
  step := by
    intro d d' o r hP hl hd
    by_cases hk : o.key = k
    · subst hk
      intro v hv
      cases o with
      | find k => obtain ⟨rfl, -⟩ := hl; exact hd v hv
      | insert k w =>
        have hs : I w := hP rfl _ (List.mem_singleton.2 rfl)
        simp only [HeapVal.valObj, HeapVal.HOp.key] at hl hd hv
        split at hl
        · obtain ⟨rfl, -⟩ := hl; exact hd v hv
        · rcases hl with ⟨rfl, -⟩ | ⟨-, rfl, -⟩
          · simp [Dict.put] at hv; subst hv; exact hs
          · exact hd v hv
      | update k f =>
        have hs : ∀ w, I w → I (f w) := hP rfl _ (List.mem_singleton.2 rfl)
        simp only [HeapVal.valObj, HeapVal.HOp.key] at hl hd hv
        split at hl
        · rename_i w hw
          obtain ⟨rfl, -⟩ := hl
          simp [Dict.put] at hv; subst hv; exact hs w (hd w hw)
        · obtain ⟨rfl, -⟩ := hl; exact hd v hv
      | insertOrUpdate k w f =>
        have hs : I w ∧ ∀ w, I w → I (f w) := hP rfl _ (List.mem_singleton.2 rfl)
        simp only [HeapVal.valObj, HeapVal.HOp.key] at hl hd hv
        split at hl
        · rename_i u hu
          obtain ⟨rfl, -⟩ := hl
          simp [Dict.put] at hv; subst hv; exact hs.2 u (hd u hu)
        · rcases hl with ⟨rfl, -⟩ | ⟨-, rfl, -⟩
          · simp [Dict.put] at hv; subst hv; exact hs.1
          · exact hd v hv
    · rw [(localH full).frame hl hk]; exact hd
  shows := by
    intro d d' o r hP hl hd v hv
    unfold seenBy at hv
    split at hv
    · rename_i hk
      cases o <;> simp [lookH] at hk
      subst hk
      obtain ⟨-, rfl⟩ := hl
      exact hd v hv
    · cases hv

/-- Look-ups in ideal maps. (specification, no code) -/
def lookS : SOp K V → Option K
  | .find k => some k
  | _ => none

theorem keepsS (k : K) (I : V → Prop) :
    Keeps Wrap.mapObj k I (Keeping SOp.key (fun o => [o]) k I) (seenBy lookS (fun x : SRes V => x.shown) k) where
  init := rfl
  step := by
    intro d d' o r hP hl hd
    have h' : o.sem d = (d', r) := hl
    have := sem_keeps (fun h => hP h o (List.mem_singleton.2 rfl)) hd
    rw [h'] at this
    exact this
  shows := by
    intro d d' o r hP hl hd v hv
    unfold seenBy at hv
    split at hv
    · rename_i hk
      cases o <;> simp [lookS] at hk
      subst hk
      have h' : (d, (⟨(d _).isSome, d _⟩ : SRes V)) = (d', r) := hl
      rw [← (Prod.mk.inj h').2] at hv
      exact hd v hv
    · cases hv

/-- **C80, tables of fixed size.** -/
theorem C80_bounded {E : Env K} (hE : E.OK) {ok : Op K V → Prop} (hmix : Mix E.m ok) {l : List (TEv T K V)}
    {s : CSt T K V} (h : Exec (CStep E ok) CSt.init l s) (k : K)
    {I : V → Prop} (hI : Only (Keeping Op.key (fun o => [o.toSpec E.m]) k I) (visible l)) {t : T} {r} (hr : Ev.ret t (.find k) r ∈ visible l) {v : V}
    (hv : r.shown = some v) : I v :=
  (keepsB E.m k I).shown (C02_linearizable_partial hE hmix h) hI hr
    (seenBy_pos rfl hv)

/-- **C80, synchronised growth.**  Missing: the executions excluded by `C30_linearizable_partial`. -/
theorem C80_sync_partial {u : Bool} {ok : Op K V → Prop} {E : Env K} (hE : E.OK)
    (hcombo : E.M.cm = true → E.M.cp = true) (hmix : Mix E.m ok) {a : A}
    {l : List (Ev T (Op K V) (SRes V))} {s : Sync.DSt T A K V}
    (h : Exec (Sync.DStepW u ok) (Sync.DSt.init E a) l s) (k : K)
    {I : V → Prop} (hI : Only (Keeping Op.key (fun o => [o.toSpec E.m]) k I) (visible l)) {t : T} {r} (hr : Ev.ret t (.find k) r ∈ visible l) {v : V}
    (hv : r.shown = some v) : I v :=
  (keepsG E.m k I).shown (Sync.C30_linearizable_partial hE hcombo hmix h) hI hr
    (seenBy_pos rfl hv)

/-- **C80, asynchronous growth.**  Missing: the executions excluded by `C24_linearizable_partial`. -/
theorem C80_async_partial {u : Bool} {ok : Op K V → Prop} (hok : ∀ op, ok op → op.isSafe) {E : Env K} (hE : E.OK)
    (hcombo : E.M.cm = true → E.M.cp = true) (hm : E.m = true) {a : A}
    {l : List (Ev T (Op K V) (SRes V))} {s : Async.DSt T A K V}
    (h : Exec (Async.DStepW u ok) (Async.DSt.init E a) l s) (k : K)
    {I : V → Prop} (hI : Only (Keeping Op.key (fun o => [o.toSpec true]) k I) (l)) {t : T} {r} (hr : Ev.ret t (.find k) r ∈ l) {v : V}
    (hv : r.shown = some v) : I v :=
  (keepsG true k I).shown (Async.C24_linearizable_partial hok hE hcombo hm h) hI hr
    (seenBy_pos rfl hv)

/-- **C80, tables of machine words.** -/
theorem C80_words {b : Nat} (hb : 1 ≤ b) {E : Env Nat} (hE : E.OK) {ok : Op Nat V → Prop}
    (hmix : Mix E.m ok) (hok : ∀ op, ok op → LegalKey E.m b op.key) {l : List (Words.WEv T V)}
    {s : Words.WSt T V} (h : Exec (Words.WStep true b E ok) Words.WSt.init l s) (k : Nat)
    {I : V → Prop} (hI : Only (Keeping Op.key (fun o => [o.toSpec E.m]) k I) (visible l)) {t : T} {r} (hr : Ev.ret t (.find k) r ∈ visible l) {v : V}
    (hv : (r.shown E.m b).map Prod.snd = some v) : I v :=
  (keepsW E.m b k I).shown (Words.C70_words_linearizable_partial hb hE hmix hok h) hI hr
    (seenBy_pos rfl hv)

/-- **C80, tables with transactions.** -/
theorem C80_tsx {Q : Tsx.Tab K} (hQ : Q.OK) {l : List (Tsx.TEv T K V)} {s : Tsx.St T K V}
    (h : Exec (Tsx.Step Q) Tsx.St.init l s) (k : K)
    {I : V → Prop} (hI : Only (Keeping Tsx.Call.key Tsx.Call.meanings k I) (visible l)) {t : T} {r} (hr : Ev.ret t (.find k) r ∈ visible l) {v : V}
    (hv : r.shown = some v) : I v :=
  (keepsT k I).shown (Tsx.C61_linearizable hQ h) hI hr
    (seenBy_pos rfl hv)

/-- **C80, heap allocated elements in a table of fixed size.** -/
theorem C80_heap_bounded {E : Env K} (hE : E.OK) {l : List (Ev T (HeapVal.HOp K V) (HeapVal.HRes V))}
    {s : HeapVal.HSt (CSt T K A) T K V A}
    (h : Exec (HeapVal.HStep (CStep E HeapVal.addrCall) HeapVal.ansB) (HeapVal.HSt.init CSt.init) l s) (k : K)
    {I : V → Prop} (hI : Only (Keeping HeapVal.HOp.key meansH k I) (l)) {t : T} {r} (hr : Ev.ret t (.find k) r ∈ l) {v : V}
    (hv : r.shown = some v) : I v :=
  (keepsH true k I).shown ((HeapVal.C72_bounded hE h).1) hI hr
    (seenBy_pos rfl hv)

/-- **C80, heap allocated elements, synchronised growth.**  Missing: as in C72. -/
theorem C80_heap_sync_partial {H : Type} [DecidableEq H] {u : Bool} {E : Env K} (hE : E.OK)
    (hcombo : E.M.cm = true → E.M.cp = true) {a : H} {l : List (Ev T (HeapVal.HOp K V) (HeapVal.HRes V))}
    {s : HeapVal.HSt (Sync.DSt T H K A) T K V A}
    (h : Exec (HeapVal.HStep (Sync.DStepW u HeapVal.addrCall) HeapVal.ansG) (HeapVal.HSt.init (Sync.DSt.init E a)) l s)
    (k : K)
    {I : V → Prop} (hI : Only (Keeping HeapVal.HOp.key meansH k I) (l)) {t : T} {r} (hr : Ev.ret t (.find k) r ∈ l) {v : V}
    (hv : r.shown = some v) : I v :=
  (keepsH false k I).shown ((HeapVal.C72_sync_partial hE hcombo h).1) hI hr
    (seenBy_pos rfl hv)

/-- **C80, heap allocated elements, asynchronous growth.**  Missing: as in C72. -/
theorem C80_heap_async_partial {H : Type} [DecidableEq H] {u : Bool} {E : Env K} (hE : E.OK)
    (hcombo : E.M.cm = true → E.M.cp = true) (hm : E.m = true) {a : H}
    {l : List (Ev T (HeapVal.HOp K V) (HeapVal.HRes V))} {s : HeapVal.HSt (Async.DSt T H K A) T K V A}
    (h : Exec (HeapVal.HStep (Async.DStepW u HeapVal.addrCall) HeapVal.ansG) (HeapVal.HSt.init (Async.DSt.init E a)) l s)
    (k : K)
    {I : V → Prop} (hI : Only (Keeping HeapVal.HOp.key meansH k I) (l)) {t : T} {r} (hr : Ev.ret t (.find k) r ∈ l) {v : V}
    (hv : r.shown = some v) : I v :=
  (keepsH false k I).shown ((HeapVal.C72_async_partial hE hcombo hm h).1) hI hr
    (seenBy_pos rfl hv)

/-- **C80, wrapper around `tbb::concurrent_hash_map`.**  Missing: the default key (C76). -/
theorem C80_locked_partial {k0 : K} {v0 : V} {adm : SOp K V → Prop} (hadm : ∀ o, adm o → o.key ≠ k0)
    {l : List (Ev T (SOp K V) (SRes V))} {s : Wrap.HSt T K V}
    (h : Exec (Wrap.HStep k0 v0 adm) Wrap.HSt.init l s) (k : K)
    {I : V → Prop} (hI : Only (Keeping SOp.key (fun o => [o]) k I) (l)) {t : T} {r} (hr : Ev.ret t (.find k) r ∈ l) {v : V}
    (hv : r.shown = some v) : I v :=
  (keepsS k I).shown (Wrap.C76_locked_linearizable_partial hadm h) hI hr
    (seenBy_pos rfl hv)

end

end Growt.Agg
