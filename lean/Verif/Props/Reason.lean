import Verif.Reason
import Verif.Props.Bench

/-!
# C82: answers have reasons
-/

set_option linter.unusedSectionVars false

namespace Growt.Agg

section
variable {T K V A : Type} [DecidableEq T] [DecidableEq K] [DecidableEq V] [Inhabited V] [DecidableEq A] [Inhabited A]

/-! ## What results say -/

/-- What the boolean of a result says about the key: an insertion that fails and has found an element (`e`) says that
the key is there, one that fails without (the table is full) that it is not; an `update` with backoff and an `erase_if`
that fail say nothing. (specification; the booleans are those of `base_linear.hpp:918-1064`) -/
def saysOf : Op K V → Bool → Bool → Option (K × Bool)
  | .find k, ok, _ | .locate k, ok, _ | .update k _, ok, _ | .updateUnsafe k _, ok, _ | .erase k, ok, _ => some (k, ok)
  | .insert k _, ok, e | .insertOrUpdate k _ _, ok, e | .insertOrUpdateUnsafe k _ _, ok, e => some (k, !ok && e)
  | .updateBackoff k _ _, ok, _ | .eraseIf k _, ok, _ => if ok then some (k, true) else none

/-- Tables of fixed size (`base_linear.hpp:918-1064`). -/
def saysB (o : Op K V) (r : Ret K V) : Option (K × Bool) := saysOf o (r.ok o) r.shown.isSome

/-- Growing tables; insertions are never refused (`migration_table.hpp:590-1000`). -/
def saysG (o : Op K V) (x : SRes V) : Option (K × Bool) := saysOf o x.ok true

/-- Tables of machine words (`base_linear.hpp:918-1064`). -/
def saysW (m : Bool) (b : Nat) (o : Op Nat V) (r : Words.WRet V) : Option (Nat × Bool) :=
  saysOf o (r.ok o) (r.shown m b).isSome

/-- Tables with transactions (`tsx_circular.hpp:448, 545, 723-724, 889`). -/
def saysT (o : Tsx.Call K V) (r : Tsx.Ret K V) : Option (K × Bool) :=
  match o with
  | .find k | .update k _ | .erase k => some (k, r.ok o)
  | .insert k _ | .insertOrUpdate k _ _ => some (k, !r.ok o)

/-- Heap allocated elements (`base_linear.hpp:918-1064`). -/
def saysH (o : HeapVal.HOp K V) (x : HeapVal.HRes V) : Option (K × Bool) :=
  match o with
  | .find k | .update k _ => some (k, x.ok)
  | .insert k _ | .insertOrUpdate k _ _ => some (k, !x.ok && x.elem)

/-- Ideal maps (README.org:34-78). (specification, no code) -/
def saysS (o : SOp K V) (x : SRes V) : Option (K × Bool) :=
  match o with
  | .find k | .modify k _ | .erase k => some (k, x.ok)
  | .insert k _ | .insertOrModify k _ _ => some (k, !x.ok)
  | .eraseIf k _ => if x.ok then some (k, true) else none

theorem saysS_true {o : SOp K V} {d : Dict K V} {k : K} {b : Bool} (h : saysS o (o.sem d).2 = some (k, b)) :
    (d k).isSome = b := by
  cases o with
  | find k' => simp only [saysS, SOp.sem, Option.some.injEq, Prod.mk.injEq] at h; obtain ⟨rfl, rfl⟩ := h; rfl
  | insert k' v =>
    rcases Option.eq_none_or_eq_some (d k') with hd | ⟨w, hd⟩ <;>
      simp only [saysS, SOp.sem, hd, Option.some.injEq, Prod.mk.injEq] at h <;> obtain ⟨rfl, rfl⟩ := h <;> simp [hd]
  | modify k' g =>
    rcases Option.eq_none_or_eq_some (d k') with hd | ⟨w, hd⟩ <;>
      simp only [saysS, SOp.sem, hd, Option.some.injEq, Prod.mk.injEq] at h <;> obtain ⟨rfl, rfl⟩ := h <;> simp [hd]
  | insertOrModify k' v g =>
    rcases Option.eq_none_or_eq_some (d k') with hd | ⟨w, hd⟩ <;>
      simp only [saysS, SOp.sem, hd, Option.some.injEq, Prod.mk.injEq] at h <;> obtain ⟨rfl, rfl⟩ := h <;> simp [hd]
  | erase k' =>
    rcases Option.eq_none_or_eq_some (d k') with hd | ⟨w, hd⟩ <;>
      simp only [saysS, SOp.sem, hd, Option.some.injEq, Prod.mk.injEq] at h <;> obtain ⟨rfl, rfl⟩ := h <;> simp [hd]
  | eraseIf k' v =>
    by_cases hd : d k' = some v
    · simp [saysS, SOp.sem, hd] at h; obtain ⟨rfl, rfl⟩ := h; simp [hd]
    · simp [saysS, SOp.sem, hd] at h

/-- A call of the tables says what the call of the ideal map says. -/
theorem saysOf_spec {m : Bool} {o : Op K V} {d : Dict K V} {ok e : Bool} {k : K} {b : Bool}
    (hok : ok = ((o.toSpec m).sem d).2.ok) (he : ok = false → e = ((o.toSpec m).sem d).2.shown.isSome ∨ e = true)
    (h : saysOf o ok e = some (k, b)) : (d k).isSome = b := by
  subst hok
  refine saysS_true (o := o.toSpec m) ?_
  rw [← h]
  cases o with
  | insert k' v =>
    rcases Option.eq_none_or_eq_some (d k') with hd | ⟨w, hd⟩ <;> simp [saysOf, Op.toSpec, SOp.sem, hd, saysS] at he ⊢
    exact he
  | insertOrUpdate k' v g =>
    rcases Option.eq_none_or_eq_some (d k') with hd | ⟨w, hd⟩ <;> simp [saysOf, Op.toSpec, SOp.sem, hd, saysS] at he ⊢
    exact he
  | insertOrUpdateUnsafe k' v g =>
    rcases Option.eq_none_or_eq_some (d k') with hd | ⟨w, hd⟩ <;> simp [saysOf, Op.toSpec, SOp.sem, hd, saysS] at he ⊢
    exact he
  | updateBackoff k' f b' =>
    rcases Option.eq_none_or_eq_some (d k') with hd | ⟨w, hd⟩
    · simp [saysOf, Op.toSpec, SOp.sem, hd] at h
    · simp [saysOf, Op.toSpec, SOp.sem, hd, saysS]
  | _ => rfl

theorem truthB (m : Bool) : Truthful (boundedObj m) (saysB (K := K) (V := V)) where
  tells := by
    intro d d' o r k b hl hk
    rcases hl with ⟨-, h1, h2⟩ | ⟨c, hc, rfl, -, hf⟩
    · refine saysOf_spec h1 (fun hn => ?_) hk
      rcases h2 with ⟨-, h⟩ | h
      · rw [hn] at h; cases h
      · exact .inl (by rw [h])
    · have hno := refused_ok hc
      unfold saysB at hk
      rw [hno] at hk
      cases o <;> simp only [Op.mayRefuse] at hc <;> simp [saysOf, Ret.shown] at hk
      all_goals
        obtain ⟨rfl, rfl⟩ := hk
        have hd := hf hc
        simp only [Op.key] at hd
        rw [hd]; rfl

theorem truthG (m : Bool) : Truthful (Sync.growObj m) (saysG (K := K) (V := V)) where
  tells := by
    intro d d' o r k b hl hk
    rcases hl with ⟨-, h1, -⟩ | ⟨⟨k', f, b', n, rfl, -⟩, rfl, -⟩
    · exact saysOf_spec h1 (fun _ => .inr rfl) hk
    · simp [saysG, saysOf] at hk

theorem truthW (m : Bool) (b : Nat) : Truthful (Words.wordObj m b) (saysW (V := V) m b) where
  tells := by
    intro d d' o r k c' hl hk
    rcases hl with ⟨-, h1, h2⟩ | ⟨c, hc, rfl, -, hf⟩
    · refine saysOf_spec h1 (fun hn => ?_) hk
      rcases h2 with ⟨-, h⟩ | h
      · rw [hn] at h; cases h
      · exact .inl (by rw [h]; simp)
    · have hno := refusedW_ok hc
      unfold saysW at hk
      rw [hno] at hk
      cases o <;> simp only [Op.mayRefuse] at hc <;> simp [saysOf, Words.WRet.shown] at hk
      all_goals
        obtain ⟨rfl, rfl⟩ := hk
        have hd := hf hc
        simp only [Op.key] at hd
        rw [hd]; rfl

theorem truthT : Truthful Tsx.idealObj (saysT (K := K) (V := V)) where
  tells := by
    intro d d' o r k b hl hk
    obtain ⟨-, h, -⟩ := hl
    refine saysS_true (o := o.meaning r.committed) ?_
    rw [← hk]
    cases o <;> simp only [saysT, Tsx.Call.meaning, saysS] at h ⊢ <;> rw [h]

theorem truthH (full : Bool) : Truthful (HeapVal.valObj full) (saysH (K := K) (V := V)) where
  tells := by
    intro d d' o r k b hl hk
    cases o with
    | find k' =>
      obtain ⟨-, rfl⟩ := hl
      simp [saysH] at hk; obtain ⟨rfl, rfl⟩ := hk; rfl
    | update k' f =>
      simp only [HeapVal.valObj] at hl
      split at hl <;> rename_i hd <;> obtain ⟨-, rfl⟩ := hl <;> simp [saysH] at hk <;> obtain ⟨rfl, rfl⟩ := hk <;>
        simp [hd]
    | insert k' v =>
      simp only [HeapVal.valObj] at hl
      split at hl <;> rename_i hd
      · obtain ⟨-, rfl⟩ := hl; simp [saysH] at hk; obtain ⟨rfl, rfl⟩ := hk; simp [hd]
      · rcases hl with ⟨-, rfl⟩ | ⟨-, -, rfl⟩ <;> simp [saysH] at hk <;> obtain ⟨rfl, rfl⟩ := hk <;> simp [hd]
    | insertOrUpdate k' v f =>
      simp only [HeapVal.valObj] at hl
      split at hl <;> rename_i hd
      · obtain ⟨-, rfl⟩ := hl; simp [saysH] at hk; obtain ⟨rfl, rfl⟩ := hk; simp [hd]
      · rcases hl with ⟨-, rfl⟩ | ⟨-, -, rfl⟩ <;> simp [saysH] at hk <;> obtain ⟨rfl, rfl⟩ := hk <;> simp [hd]

theorem truthS : Truthful Wrap.mapObj (saysS (K := K) (V := V)) where
  tells := by
    intro d d' o r k b hl hk
    have h' : o.sem d = (d', r) := hl
    exact saysS_true (o := o) (by rw [h']; exact hk)

/-! ## C82 -/

/-- **C82, tables of fixed size.**  A call that says that `k` is there (a successful find, update or erasure, a failed
insertion) is preceded by other calls that may have inserted it, one more than erasures of it had been reported before;
a call that says that it is not there, by as many calls that may have erased it as insertions of it had been
reported. -/
theorem C82_bounded {E : Env K} (hE : E.OK) {ok : Op K V → Prop} (hmix : Mix E.m ok) {l : List (TEv T K V)}
    {s : CSt T K V} (h : Exec (CStep E ok) CSt.init l s) (k : K) : Reasoned bookB saysB k (visible l) :=
  (keeperB E.m k).reasoned (truthB E.m) (C02_linearizable_partial hE hmix h)

/-- **C82, synchronised growth.**  Missing: the executions excluded by `C30_linearizable_partial`. -/
theorem C82_sync_partial {u : Bool} {ok : Op K V → Prop} {E : Env K} (hE : E.OK)
    (hcombo : E.M.cm = true → E.M.cp = true) (hmix : Mix E.m ok) {a : A}
    {l : List (Ev T (Op K V) (SRes V))} {s : Sync.DSt T A K V}
    (h : Exec (Sync.DStepW u ok) (Sync.DSt.init E a) l s) (k : K) : Reasoned bookG saysG k (visible l) :=
  (keeperG E.m k).reasoned (truthG E.m) (Sync.C30_linearizable_partial hE hcombo hmix h)

/-- **C82, asynchronous growth.**  Missing: the executions excluded by `C24_linearizable_partial`. -/
theorem C82_async_partial {u : Bool} {ok : Op K V → Prop} (hok : ∀ op, ok op → op.isSafe) {E : Env K} (hE : E.OK)
    (hcombo : E.M.cm = true → E.M.cp = true) (hm : E.m = true) {a : A}
    {l : List (Ev T (Op K V) (SRes V))} {s : Async.DSt T A K V}
    (h : Exec (Async.DStepW u ok) (Async.DSt.init E a) l s) (k : K) : Reasoned bookG saysG k l :=
  (keeperG true k).reasoned (truthG true) (Async.C24_linearizable_partial hok hE hcombo hm h)

/-- **C82, tables of machine words** (C70). -/
theorem C82_words {b : Nat} (hb : 1 ≤ b) {E : Env Nat} (hE : E.OK) {ok : Op Nat V → Prop}
    (hmix : Mix E.m ok) (hok : ∀ op, ok op → LegalKey E.m b op.key) {l : List (Words.WEv T V)}
    {s : Words.WSt T V} (h : Exec (Words.WStep true b E ok) Words.WSt.init l s) (k : Nat) :
    Reasoned (bookW E.m b) (saysW E.m b) k (visible l) :=
  (keeperW E.m b k).reasoned (truthW E.m b) (Words.C70_words_linearizable_partial hb hE hmix hok h)

/-- **C82, tables with transactions** (C61). -/
theorem C82_tsx {Q : Tsx.Tab K} (hQ : Q.OK) {l : List (Tsx.TEv T K V)} {s : Tsx.St T K V}
    (h : Exec (Tsx.Step Q) Tsx.St.init l s) (k : K) : Reasoned bookT saysT k (visible l) :=
  (keeperT k).reasoned (truthT) (Tsx.C61_linearizable hQ h)

/-- **C82, heap allocated elements** in a table of fixed size (C72). -/
theorem C82_heap_bounded {E : Env K} (hE : E.OK) {l : List (Ev T (HeapVal.HOp K V) (HeapVal.HRes V))}
    {s : HeapVal.HSt (CSt T K A) T K V A}
    (h : Exec (HeapVal.HStep (CStep E HeapVal.addrCall) HeapVal.ansB) (HeapVal.HSt.init CSt.init) l s) (k : K) :
    Reasoned bookH saysH k l :=
  (keeperH true k).reasoned (truthH true) (HeapVal.C72_bounded hE h).1

/-- **C82, heap allocated elements**, synchronised growth (C72). -/
theorem C82_heap_sync_partial {H : Type} [DecidableEq H] {u : Bool} {E : Env K} (hE : E.OK)
    (hcombo : E.M.cm = true → E.M.cp = true) {a : H} {l : List (Ev T (HeapVal.HOp K V) (HeapVal.HRes V))}
    {s : HeapVal.HSt (Sync.DSt T H K A) T K V A}
    (h : Exec (HeapVal.HStep (Sync.DStepW u HeapVal.addrCall) HeapVal.ansG) (HeapVal.HSt.init (Sync.DSt.init E a)) l s)
    (k : K) : Reasoned bookH saysH k l :=
  (keeperH false k).reasoned (truthH false) (HeapVal.C72_sync_partial hE hcombo h).1

/-- **C82, heap allocated elements**, asynchronous growth (C72). -/
theorem C82_heap_async_partial {H : Type} [DecidableEq H] {u : Bool} {E : Env K} (hE : E.OK)
    (hcombo : E.M.cm = true → E.M.cp = true) (hm : E.m = true) {a : H}
    {l : List (Ev T (HeapVal.HOp K V) (HeapVal.HRes V))} {s : HeapVal.HSt (Async.DSt T H K A) T K V A}
    (h : Exec (HeapVal.HStep (Async.DStepW u HeapVal.addrCall) HeapVal.ansG) (HeapVal.HSt.init (Async.DSt.init E a)) l s)
    (k : K) : Reasoned bookH saysH k l :=
  (keeperH false k).reasoned (truthH false) (HeapVal.C72_async_partial hE hcombo hm h).1

/-- **C82, wrapper around `tbb::concurrent_hash_map`** (C76).  Missing: the default key (C76). -/
theorem C82_locked_partial {k0 : K} {v0 : V} {adm : SOp K V → Prop} (hadm : ∀ o, adm o → o.key ≠ k0)
    {h : List (Ev T (SOp K V) (SRes V))} {s : Wrap.HSt T K V}
    (hx : Exec (Wrap.HStep k0 v0 adm) Wrap.HSt.init h s) (k : K) : Reasoned bookS saysS k h :=
  (keeperS k).reasoned (truthS) (Wrap.C76_locked_linearizable_partial hadm hx)

end
end Growt.Agg
