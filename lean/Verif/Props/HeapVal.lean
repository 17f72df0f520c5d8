import Verif.HeapVal
import Verif.Props.Conc
import Verif.Props.SyncLin
import Verif.Props.AsyncLin
import Verif.Props.AsyncRun
import Verif.Props.HeapMem

/-!
# C72: mapped values behind pointers

See `Verif/HeapVal.lean` for the composition of a table of addresses with a heap.
-/

set_option linter.unusedSectionVars false

namespace Growt.HeapVal

section
variable {T K V A : Type} [DecidableEq T] [DecidableEq K] [DecidableEq A] [Inhabited A]

/-- The calls that reach a table of addresses. (`complex_slot.hpp:457-606`) -/
def addrCall : Op K A → Prop
  | .find _ | .insert _ _ | .locate _ => True
  | _ => False

/-- How the caller reads the answer of a bounded table of addresses. (`base_linear.hpp:918-1064`) -/
def ansB (o : Op K A) (r : Ret K A) : Ans A :=
  match o with
  | .insert _ _ => if r.ok o then .inserted else match r.shown with | some a => .found a | none => .refused
  | _ => match r.shown with | some a => .found a | none => .absent

/-- How the caller reads the answer of a growing table of addresses. (`migration_table.hpp:560-940`) -/
def ansG (o : Op K A) (x : SRes A) : Ans A :=
  match o with
  | .insert _ _ => if x.ok then .inserted else match x.shown with | some a => .found a | none => .refused
  | _ => match x.shown with | some a => .found a | none => .absent

theorem addr_mix (m : Bool) : Mix m (addrCall (K := K) (A := A)) := by
  refine ⟨fun op h => ⟨fun k f e => by subst e; exact h, fun k d f e => by subst e; exact h⟩, fun _ k => ?_⟩
  left
  intro op h hr
  cases op <;> simp_all [addrCall, Op.removes]

theorem addr_safe (op : Op K A) (h : addrCall op) : op.isSafe := by
  cases op <;> simp_all [addrCall, Op.isSafe]

/-- The bounded table is a map of addresses that may be full. -/
theorem bounded_isMap (m : Bool) : IsMap true (boundedObj (K := K) (V := A) m) ansB := by
  constructor
  · rfl
  · rintro d k o r d' (rfl | rfl) h
    · rcases h with ⟨rfl, h1, h2⟩ | ⟨c, hc, -⟩
      · refine ⟨rfl, ?_⟩
        rcases h2 with ⟨⟨_, _, e⟩, -⟩ | h2
        · cases e
        · simp only [Op.toSpec, SOp.sem] at h2
          cases hk : d' k <;> simp [ansB, h2, hk]
      · exact hc.elim
    · rcases h with ⟨rfl, h1, h2⟩ | ⟨c, hc, -⟩
      · refine ⟨rfl, ?_⟩
        rcases h2 with ⟨⟨_, _, e⟩, -⟩ | h2
        · cases e
        · simp only [Op.toSpec, SOp.sem] at h2
          cases hk : d' k <;> simp [ansB, h2, hk]
      · exact hc.elim
  · rintro d k a r d' (⟨rfl, h1, h2⟩ | ⟨c, hc, rfl, rfl, hf⟩)
    · cases hk : d k with
      | none =>
        simp only [Op.toSpec, SOp.sem, hk] at h1 h2 ⊢
        left
        exact ⟨trivial, trivial, by simp [ansB, h1]⟩
      | some b =>
        simp only [Op.toSpec, SOp.sem, hk] at h1 h2 ⊢
        right; left
        rcases h2 with ⟨-, h2⟩ | h2
        · rw [h1] at h2; cases h2
        · exact ⟨b, rfl, trivial, by simp [ansB, h1, h2]⟩
    · right; right
      have hc' : c = .UNSUCCESS_FULL := hc
      subst hc'
      exact ⟨rfl, hf rfl, rfl, rfl⟩

/-- The growing table is a map of addresses that is never full. -/
theorem grow_isMap (m : Bool) : IsMap false (Sync.growObj (K := K) (V := A) m) ansG := by
  constructor
  · rfl
  · rintro d k o r d' (rfl | rfl) h
    · rcases h with ⟨rfl, h1, h2⟩ | ⟨⟨_, _, _, _, e, -⟩, -⟩
      · refine ⟨rfl, ?_⟩
        rcases h2 with ⟨⟨_, _, e⟩, -⟩ | h2
        · cases e
        · simp only [Op.toSpec, SOp.sem] at h2
          cases hk : d' k <;> simp [ansG, h2, hk]
      · cases e
    · rcases h with ⟨rfl, h1, h2⟩ | ⟨⟨_, _, _, _, e, -⟩, -⟩
      · refine ⟨rfl, ?_⟩
        rcases h2 with ⟨⟨_, _, e⟩, -⟩ | h2
        · cases e
        · simp only [Op.toSpec, SOp.sem] at h2
          cases hk : d' k <;> simp [ansG, h2, hk]
      · cases e
  · rintro d k a r d' (⟨rfl, h1, h2⟩ | ⟨⟨_, _, _, _, e, -⟩, -⟩)
    · cases hk : d k with
      | none =>
        simp only [Op.toSpec, SOp.sem, hk] at h1 h2 ⊢
        left
        exact ⟨trivial, trivial, by simp [ansG, h1]⟩
      | some b =>
        simp only [Op.toSpec, SOp.sem, hk] at h1 h2 ⊢
        right; left
        rcases h2 with ⟨-, h2⟩ | h2
        · rw [h1] at h2; cases h2
        · exact ⟨b, rfl, trivial, by simp [ansG, h1, h2]⟩
    · cases e

/-- What holds in every state: no thread has accessed a freed element, and an address once shown for a key
stays the address of an allocated element, the only one ever shown for this key, and shown for no other key
(referential integrity). (specification, no code) -/
def Sound {S : Type} (s : HSt S T K V A) : Prop :=
  (∀ i, s.thr i ≠ .bad) ∧ (∀ k a, s.refs k a → s.heap a ≠ none) ∧
    (∀ k a b, s.refs k a → s.refs k b → a = b) ∧ ∀ k k' a, s.refs k a → s.refs k' a → k = k'

theorem Inv.sound {S R : Type} {ans : Op K A → R → Ans A} {b : S} {d : Dict K A} {ph : T → Phase (Op K A) R}
    {heap : A → Option V} {refs : K → A → Prop} {thr : T → HThr K V A}
    (h : Inv ans ⟨(d, ph), heap, refs, thr⟩) : Sound (⟨b, heap, refs, thr⟩ : HSt S T K V A) := by
  refine ⟨fun i hi => ?_, fun k a hr hn => ?_, fun k a b h1 h2 => ?_, fun k k' a h1 h2 => ?_⟩
  · have := h.thr i
    simp only at hi this
    rw [hi] at this
    exact this
  · obtain ⟨v, hv⟩ := h.pub k a (h.refs k a hr)
    simp only at hn hv
    rw [hn] at hv; cases hv
  · have e1 := h.refs k a h1
    have e2 := h.refs k b h2
    simp only at e1 e2
    rw [e1] at e2; cases e2; rfl
  · exact h.inj k k' a (h.refs k a h1) (h.refs k' a h2)

/-- Nothing is leaked: the history has an explanation after which the ideal map is `D`, the elements of `D` are
allocated, each at its own address and with the value given by `D`; every other allocated element
belongs to an insertion that is still running. (specification, no code) -/
def Tight {S : Type} (full : Bool) (l : List (Ev T (HOp K V) (HRes V))) (s : HSt S T K V A) : Prop :=
  ∃ (L : List (Ev T (HOp K V) (HRes V))) (p : T → Phase (HOp K V) (HRes V)) (D : Dict K V) (adr : Dict K A),
    visible L = l ∧ WellFormed (fun _ => .idle) L p ∧ Legal (valObj full) (fun _ => none) (effects L) D ∧
    (∀ k v, D k = some v ↔ ∃ a, adr k = some a ∧ s.heap a = some v) ∧
    (∀ k a, adr k = some a → s.heap a ≠ none) ∧ (∀ k k' a, adr k = some a → adr k' = some a → k = k') ∧
    (∀ k a, s.refs k a → adr k = some a) ∧
    ∀ a, s.heap a ≠ none → (∃ k, adr k = some a) ∨
      ∃ i op, s.thr i = .wait op (some a) ∨ ∃ b, s.thr i = .acc op (some a) b

theorem conclude {S R : Type} {full : Bool} {ans : Op K A → R → Ans A} {l : List (Ev T (HOp K V) (HRes V))}
    {s : HSt S T K V A}
    (h : ∃ L p d ph, visible L = l ∧ WellFormed (fun _ => .idle) L p ∧
      Legal (valObj full) (fun _ => none) (effects L) (vals d s.heap) ∧
      Inv ans ⟨(d, ph), s.heap, s.refs, s.thr⟩) :
    Linearizable (valObj full) l ∧ Sound s ∧ Tight full l s := by
  obtain ⟨L, p, d, ph, h1, h2, h3, hI⟩ := h
  refine ⟨⟨L, p, _, h1, h2, h3⟩, hI.sound, L, p, _, d, h1, h2, h3, fun k v => ?_, fun k a hk => ?_, hI.inj, hI.refs,
    fun a ha => ?_⟩
  · unfold vals
    cases hk : d k <;> simp
  · obtain ⟨v, hv⟩ := hI.pub k a hk
    have hv : s.heap a = some v := hv
    rw [hv]; nofun
  · cases e : s.heap a with
    | none => exact absurd e ha
    | some v =>
      rcases hI.live a v e with h | ⟨i, h⟩
      · exact .inl h
      · refine .inr ⟨i, ?_⟩
        have h : owns ans (s.thr i) (ph i) = some a := h
        cases ht : s.thr i with
        | wait op own =>
          rw [ht] at h
          refine ⟨op, .inl ?_⟩
          have : own = some a := by
            cases hq : ph i with
            | idle => rw [hq] at h; exact h
            | called o => rw [hq] at h; exact h
            | effected o r =>
              rw [hq] at h
              simp only [owns] at h
              split at h
              · cases h
              · exact h
          rw [this]
        | acc op own b => rw [ht] at h; exact ⟨op, .inr ⟨b, by rw [show own = some a from h]⟩⟩
        | idle => rw [ht] at h; cases h
        | fin op x => rw [ht] at h; cases h
        | bad => rw [ht] at h; cases h

/-- **C72, tables of fixed size.**  Any number of threads insert, find and update (in place) heap
allocated elements, also through pointers obtained earlier: the histories are those of an ideal map of
values whose insertions may be refused, no freed element is accessed, pointers stay valid, and nothing is
leaked. -/
theorem C72_bounded {E : Env K} (hE : E.OK) {l : List (Ev T (HOp K V) (HRes V))} {s : HSt (CSt T K A) T K V A}
    (h : Exec (HStep (CStep E addrCall) ansB) (HSt.init CSt.init) l s) :
    Linearizable (valObj true) l ∧ Sound s ∧ Tight true l s := by
  exact conclude (compose (bounded_isMap E.m)
    (fun lb b hb => C02_linearizable_partial hE (addr_mix E.m) hb) h)

/-- **C72, synchronised growth**, without refusals.  Missing: the executions excluded by
`C30_linearizable_partial`. -/
theorem C72_sync_partial {H : Type} [DecidableEq H] {u : Bool} {E : Env K} (hE : E.OK)
    (hcombo : E.M.cm = true → E.M.cp = true) {a : H} {l : List (Ev T (HOp K V) (HRes V))}
    {s : HSt (Sync.DSt T H K A) T K V A}
    (h : Exec (HStep (Sync.DStepW u addrCall) ansG) (HSt.init (Sync.DSt.init E a)) l s) :
    Linearizable (valObj false) l ∧ Sound s ∧ Tight false l s := by
  exact conclude (compose (grow_isMap E.m)
    (fun lb b hb => Sync.C30_linearizable_partial hE hcombo (addr_mix E.m) hb) h)

/-- **C72, asynchronous growth**, without refusals.  Missing: the executions excluded by
`C24_linearizable_partial`. -/
theorem C72_async_partial {H : Type} [DecidableEq H] {u : Bool} {E : Env K} (hE : E.OK)
    (hcombo : E.M.cm = true → E.M.cp = true) (hm : E.m = true) {a : H} {l : List (Ev T (HOp K V) (HRes V))}
    {s : HSt (Async.DSt T H K A) T K V A}
    (h : Exec (HStep (Async.DStepW u addrCall) ansG) (HSt.init (Async.DSt.init E a)) l s) :
    Linearizable (valObj false) l ∧ Sound s ∧ Tight false l s := by
  exact conclude (compose (grow_isMap true)
    (fun lb b hb => by
      obtain ⟨g, p, d, hv, hw, hg⟩ := Async.C24_linearizable_partial addr_safe hE hcombo hm hb
      refine ⟨g, p, d, ?_, hw, hg⟩
      rw [← hv, visible_idem]) h)

end

/-! ## Concrete executions -/

/-- A table that answers anything and records what it is asked: used to combine concrete executions of real
tables with concrete executions of the heap. (proof, no code) -/
inductive Free {T O R : Type} : List (Ev T O R) → Option (Ev T O R) → List (Ev T O R) → Prop where
  | step (l : List (Ev T O R)) (e : Ev T O R) : Free l (some e) (l ++ [e])

theorem free_exec {T O R : Type} {l b : List (Ev T O R)} (h : Exec Free [] l b) : b = l := by
  induction h with
  | init => rfl
  | silent _ hs _ => cases hs
  | vis _ hs ih => cases hs; rw [ih]

/-- A concrete execution of the heap and one of a table that fit together. -/
theorem combine {S T K V A R : Type} [DecidableEq T] [DecidableEq K] [DecidableEq A]
    {B : S → Option (Ev T (Op K A) R) → S → Prop} {ans : Op K A → R → Ans A} {b0 b : S}
    {l : List (Ev T (HOp K V) (HRes V))} {lb : List (Ev T (Op K A) R)}
    {s : HSt (List (Ev T (Op K A) R)) T K V A} (h : Exec (HStep Free ans) (HSt.init []) l s)
    (hb : Exec B b0 lb b) (hv : visible lb = visible s.base) :
    Exec (HStep B ans) (HSt.init b0) l ⟨b, s.heap, s.refs, s.thr⟩ := by
  obtain ⟨lb', h1, h2⟩ := replace (B' := B) (b0' := b0) h
  rw [free_exec h1] at hv
  exact h2 lb b hb hv

section
variable {T K V A R : Type} [DecidableEq T] [DecidableEq K] [DecidableEq A]

/-- One thread alone puts an element into the table. -/
theorem free_insert {ans : Op K A → R → Ans A} {l : List (Ev T (HOp K V) (HRes V))}
    {s : HSt (List (Ev T (Op K A) R)) T K V A} (h : Exec (HStep Free ans) (HSt.init []) l s) {i : T} {k : K} {v : V}
    {a : A} {r : R} (hi : s.thr i = .idle) (ha : s.heap a = none) (hr : ans (.insert k a) r = .inserted) :
    ∃ s', Exec (HStep Free ans) (HSt.init [])
        (l ++ [.call i (.insert k v)] ++ [.ret i (.insert k v) ⟨true, true, none⟩]) s' ∧
      s'.base = s.base ++ [.call i (.insert k a)] ++ [.ret i (.insert k a) r] ∧
      s'.heap = setOwn s.heap (some a) (some v) ∧ s'.refs = s.refs ∧ s'.thr = s.thr := by
  have h1 := h.vis (HStep.call (op := .insert k v) (own := some a) hi rfl (fun b hb => by cases hb; exact ha)
    (Free.step _ _))
  have h2 := h1.silent (HStep.bret (i := i) (op := .insert k v) (own := some a) (o := .insert k a) (r := r)
    (setAt_same _ _ _) (Free.step _ _))
  have h3 := h2.vis (HStep.ret (i := i) (op := .insert k v) (x := ⟨true, true, none⟩) (by
    simp only [setAt_same, hr, afterBase]))
  refine ⟨_, h3, rfl, ?_, ?_, ?_⟩
  · funext x; simp [hr, afterBase, setOwn, HOp.value]
  · funext k' a'; simp [hr, shownAddr]
  · funext j
    by_cases e : j = i
    · subst e; simp [hi]
    · simp [setAt_other e]

/-- One thread alone finds an element. -/
theorem free_find {ans : Op K A → R → Ans A} {l : List (Ev T (HOp K V) (HRes V))}
    {s : HSt (List (Ev T (Op K A) R)) T K V A} (h : Exec (HStep Free ans) (HSt.init []) l s) {i : T} {k : K} {v : V}
    {a : A} {r : R} (hi : s.thr i = .idle) (ha : s.heap a = some v) (hr : ans (.find k) r = .found a) :
    ∃ s', Exec (HStep Free ans) (HSt.init [])
        (l ++ [.call i (.find k)] ++ [.ret i (.find k) ⟨true, true, some v⟩]) s' ∧
      s'.base = s.base ++ [.call i (.find k)] ++ [.ret i (.find k) r] ∧ s'.heap = s.heap ∧ s'.refs k a ∧
      s'.thr = s.thr := by
  have h1 := h.vis (HStep.call (op := .find k) (own := none) hi rfl nofun (Free.step _ _))
  have h2 := h1.silent (HStep.bret (i := i) (op := .find k) (own := none) (o := .find k) (r := r)
    (setAt_same _ _ _) (Free.step _ _))
  have hh : setOwn (setOwn s.heap none (HOp.find (V := V) k).value) (afterBase (V := V) (.find k) none (ans (.find k) r)).2
      none = s.heap := by
    rw [hr]; rfl
  have h3 := h2.silent (HStep.access (i := i) (op := .find k) (own := none) (a := a) (w := v) (by
    simp only [setAt_same, hr, afterBase]) (by simp only [hh]; exact ha))
  have h4 := h3.vis (HStep.ret (i := i) (op := .find k) (x := ⟨true, true, some v⟩) (setAt_same _ _ _))
  refine ⟨_, h4, rfl, ?_, .inr ⟨rfl, by rw [hr]; rfl⟩, ?_⟩
  · simp only [hh]
    funext x
    by_cases e : x = a
    · subst e; simp [setOwn, accessVal, ha]
    · simp [setOwn, setAt_other e]
  · funext j
    by_cases e : j = i
    · subst e; simp [hi]
    · simp [setAt_other e]

/-- One thread updates an element through a pointer obtained earlier, another one reads it through the same
pointer. -/
theorem free_refs {ans : Op K A → R → Ans A} {l : List (Ev T (HOp K V) (HRes V))}
    {s : HSt (List (Ev T (Op K A) R)) T K V A} (h : Exec (HStep Free ans) (HSt.init []) l s) {i j : T} (hij : i ≠ j)
    {k : K} {f : V → V} {v : V} {a : A} (hi : s.thr i = .idle) (hj : s.thr j = .idle) (hr : s.refs k a)
    (ha : s.heap a = some v) :
    ∃ s', Exec (HStep Free ans) (HSt.init [])
        (l ++ [.call i (.update k f)] ++ [.call j (.find k)] ++ [.ret i (.update k f) ⟨true, true, none⟩] ++
          [.ret j (.find k) ⟨true, true, some (f v)⟩]) s' ∧
      s'.base = s.base ∧ s'.heap a = some (f v) ∧ ∀ t, s'.thr t = s.thr t := by
  have h1 := h.vis (HStep.ref (op := .update k f) hi (.inr ⟨k, f, rfl⟩) hr)
  have h2 := h1.vis (HStep.ref (i := j) (op := .find k) (by simp only [setAt_other hij.symm]; exact hj)
    (.inl ⟨k, rfl⟩) hr)
  have h3 := h2.silent (HStep.access (i := i) (op := .update k f) (own := none) (a := a) (w := v)
    (by simp only [setAt_other hij, setAt_same]) ha)
  have h4 := h3.silent (HStep.access (i := j) (op := .find k) (own := none) (a := a) (w := f v)
    (by simp only [setAt_other hij.symm, setAt_same]) (by simp [setOwn, accessVal]))
  have h5 := h4.vis (HStep.ret (i := i) (op := .update k f) (x := ⟨true, true, none⟩)
    (by simp only [setAt_other hij, setAt_same]; rfl))
  have h6 := h5.vis (HStep.ret (i := j) (op := .find k) (x := ⟨true, true, some (f v)⟩)
    (by simp only [setAt_other hij.symm, setAt_same]; rfl))
  refine ⟨_, h6, rfl, by simp [setOwn, accessVal], fun t => ?_⟩
  by_cases e1 : t = j
  · subst e1; simp [hj]
  · by_cases e2 : t = i
    · subst e2; simp [setAt_other hij, hi]
    · simp [setAt_other e1, setAt_other e2]

end

/-- Two threads insert an element with the same key, then one of them looks for it; between the two attempts of
the first thread the second one succeeds. (model bookkeeping, no code) -/
def valSched : List (Sched Bool Nat Nat) :=
  [.call false (.insert 1 10), .call true (.insert 1 20), .step false, .step true, .step true, .ret true,
   .call true (.find 1), .step false, .step false, .step true, .ret false, .ret true]

/-- The history of the table of addresses. (model bookkeeping, no code) -/
def valBase : List (Ev Bool (Op Nat Nat) (Ret Nat Nat)) :=
  [.call false (.insert 1 10), .call true (.insert 1 20), .ret true (.insert 1 20) ⟨some .SUCCESS_IN, some (1, ⟨false, .empty⟩)⟩,
   .call true (.find 1), .ret false (.insert 1 10) ⟨some .UNSUCCESS_ALREADY_USED, some (1, ⟨false, .live 1 20⟩)⟩,
   .ret true (.find 1) ⟨none, some (1, ⟨false, .live 1 20⟩)⟩]

/-- The heap in that execution, with an update through a pointer in the end. -/
theorem val_free : ∃ s : HSt (List (Ev Bool (Op Nat Nat) (Ret Nat Nat))) Bool Nat Nat Nat,
    Exec (HStep Free ansB) (HSt.init [])
      [.call false (.insertOrUpdate 1 5 (· + 2)), .call true (.insert 1 7), .ret true (.insert 1 7) ⟨true, true, none⟩,
       .call true (.find 1), .ret false (.insertOrUpdate 1 5 (· + 2)) ⟨false, true, none⟩,
       .ret true (.find 1) ⟨true, true, some 9⟩, .call true (.update 1 (· * 3)), .call false (.find 1),
       .ret true (.update 1 (· * 3)) ⟨true, true, none⟩, .ret false (.find 1) ⟨true, true, some 27⟩] s ∧
    s.base = valBase ∧ s.heap 20 = some 27 := by
  have h1 := (Exec.init (step := HStep (V := Nat) Free (ansB (K := Nat) (A := Nat)))
    (s0 := HSt.init ([] : List (Ev Bool (Op Nat Nat) (Ret Nat Nat))))).vis
    (HStep.call (i := false) (op := .insertOrUpdate 1 5 (· + 2)) (own := some 10) rfl rfl
      (fun b hb => by cases hb; rfl) (Free.step _ _))
  have h2 := h1.vis (HStep.call (i := true) (op := .insert 1 7) (own := some 20) rfl rfl
      (fun b hb => by cases hb; rfl) (Free.step _ _))
  have h3 := h2.silent (HStep.bret (i := true) (op := .insert 1 7) (own := some 20) (o := .insert 1 20)
    (r := ⟨some .SUCCESS_IN, some (1, ⟨false, .empty⟩)⟩) rfl (Free.step _ _))
  have h4 := h3.vis (HStep.ret (i := true) (op := .insert 1 7) (x := ⟨true, true, none⟩) rfl)
  have h5 := h4.vis (HStep.call (i := true) (op := .find 1) (own := none) rfl rfl nofun (Free.step _ _))
  have h6 := h5.silent (HStep.bret (i := false) (op := .insertOrUpdate 1 5 (· + 2)) (own := some 10)
    (o := .insert 1 10) (r := ⟨some .UNSUCCESS_ALREADY_USED, some (1, ⟨false, .live 1 20⟩)⟩) rfl (Free.step _ _))
  have h7 := h6.silent (HStep.access (i := false) (op := .insertOrUpdate 1 5 (· + 2)) (own := some 10) (a := 20)
    (w := 7) rfl rfl)
  have h8 := h7.vis (HStep.ret (i := false) (op := .insertOrUpdate 1 5 (· + 2)) (x := ⟨false, true, none⟩) rfl)
  have h9 := h8.silent (HStep.bret (i := true) (op := .find 1) (own := none) (o := .find 1)
    (r := ⟨none, some (1, ⟨false, .live 1 20⟩)⟩) rfl (Free.step _ _))
  have h10 := h9.silent (HStep.access (i := true) (op := .find 1) (own := none) (a := 20) (w := 9) rfl rfl)
  have h11 := h10.vis (HStep.ret (i := true) (op := .find 1) (x := ⟨true, true, some 9⟩) rfl)
  obtain ⟨s, h12, hb, hh, -⟩ := free_refs h11 (i := true) (j := false) (by decide) (k := 1) (f := (· * 3)) (v := 9)
    (a := 20) rfl rfl (.inr ⟨rfl, rfl⟩) rfl
  exact ⟨s, h12, hb, hh⟩

/-- **C72, not vacuous for the bounded table**: two racing insertions of a key.  The loser updates the element
of the winner and frees its own one; both can go on with pointers to the element. -/
theorem C72_bounded_not_vacuous : ∃ s : HSt (CSt Bool Nat Nat) Bool Nat Nat Nat,
    Exec (HStep (CStep exE addrCall) ansB) (HSt.init CSt.init)
      [.call false (.insertOrUpdate 1 5 (· + 2)), .call true (.insert 1 7), .ret true (.insert 1 7) ⟨true, true, none⟩,
       .call true (.find 1), .ret false (.insertOrUpdate 1 5 (· + 2)) ⟨false, true, none⟩,
       .ret true (.find 1) ⟨true, true, some 9⟩, .call true (.update 1 (· * 3)), .call false (.find 1),
       .ret true (.update 1 (· * 3)) ⟨true, true, none⟩, .ret false (.find 1) ⟨true, true, some 27⟩] s ∧
    s.heap 20 = some 27 := by
  obtain ⟨s, h, hb, hh⟩ := val_free
  have hrun' : (runSched exE valSched CSt.init).map (fun x => visible x.1) = some valBase := by rfl
  cases e : runSched exE valSched CSt.init with
  | none => rw [e] at hrun'; cases hrun'
  | some x =>
    obtain ⟨l, b⟩ := x
    rw [e] at hrun'
    simp only [Option.map_some, Option.some.injEq] at hrun'
    have hX := runSched_sound (ok := addrCall) valSched [] CSt.init b l (by
      simp [valSched, Sched.allowed, addrCall]) .init e
    simp only [List.nil_append] at hX
    exact ⟨_, combine h hX (by rw [hb, hrun']; rfl), hh⟩

/-- **C72, not vacuous for synchronised growth**: an element is inserted, the table grows, the element is
found, updated and read through pointers. -/
theorem C72_sync_not_vacuous : ∃ s : HSt (Sync.DSt Nat Nat Nat Nat) Nat Nat Nat Nat,
    Exec (HStep (Sync.DStepW false addrCall) ansG) (HSt.init (Sync.DSt.init exE 0))
      [.call 0 (.insert 7 100), .ret 0 (.insert 7 100) ⟨true, true, none⟩,
       .call 0 (.find 7), .ret 0 (.find 7) ⟨true, true, some 100⟩, .call 0 (.update 7 (· + 1)), .call 1 (.find 7),
       .ret 0 (.update 7 (· + 1)) ⟨true, true, none⟩, .ret 1 (.find 7) ⟨true, true, some 101⟩] s ∧
    s.heap 5 = some 101 ∧ s.base.p.table = .clear 1 := by
  obtain ⟨l, b, hX, hv, ht, -⟩ := Sync.C30_not_vacuous
  have hx : Exec (Sync.DStepW false addrCall) (Sync.DSt.init exE 0) l b := by
    refine HeapMem.sync_recallX hX fun i o hm => ?_
    have := HeapMem.call_visible hm
    rw [hv] at this
    simp only [List.mem_cons, List.not_mem_nil, or_false, reduceCtorEq, false_or, Ev.call.injEq] at this
    rcases this with ⟨-, rfl⟩ | ⟨-, rfl⟩ <;> trivial
  obtain ⟨s1, h1, b1, e1, r1, t1⟩ := free_insert (T := Nat) (ans := ansG (K := Nat) (A := Nat)) Exec.init (i := 0) (k := 7)
    (v := 100) (a := 5) (r := ⟨true, none⟩) rfl rfl rfl
  obtain ⟨s2, h2, b2, e2, r2, t2⟩ := free_find h1 (i := 0) (k := 7) (v := 100) (a := 5) (r := ⟨true, some 5⟩)
    (by rw [t1]; rfl) (by rw [e1]; rfl) rfl
  obtain ⟨s3, h3, b3, e3, t3⟩ := free_refs h2 (i := 0) (j := 1) (by decide) (k := 7) (f := (· + 1)) (v := 100) (a := 5)
    (by rw [t2, t1]; rfl) (by rw [t2, t1]; rfl) r2 (by rw [e2, e1]; rfl)
  refine ⟨_, combine h3 hx ?_, e3, ht⟩
  rw [hv, b3, b2, b1]
  rfl

/-- **C72, not vacuous for asynchronous growth**: an element is inserted while another thread migrates the
table, found in the new table, updated and read through pointers. -/
theorem C72_async_not_vacuous : ∃ s : HSt (Async.DSt Nat Nat Nat Nat) Nat Nat Nat Nat,
    Exec (HStep (Async.DStepW false addrCall) ansG) (HSt.init (Async.DSt.init exM 0))
      [.call 0 (.insert 511 100), .ret 0 (.insert 511 100) ⟨true, true, none⟩,
       .call 0 (.insert 1023 200), .ret 0 (.insert 1023 200) ⟨true, true, none⟩,
       .call 0 (.find 1023), .ret 0 (.find 1023) ⟨true, true, some 200⟩, .call 0 (.update 1023 (· + 1)),
       .call 1 (.find 1023), .ret 0 (.update 1023 (· + 1)) ⟨true, true, none⟩,
       .ret 1 (.find 1023) ⟨true, true, some 201⟩] s ∧
    s.heap 8 = some 201 ∧ s.base.p.glob = 1 := by
  obtain ⟨b, hX, hg⟩ : ∃ b : Async.DSt Nat Nat Nat Nat,
      Exec (Async.DStepW false addrCall) (Async.DSt.init exM 0) (Async.exHist ⟨true, some 8⟩) b ∧ b.p.glob = 1 := by
    obtain ⟨s, h, hA, hH, hj⟩ := Async.part_a false true (ok := addrCall) (fun _ _ => trivial)
    obtain ⟨s, h, hA, hH, hm, hj⟩ := Async.part_b h hA hH hj
    obtain ⟨s, h, hA, hH, hm, hj⟩ := Async.blockX h hA (m := ⟨Async.src0, freshTarget Async.exM2, false⟩) hH hm hj
      (Async.job_to_tail false) (fun _ => rfl)
    obtain ⟨s', h, hA, hH, hj', hm'⟩ := Async.insertX h hA hH
    obtain ⟨src3, hr⟩ := Async.job_good false
    obtain ⟨s, h, hA, hH, hm, hj⟩ := Async.blockX h hA (m := ⟨Async.src2, Async.tgt1, false⟩) hH
      (by rw [hm']; exact hm) (by rw [hj']; exact hj) hr (fun _ => rfl)
    obtain ⟨s', o, h, hA, hH, hm'⟩ := Async.part_d h rfl hA hH hj rfl (fun _ => rfl)
    obtain ⟨s', h, h1, h2, h3, h4⟩ := Async.findX h rfl hA hH (T := published Async.tgt2) (y := ⟨true, some 8⟩)
      (by rw [hm', hm]) (fun _ => rfl) Async.find_good.1 Async.find_good.2 rfl trivial
    exact ⟨s', h.mono (fun _ _ _ => Async.XStep.stepW), h1⟩
  obtain ⟨s1, h1, b1, e1, r1, t1⟩ := free_insert (T := Nat) (ans := ansG (K := Nat) (A := Nat)) Exec.init (i := 0)
    (k := 511) (v := 100) (a := 7) (r := ⟨true, none⟩) rfl rfl rfl
  obtain ⟨s2, h2, b2, e2, r2, t2⟩ := free_insert h1 (i := 0) (k := 1023) (v := 200) (a := 8) (r := ⟨true, none⟩)
    (by rw [t1]; rfl) (by rw [e1]; rfl) rfl
  obtain ⟨s3, h3, b3, e3, r3, t3⟩ := free_find h2 (i := 0) (k := 1023) (v := 200) (a := 8) (r := ⟨true, some 8⟩)
    (by rw [t2, t1]; rfl) (by rw [e2, e1]; rfl) rfl
  obtain ⟨s4, h4, b4, e4, t4⟩ := free_refs h3 (i := 0) (j := 1) (by decide) (k := 1023) (f := (· + 1)) (v := 200) (a := 8)
    (by rw [t3, t2, t1]; rfl) (by rw [t3, t2, t1]; rfl) r3 (by rw [e3, e2, e1]; rfl)
  refine ⟨_, combine h4 hX ?_, e4, hg⟩
  rw [b4, b3, b2, b1]
  rfl

end Growt.HeapVal
