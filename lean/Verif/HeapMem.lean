import Verif.Conc
import Verif.AsyncData

/-!
# Heap memory of tables with heap allocated elements (`complex_slot`)

The slots of such a table hold a pointer to the element.  At the level of pointers the table is the table
of the other files with addresses as values: `Cell.live k a` is a slot that points to the element at
`a` with key `k`.

* A call of `insert`, `insert_or_update` and their variants allocates an element and builds a slot from it
  (`slot_type(k, d)`, `complex_slot.hpp:198-259`; `base_linear.hpp:918-1084`,
  `migration_table.hpp:549-588, 768-798`), also if the key is present.
* If the call returns that nothing was inserted, the element is freed (`slot.cleanup()`,
  `base_linear.hpp:925-928, 955-958, 1022-1025, 1041-1044`, `migration_table.hpp:556-559, 569-572,
  583-586, 775-778, 793-796`).
* Updates change the element in place, through the pointer (`complex_slot.hpp:531-606`): the slot is not
  written.
* Removals are not available for such slots: `atomic_delete` (`complex_slot.hpp:489-496`) does not compile.
-/

set_option linter.unusedSectionVars false

namespace Growt
namespace HeapMem

/-- Addresses of elements. (`slot_type::_mfptr`, `complex_slot.hpp:92`) -/
abbrev Addr := Nat

/-! ## Specification: a heap -/

/-- Calls to the allocator (`complex_slot.hpp:172-181`). -/
inductive HEv where
  | malloc (a : Addr)
  | free (a : Addr)
  deriving DecidableEq

/-- Outcome of a sequence of calls to the allocator: the blocks in use; or the allocator gave away a block
that is in use; or a block was freed that is not in use (undefined behaviour). (specification, no code) -/
inductive HOut where
  | ok (h : Addr → Bool)
  | badAlloc
  | badFree

/-- A heap.  Freed addresses may be given out again. (specification, no code) -/
def hrun : (Addr → Bool) → List HEv → HOut
  | h, [] => .ok h
  | h, .malloc a :: l => if h a then .badAlloc else hrun (fun b => if b = a then true else h b) l
  | h, .free a :: l => if h a then hrun (fun b => if b = a then false else h b) l else .badFree

theorem hrun_append (h : Addr → Bool) (l l' : List HEv) :
    hrun h (l ++ l') = match hrun h l with
      | .ok h' => hrun h' l'
      | .badAlloc => .badAlloc
      | .badFree => .badFree := by
  induction l generalizing h with
  | nil => rfl
  | cons e l ih =>
    cases e <;> simp only [List.cons_append, hrun] <;> split <;> first | rfl | exact ih _

/-- Freeing each block in use once. -/
theorem hrun_free_all {h : Addr → Bool} {L : List Addr} (hn : L.Nodup) (hm : ∀ a, h a = true ↔ a ∈ L) :
    hrun h (L.map .free) = .ok (fun _ => false) := by
  induction L generalizing h with
  | nil =>
    simp only [List.map_nil, hrun, HOut.ok.injEq]
    funext a
    cases ha : h a with
    | false => rfl
    | true => exact absurd ((hm a).1 ha) (by simp)
  | cons b L ih =>
    have hb : h b = true := (hm b).2 List.mem_cons_self
    simp only [List.map_cons, hrun, hb, if_true]
    refine ih (List.nodup_cons.1 hn).2 fun a => ?_
    by_cases e : a = b
    · subst e; simp [(List.nodup_cons.1 hn).1]
    · simp [e, hm]

/-! ## Calls -/

/-- An update of an element through its pointer leaves the slot as it is (`complex_slot.hpp:531-606`).
The model compares the slot once more before it reports success, the code does not: the calls in which
this makes a difference neither allocate nor free at that time. -/
def inPlace : UpdFn Addr := ⟨fun a => a, fun a => a, none⟩

/-- The calls of a table with heap allocated elements. (`complex_slot.hpp:172-181, 489-496, 531-606`) -/
def heapCall {K : Type} : Op K Addr → Prop
  | .find _ | .insert _ _ | .locate _ => True
  | .update _ f | .updateBackoff _ f _ | .insertOrUpdate _ _ f => f = inPlace
  | _ => False

/-- The element that a call allocates. (`complex_slot.hpp:198-259`) -/
def alloc? {K : Type} : Op K Addr → Option Addr
  | .insert _ a | .insertOrUpdate _ a _ | .insertOrUpdateUnsafe _ a _ => some a
  | _ => none

/-- The element that a call frees before it returns, given its flag.
(`base_linear.hpp:925-928, 955-958, 1022-1025, 1041-1044`) -/
def freed {K : Type} (op : Op K Addr) (ok : Bool) : Option Addr := if ok then none else alloc? op

section
variable {T O R : Type}

/-- The calls to the allocator in a history; `al`: what a call allocates, `fr`: what it frees.
(specification, no code) -/
def trace (al : O → Option Addr) (fr : O → R → Option Addr) : List (Ev T O R) → List HEv
  | [] => []
  | .call _ o :: l => ((al o).toList.map .malloc) ++ trace al fr l
  | .lin _ _ _ :: l => trace al fr l
  | .ret _ o r :: l => ((fr o r).toList.map .free) ++ trace al fr l

theorem trace_append (al : O → Option Addr) (fr : O → R → Option Addr) (l l' : List (Ev T O R)) :
    trace al fr (l ++ l') = trace al fr l ++ trace al fr l' := by
  induction l with
  | nil => rfl
  | cons e l ih => cases e <;> simp [trace, ih]

theorem trace_visible (al : O → Option Addr) (fr : O → R → Option Addr) (l : List (Ev T O R)) :
    trace al fr (visible l) = trace al fr l := by
  induction l with
  | nil => rfl
  | cons e l ih => cases e <;> simp [trace, visible, ih]

end

section
variable {T K : Type} [DecidableEq T] [DecidableEq K]

/-- History of a bounded table. (specification, no code) -/
def baseTrace (l : List (Ev T (Op K Addr) (Ret K Addr))) : List HEv :=
  trace alloc? (fun o r => freed o (r.ok o)) l

/-- History of a growing table. (specification, no code) -/
def growTrace (l : List (Ev T (Op K Addr) (SRes Addr))) : List HEv :=
  trace alloc? (fun o x => freed o x.ok) l

/-- `slot_cleanup`, `base_linear.hpp:353-358`: every slot of the allocation is loaded, and its element is
freed if the pointer is not null (`complex_slot.hpp:415-427`). -/
def slotCleanup (E : Env K) (t : Tbl K Addr) : List Addr :=
  (List.range E.M.total).filterMap fun i => (t i).val?

/-- Destructor of a bounded table, `base_linear.hpp:440-450`; `cleanup`: `base_linear.hpp:52`, `true` for
tables that do not grow (`table_config.hpp:83-92`). -/
def baseDtor (cleanup : Bool) (E : Env K) (t : Tbl K Addr) : List HEv :=
  if cleanup then (slotCleanup E t).map .free else []

/-- Destructor of an asynchronously growing table, `estrat_async.hpp:118-131`: the slots of the current table
are cleaned, then it is deleted; as the base table of a growing table it does nothing more. -/
def asyncDtor {A : Type} (s : Async.DSt T A K Addr) : List HEv :=
  (slotCleanup (s.env s.p.glob) (published (s.mem s.p.glob))).map .free ++
    baseDtor false (s.env s.p.glob) (published (s.mem s.p.glob))

/-- Destructor of a synchronously growing table, `estrat_sync.hpp:197-200`: the current table, at address
`a`, is deleted; it is the base table of a growing table. -/
def syncDtor {A : Type} (s : Sync.DSt T A K Addr) (a : A) : List HEv :=
  baseDtor false (s.env a) (published (s.mem a))

end

/-! ## Generic: elements in use are not freed -/

section
variable {S T O R : Type} [DecidableEq T]

/-- What a system has to satisfy: `reach s a`: some slot of a table, some local variable, or the result of
a successful call refers to the element `a`; `owns s i`: the element that thread `i` has allocated and
not yet given to a table. (proof, no code) -/
structure Discipline (step : S → Option (Ev T O R) → S → Prop) (J : S → Prop) (al : O → Option Addr)
    (fr : O → R → Option Addr) (sh : O → R → Addr → Prop) (reach : S → Addr → Prop)
    (owns : S → T → Option Addr) : Prop where
  keep : ∀ {s e s'}, J s → step s e s' → J s'
  quiet : ∀ {s e s'}, J s → step s e s' → (∀ i o, e ≠ some (.call i o)) → (∀ i o r, e ≠ some (.ret i o r)) →
    (∀ i, owns s' i = owns s i ∨ owns s' i = none) ∧
    ∀ a, reach s' a → reach s a ∨ ∃ i, owns s i = some a ∧ owns s' i = none
  call : ∀ {s i o s'}, J s → step s (some (.call i o)) s' →
    (∀ a, reach s' a → reach s a) ∧ owns s i = none ∧ owns s' i = al o ∧ ∀ j, j ≠ i → owns s' j = owns s j
  ret : ∀ {s i o r s'}, J s → step s (some (.ret i o r)) s' →
    (∀ a, reach s' a → reach s a) ∧ owns s i = fr o r ∧ owns s' i = none ∧
    (∀ j, j ≠ i → owns s' j = owns s j) ∧ ∀ a, sh o r a → reach s a

/-- The invariant: the blocks in use contain everything that is reachable, was shown to a caller, or is
owned by a thread; owned elements are not reachable and have one owner. (proof, no code) -/
structure Good (sh : O → R → Addr → Prop) (reach : S → Addr → Prop) (owns : S → T → Option Addr)
    (l : List (Ev T O R)) (s : S) (h : Addr → Bool) : Prop where
  own : ∀ i a, owns s i = some a → h a = true ∧ ¬ reach s a ∧
    (∀ j, owns s j = some a → j = i) ∧ ∀ j o r, .ret j o r ∈ l → ¬ sh o r a
  live : ∀ a, reach s a → h a = true
  seen : ∀ i o r a, .ret i o r ∈ l → sh o r a → h a = true

theorem Discipline.good {step : S → Option (Ev T O R) → S → Prop} {J : S → Prop} {al : O → Option Addr}
    {fr : O → R → Option Addr} {sh : O → R → Addr → Prop} {reach : S → Addr → Prop}
    {owns : S → T → Option Addr} (D : Discipline step J al fr sh reach owns) {s0 : S} (h0 : J s0)
    (hr : ∀ a, ¬ reach s0 a) (ho : ∀ i, owns s0 i = none) {l : List (Ev T O R)} {s : S}
    (h : Exec step s0 l s) (hf : hrun (fun _ => false) (trace al fr l) ≠ .badAlloc) :
    J s ∧ ∃ hp, hrun (fun _ => false) (trace al fr l) = .ok hp ∧ Good sh reach owns l s hp := by
  have quiet : ∀ {l l' : List (Ev T O R)} {s s' : S} {e hp}, (∀ i o r, .ret i o r ∈ l' → .ret i o r ∈ l) →
      J s → step s e s' → (∀ i o, e ≠ some (.call i o)) → (∀ i o r, e ≠ some (.ret i o r)) →
      Good sh reach owns l s hp → Good sh reach owns l' s' hp := by
    intro l l' s s' e hp hl hJ hs h1 h2 hG
    obtain ⟨q1, q2⟩ := D.quiet hJ hs h1 h2
    have back : ∀ i a, owns s' i = some a → owns s i = some a := by
      intro i a hi
      rcases q1 i with e | e
      · rw [← e]; exact hi
      · rw [e] at hi; cases hi
    refine ⟨fun i a hi => ?_, fun a ha => ?_, fun i o r a hm => hG.seen i o r a (hl i o r hm)⟩
    · obtain ⟨g1, g2, g3, g4⟩ := hG.own i a (back i a hi)
      refine ⟨g1, fun hre => ?_, fun j hj => g3 j (back j a hj), fun j o r hm => g4 j o r (hl j o r hm)⟩
      rcases q2 a hre with h | ⟨j, hj, hn⟩
      · exact g2 h
      · rw [g3 j hj, hi] at hn; cases hn
    · rcases q2 a ha with h | ⟨j, hj, -⟩
      · exact hG.live a h
      · exact (hG.own j a hj).1
  induction h with
  | init =>
    exact ⟨h0, _, rfl, fun i a hi => (by rw [ho] at hi; cases hi), fun a ha => absurd ha (hr a),
      fun _ _ _ _ hm => (by cases hm)⟩
  | silent h hs ih =>
    obtain ⟨hJ, hp, e, hG⟩ := ih hf
    exact ⟨D.keep hJ hs, hp, e, quiet (fun _ _ _ h => h) hJ hs nofun nofun hG⟩
  | @vis l s s' ev h hs ih =>
    rw [trace_append, hrun_append] at hf
    obtain ⟨hJ, hp, e, hG⟩ := ih (fun e => hf (by rw [e]))
    refine ⟨D.keep hJ hs, ?_⟩
    rw [trace_append, hrun_append, e]
    rw [e] at hf
    dsimp only at hf ⊢
    cases ev with
    | lin i o r =>
      refine ⟨hp, rfl, quiet (fun i' o' r' h => ?_) hJ hs nofun nofun hG⟩
      simpa using h
    | call i o =>
      obtain ⟨c1, c2, c3, c4⟩ := D.call hJ hs
      have hin : ∀ i' o' r', (Ev.ret i' o' r' : Ev T O R) ∈ l ++ [Ev.call i o] → .ret i' o' r' ∈ l := by
        intro i' o' r' h; simpa using h
      cases ha : al o with
      | none =>
        have same : ∀ j, owns s' j = owns s j := by
          intro j
          by_cases hj : j = i
          · rw [hj, c3, c2, ha]
          · exact c4 j hj
        refine ⟨hp, by simp [trace, ha, hrun], fun j a hj => ?_, fun a hr => hG.live a (c1 a hr),
          fun i' o' r' a hm => hG.seen i' o' r' a (hin i' o' r' hm)⟩
        rw [same] at hj
        obtain ⟨g1, g2, g3, g4⟩ := hG.own j a hj
        exact ⟨g1, fun hr => g2 (c1 a hr), fun j' hj' => g3 j' (by rw [← same]; exact hj'),
          fun j' o' r' hm => g4 j' o' r' (hin j' o' r' hm)⟩
      | some b =>
        simp only [trace, ha, Option.toList, List.map_cons, List.map_nil, List.cons_append,
          List.nil_append, hrun] at hf ⊢
        have hb : hp b = false := by
          cases hb : hp b with
          | false => rfl
          | true => rw [hb] at hf; simp at hf
        rw [hb]
        refine ⟨_, rfl, fun j a hj => ?_, fun a hr => ?_, fun i' o' r' a hm hsh => ?_⟩
        · by_cases hji : j = i
          · rw [hji, c3, ha] at hj
            cases hj
            refine ⟨by simp, fun hr => ?_, fun j' hj' => ?_, fun j' o' r' hm hsh => ?_⟩
            · have := hG.live _ (c1 _ hr); rw [hb] at this; cases this
            · by_cases hj'' : j' = i
              · rw [hj'', hji]
              · rw [c4 j' hj''] at hj'
                have := (hG.own j' _ hj').1
                rw [hb] at this; cases this
            · have := hG.seen _ _ _ _ (hin _ _ _ hm) hsh; rw [hb] at this; cases this
          · rw [c4 j hji] at hj
            obtain ⟨g1, g2, g3, g4⟩ := hG.own j a hj
            have hab : a ≠ b := by intro e; rw [e, hb] at g1; cases g1
            refine ⟨by simp [hab, g1], fun hr => g2 (c1 a hr), fun j' hj' => ?_,
              fun j' o' r' hm => g4 j' o' r' (hin j' o' r' hm)⟩
            by_cases hj'' : j' = i
            · rw [hj'', c3, ha] at hj'; cases hj'; exact absurd rfl hab
            · rw [c4 j' hj''] at hj'; exact g3 j' hj'
        · have := hG.live a (c1 a hr); simp [this]
        · have := hG.seen i' o' r' a (hin i' o' r' hm) hsh; simp [this]
    | ret i o r =>
      obtain ⟨c1, c2, c3, c4, c5⟩ := D.ret hJ hs
      have hin : ∀ i' o' r', (Ev.ret i' o' r' : Ev T O R) ∈ l ++ [Ev.ret i o r] → .ret i' o' r' ∈ l ∨
          (i' = i ∧ o' = o ∧ r' = r) := by
        intro i' o' r' h; simpa using h
      have own : ∀ j a, owns s' j = some a → owns s j = some a ∧ j ≠ i := by
        intro j a hj
        by_cases hji : j = i
        · rw [hji, c3] at hj; cases hj
        · exact ⟨by rw [← c4 j hji]; exact hj, hji⟩
      cases hfr : fr o r with
      | none =>
        refine ⟨hp, by simp [trace, hfr, hrun], fun j a hj => ?_, fun a hr => hG.live a (c1 a hr),
          fun i' o' r' a hm hsh => ?_⟩
        · obtain ⟨g1, g2, g3, g4⟩ := hG.own j a (own j a hj).1
          refine ⟨g1, fun hr => g2 (c1 a hr), fun j' hj' => g3 j' (own j' a hj').1, fun j' o' r' hm hsh => ?_⟩
          rcases hin _ _ _ hm with hm | ⟨rfl, rfl, rfl⟩
          · exact g4 j' o' r' hm hsh
          · exact g2 (c5 a hsh)
        · rcases hin _ _ _ hm with hm | ⟨rfl, rfl, rfl⟩
          · exact hG.seen i' o' r' a hm hsh
          · exact hG.live a (c5 a hsh)
      | some b =>
        rw [hfr] at c2
        obtain ⟨b1, b2, b3, b4⟩ := hG.own i b c2
        simp only [trace, hfr, Option.toList, List.map_cons, List.map_nil, List.cons_append,
          List.nil_append, hrun, b1, if_true]
        refine ⟨_, rfl, fun j a hj => ?_, fun a hr => ?_, fun i' o' r' a hm hsh => ?_⟩
        · obtain ⟨hj, hji⟩ := own j a hj
          obtain ⟨g1, g2, g3, g4⟩ := hG.own j a hj
          have hab : a ≠ b := by intro e; rw [e] at hj; exact hji (b3 j hj)
          refine ⟨by simp [hab, g1], fun hr => g2 (c1 a hr), fun j' hj' => g3 j' (own j' a hj').1,
            fun j' o' r' hm hsh => ?_⟩
          rcases hin _ _ _ hm with hm | ⟨rfl, rfl, rfl⟩
          · exact g4 j' o' r' hm hsh
          · exact g2 (c5 a hsh)
        · have hab : a ≠ b := by intro e; rw [e] at hr; exact b2 (c1 b hr)
          simp [hab, hG.live a (c1 a hr)]
        · have hab : a ≠ b := by
            intro e
            rw [e] at hsh
            rcases hin _ _ _ hm with hm | ⟨rfl, rfl, rfl⟩
            · exact b4 i' o' r' hm hsh
            · exact b2 (c5 b hsh)
          rcases hin _ _ _ hm with hm | ⟨rfl, rfl, rfl⟩
          · simp [hab, hG.seen i' o' r' a hm hsh]
          · simp [hab, hG.live a (c5 a hsh)]

end

/-! ## Generic: accounting by the ideal map -/

section
variable {T O R K : Type} [DecidableEq T]

/-- The element of a call that is not in the map and not freed yet. (proof, no code) -/
def holder (al : O → Option Addr) (fr : O → R → Option Addr) : Phase O R → Option Addr
  | .idle => none
  | .called o => al o
  | .effected o r => fr o r

/-- A legal call either puts its element under a new key and does not free it, or leaves the map alone and
frees what it has allocated. (proof, no code) -/
def Accounts (al : O → Option Addr) (fr : O → R → Option Addr) (S : Growt.Obj O R (Dict K Addr)) : Prop :=
  ∀ d o r d', S.legal d o r d' →
    (d' = d ∧ fr o r = al o) ∨
    ∃ k a, al o = some a ∧ fr o r = none ∧ d k = none ∧ d' k = some a ∧ ∀ k', k' ≠ k → d' k' = d k'

/-- The blocks in use are the elements of the map and those held by calls, without overlap.
(proof, no code) -/
structure Balance (p : T → Option Addr) (d : Dict K Addr) (h : Addr → Bool) : Prop where
  used : ∀ a, h a = true ↔ (∃ i, p i = some a) ∨ ∃ k, d k = some a
  held : ∀ i j a, p i = some a → p j = some a → i = j
  apart : ∀ i k a, p i = some a → d k ≠ some a
  inj : ∀ k k' a, d k = some a → d k' = some a → k = k'

theorem balance_run {al : O → Option Addr} {fr : O → R → Option Addr} {S : Growt.Obj O R (Dict K Addr)}
    (hS : Accounts al fr S) {p p' : T → Phase O R} {l : List (Ev T O R)} (hw : WellFormed p l p')
    {d d' : Dict K Addr} (hl : Legal S d (effects l) d') {h : Addr → Bool}
    (hB : Balance (fun i => holder al fr (p i)) d h) (hf : hrun h (trace al fr l) ≠ .badAlloc) :
    ∃ h', hrun h (trace al fr l) = .ok h' ∧ Balance (fun i => holder al fr (p' i)) d' h' := by
  induction hw generalizing d h with
  | nil p =>
    cases hl
    exact ⟨h, rfl, hB⟩
  | @call p q p' i o l hi hq hfr hw ih =>
    have key : ∀ h1, hrun h (trace al fr (.call i o :: l)) = hrun h1 (trace al fr l) →
        Balance (fun i => holder al fr (q i)) d h1 → ∃ h', hrun h (trace al fr (.call i o :: l)) = .ok h' ∧
          Balance (fun i => holder al fr (p' i)) d' h' := fun h1 e hB' => by
      rw [e] at hf ⊢
      exact ih hl hB' hf
    have hqi : ∀ j, holder al fr (q j) = (if h : j = i then al o else holder al fr (p j)) ∧
        (j = i → holder al fr (p j) = none) := by
      intro j
      refine ⟨?_, fun e => by rw [e, hi]; rfl⟩
      split
      · rename_i e; rw [e, hq]; rfl
      · rename_i e; rw [hfr j e]
    cases ha : al o with
    | none =>
      have same : (fun i => holder al fr (q i)) = fun i => holder al fr (p i) := by
        funext j
        rw [(hqi j).1]
        split
        · rename_i e; rw [(hqi j).2 e, ha]
        · rfl
      exact key h (by simp [trace, ha]) (by rw [same]; exact hB)
    | some b =>
      have hb : h b = false := by
        cases hb : h b with
        | false => rfl
        | true => simp [trace, ha, hrun, hb] at hf
      refine key (fun c => if c = b then true else h c) (by simp [trace, ha, hrun, hb]) ?_
      have nb : ∀ j, holder al fr (p j) ≠ some b := fun j hj => by
        have := (hB.used b).2 (.inl ⟨j, hj⟩); rw [hb] at this; cases this
      have nd : ∀ k, d k ≠ some b := fun k hk => by
        have := (hB.used b).2 (.inr ⟨k, hk⟩); rw [hb] at this; cases this
      have hol : ∀ j a, holder al fr (q j) = some a ↔ (j = i ∧ a = b) ∨ holder al fr (p j) = some a := by
        intro j a
        rw [(hqi j).1]
        split
        · rename_i e
          rw [(hqi j).2 e, ha]
          simp [e, eq_comm]
        · rename_i e; simp [e]
      refine ⟨fun a => ?_, fun j j' a h1 h2 => ?_, fun j k a h1 => ?_, hB.inj⟩
      · constructor
        · intro h'
          by_cases e : a = b
          · exact .inl ⟨i, (hol i a).2 (.inl ⟨rfl, e⟩)⟩
          · simp only [e, if_false] at h'
            rcases (hB.used a).1 h' with ⟨j, hj⟩ | h'
            · exact .inl ⟨j, (hol j a).2 (.inr hj)⟩
            · exact .inr h'
        · rintro (⟨j, hj⟩ | h')
          · rcases (hol j a).1 hj with ⟨-, rfl⟩ | hj
            · simp
            · simp [(hB.used a).2 (.inl ⟨j, hj⟩)]
          · simp [(hB.used a).2 (.inr h')]
      · rcases (hol j a).1 h1 with ⟨e1, e2⟩ | h1 <;> rcases (hol j' a).1 h2 with ⟨e3, e4⟩ | h2
        · rw [e1, e3]
        · rw [e2] at h2; exact absurd h2 (nb _)
        · rw [e4] at h1; exact absurd h1 (nb _)
        · exact hB.held j j' a h1 h2
      · rcases (hol j a).1 h1 with ⟨-, e⟩ | h1
        · rw [e]; exact nd k
        · exact hB.apart j k a h1
  | @lin p q p' i o r l hi hq hfr hw ih =>
    obtain _ | ⟨hleg, hl⟩ := hl
    rename_i d1
    have hqi : ∀ j, holder al fr (q j) = if j = i then fr o r else holder al fr (p j) := by
      intro j
      split
      · rename_i e; rw [e, hq]; rfl
      · rename_i e; rw [hfr j e]
    have hpi : holder al fr (p i) = al o := by rw [hi]; rfl
    refine ih hl ?_ (by simpa [trace] using hf)
    rcases hS _ _ _ _ hleg with ⟨rfl, e⟩ | ⟨k, a, e1, e2, e3, e4, e5⟩
    · have same : (fun i => holder al fr (q i)) = fun i => holder al fr (p i) := by
        funext j
        rw [hqi]
        split
        · rename_i e'; rw [e', hpi, e]
        · rfl
      rw [same]; exact hB
    · rw [e1] at hpi
      have dk : ∀ k' c, d1 k' = some c ↔ (k' = k ∧ c = a) ∨ d k' = some c := by
        intro k' c
        by_cases e : k' = k
        · rw [e, e4, e3]; simp [eq_comm]
        · rw [e5 k' e]; simp [e]
      have hol : ∀ j c, holder al fr (q j) = some c ↔ j ≠ i ∧ holder al fr (p j) = some c := by
        intro j c
        rw [hqi]
        split
        · rename_i e; rw [e2]; simp [e]
        · rename_i e; simp [e]
      refine ⟨fun c => ?_, fun j j' c h1 h2 => ?_, fun j k' c h1 h2 => ?_, fun k1 k2 c h1 h2 => ?_⟩
      · rw [hB.used]
        constructor
        · rintro (⟨j, hj⟩ | ⟨k', hk'⟩)
          · by_cases e : j = i
            · rw [e, hpi] at hj; cases hj; exact .inr ⟨k, e4⟩
            · exact .inl ⟨j, (hol j c).2 ⟨e, hj⟩⟩
          · exact .inr ⟨k', (dk k' c).2 (.inr hk')⟩
        · rintro (⟨j, hj⟩ | ⟨k', hk'⟩)
          · exact .inl ⟨j, ((hol j c).1 hj).2⟩
          · rcases (dk k' c).1 hk' with ⟨-, rfl⟩ | hk'
            · exact .inl ⟨i, hpi⟩
            · exact .inr ⟨k', hk'⟩
      · exact hB.held j j' c ((hol j c).1 h1).2 ((hol j' c).1 h2).2
      · obtain ⟨n, h1⟩ := (hol j c).1 h1
        rcases (dk k' c).1 h2 with ⟨-, rfl⟩ | h2
        · exact n (hB.held j i _ h1 hpi)
        · exact hB.apart j k' c h1 h2
      · rcases (dk k1 c).1 h1 with ⟨a1, a2⟩ | h1 <;> rcases (dk k2 c).1 h2 with ⟨b1, b2⟩ | h2
        · rw [a1, b1]
        · rw [a2] at h2; exact absurd h2 (hB.apart i k2 a hpi)
        · rw [b2] at h1; exact absurd h1 (hB.apart i k1 a hpi)
        · exact hB.inj k1 k2 c h1 h2
  | @ret p q p' i o r l hi hq hfr hw ih =>
    have hqi : ∀ j c, holder al fr (q j) = some c ↔ j ≠ i ∧ holder al fr (p j) = some c := by
      intro j c
      by_cases e : j = i
      · rw [e, hq]; simp [holder]
      · rw [hfr j e]; simp [e]
    have hpi : holder al fr (p i) = fr o r := by rw [hi]; rfl
    cases hr : fr o r with
    | none =>
      have e : trace al fr (.ret i o r :: l) = trace al fr l := by simp [trace, hr]
      rw [e] at hf ⊢
      have same : (fun i => holder al fr (q i)) = fun i => holder al fr (p i) := by
        funext j
        by_cases e : j = i
        · rw [e, hpi, hr, hq]; rfl
        · rw [hfr j e]
      exact ih hl (by rw [same]; exact hB) hf
    | some b =>
      rw [hr] at hpi
      have hb : h b = true := (hB.used b).2 (.inl ⟨i, hpi⟩)
      have e : hrun h (trace al fr (.ret i o r :: l)) =
          hrun (fun c => if c = b then false else h c) (trace al fr l) := by
        simp [trace, hr, hrun, hb]
      rw [e] at hf ⊢
      refine ih hl ⟨fun c => ?_, fun j j' c h1 h2 => ?_, fun j k' c h1 => ?_, hB.inj⟩ hf
      · by_cases hc : c = b
        · subst hc
          simp only [if_true, Bool.false_eq_true, false_iff]
          rintro (⟨j, hj⟩ | ⟨k, hk⟩)
          · obtain ⟨n, hj⟩ := (hqi j c).1 hj
            exact n (hB.held j i c hj hpi)
          · exact hB.apart i k c hpi hk
        · simp only [hc, if_false]
          rw [hB.used]
          constructor
          · rintro (⟨j, hj⟩ | h')
            · refine .inl ⟨j, (hqi j c).2 ⟨fun e => ?_, hj⟩⟩
              rw [e, hpi] at hj; cases hj; exact hc rfl
            · exact .inr h'
          · rintro (⟨j, hj⟩ | h')
            · exact .inl ⟨j, ((hqi j c).1 hj).2⟩
            · exact .inr h'
      · exact hB.held j j' c ((hqi j c).1 h1).2 ((hqi j' c).1 h2).2
      · exact hB.apart j k' c ((hqi j c).1 h1).2

end

/-! ## The systems -/

section
variable {T K : Type} [DecidableEq T] [DecidableEq K]

/-- The element that the copy of a slot in a local variable refers to. (proof, no code) -/
def pcCopy : Growt.PC K Addr → Option Addr
  | .load _ _ => none
  | .act _ _ c => c.val?

/-- The copies with which slots are accessed a second time: insertions have seen an empty slot or (with
`insert_or_update`) an element, updates an element. (proof, no code) -/
def ActOK (op : Op K Addr) : Growt.PC K Addr → Prop
  | .load _ _ => True
  | .act _ _ c => (c.c = .empty ∧ alloc? op ≠ none) ∨ ∃ v, c.c = .live op.key v

theorem cell_empty {x : Cell K Addr} (h : x.isEmpty = true) : x.c = .empty := by
  unfold Cell.isEmpty at h
  split at h <;> simp_all

theorem cell_key {x : Cell K Addr} {k : K} (h : x.hasKey k = true) : ∃ v, x.c = .live k v := by
  unfold Cell.hasKey at h
  split at h
  · simp only [decide_eq_true_eq] at h; subst h; exact ⟨_, by assumption⟩
  · cases h

theorem setMapped_mapped (x : Cell K Addr) : x.setMapped x.mapped = x := by
  obtain ⟨m, c⟩ := x
  cases c <;> rfl

theorem step_heap {E : Env K} {op : Op K Addr} {pc : Growt.PC K Addr} {t t' : Tbl K Addr}
    {out : Out K Addr} (hc : heapCall op) (hA : ActOK op pc) (hs : step E op pc t = (t', out)) :
    (∀ p a, (t' p).val? = some a → (∃ p', (t p').val? = some a) ∨
      alloc? op = some a ∧ ∃ it, out = .done ⟨some .SUCCESS_IN, it⟩) ∧
    (∀ pc', out = .cont pc' → ActOK op pc' ∧ ∀ a, pcCopy pc' = some a → ∃ p, (t p).val? = some a) ∧
    (∀ r, out = .done r → ∀ a, r.shown = some a → (∃ p, (t p).val? = some a) ∨ pcCopy pc = some a ∨
      alloc? op = some a ∧ r.code = some .SUCCESS_IN) := by
  cases pc with
  | load i att =>
    simp only [step] at hs
    split at hs
    · cases hs
      refine ⟨fun p a h => .inl ⟨p, h⟩, fun pc' h => ?_, fun r h a ha => ?_⟩
      · cases op <;> simp only [heapCall] at hc <;> simp only [afterLoad, retEnd] at h <;>
          repeat' split at h
        all_goals cases h
        all_goals first
          | exact ⟨trivial, nofun⟩
          | exact ⟨.inl ⟨cell_empty (by assumption), nofun⟩, fun a ha => ⟨_, ha⟩⟩
          | exact ⟨.inr (cell_key (by assumption)), fun a ha => ⟨_, ha⟩⟩
      · cases op <;> simp only [heapCall] at hc <;> simp only [afterLoad, retEnd] at h <;>
          repeat' split at h
        all_goals cases h
        all_goals first
          | cases ha
          | exact .inl ⟨_, ha⟩
    · cases hs
      exact ⟨fun p a h => .inl ⟨p, h⟩, nofun, nofun⟩
  | act i att c =>
    simp only [step] at hs
    split at hs
    · have put : ∀ {q : Nat} {k : K} {b : Addr} {p : Nat} {a : Addr},
          ((t.set q (Cell.liveCell k b)) p).val? = some a → (∃ p', (t p').val? = some a) ∨ some b = some a := by
        intro q k b p a h
        simp only [Tbl.set] at h
        split at h
        · exact .inr h
        · exact .inl ⟨p, h⟩
      have cas : ∀ {k : K} {b : Addr} {r : Ret K Addr}, casStep t i att (E.M.remap i) c (Cell.liveCell k b) r = (t', out) →
          alloc? op = some b → r.code = some .SUCCESS_IN → (∀ a, r.shown = some a → c.val? = some a ∨ b = a) →
          (∀ p a, (t' p).val? = some a → (∃ p', (t p').val? = some a) ∨
            alloc? op = some a ∧ ∃ it, out = .done ⟨some .SUCCESS_IN, it⟩) ∧
          (∀ pc', out = .cont pc' → ActOK op pc' ∧ ∀ a, pcCopy pc' = some a → ∃ p, (t p).val? = some a) ∧
          (∀ r, out = .done r → ∀ a, r.shown = some a → (∃ p, (t p).val? = some a) ∨
            pcCopy (.act i att c) = some a ∨ alloc? op = some a ∧ r.code = some .SUCCESS_IN) := by
        intro k b r h ha hr hsh
        simp only [casStep] at h
        split at h
        · cases h
          obtain ⟨code, it⟩ := r
          simp only at hr
          subst hr
          refine ⟨fun p a h => ?_, nofun, fun r h a h' => ?_⟩
          · rcases put h with h | h
            · exact .inl h
            · exact .inr ⟨by rw [ha, h], _, rfl⟩
          · cases h
            rcases hsh a h' with h | h
            · exact .inr (.inl h)
            · exact .inr (.inr ⟨by rw [ha, h], rfl⟩)
        · cases h
          exact ⟨fun p a h => .inl ⟨p, h⟩, fun pc' h => by cases h; exact ⟨trivial, nofun⟩, nofun⟩
      have up : ∀ {k : K} {fail : Out K Addr} {v : Addr}, c.c = .live k v →
          (∀ r, fail = .done r → r.shown = none) → (∀ pc', fail = .cont pc' → ∃ j n, pc' = .load j n) →
          ((t.set (E.M.remap i) (atomicUpdate E.m k (t (E.M.remap i)) c inPlace).1,
            if (atomicUpdate E.m k (t (E.M.remap i)) c inPlace).2.2 = true then
              Out.done ⟨some .SUCCESS_UP, some (E.M.remap i, (atomicUpdate E.m k (t (E.M.remap i)) c inPlace).2.1)⟩
            else fail) = (t', out)) →
          (∀ p a, (t' p).val? = some a → (∃ p', (t p').val? = some a) ∨
            alloc? op = some a ∧ ∃ it, out = .done ⟨some .SUCCESS_IN, it⟩) ∧
          (∀ pc', out = .cont pc' → ActOK op pc' ∧ ∀ a, pcCopy pc' = some a → ∃ p, (t p).val? = some a) ∧
          (∀ r, out = .done r → ∀ a, r.shown = some a → (∃ p, (t p).val? = some a) ∨
            pcCopy (.act i att c) = some a ∨ alloc? op = some a ∧ r.code = some .SUCCESS_IN) := by
        intro k fail v hcv hf1 hf2 h
        have hcm : c.mapped = v := by simp [Cell.mapped, hcv]
        have hcp : c.val? = some v := by simp [Cell.val?, hcv]
        have h1 : (atomicUpdate E.m k (t (E.M.remap i)) c inPlace).1 = t (E.M.remap i) := by
          unfold atomicUpdate inPlace
          cases E.m with
          | true =>
            simp only [if_true, setMapped_mapped]
            split
            · rename_i e; rw [e]
            · rfl
          | false =>
            simp only [Bool.false_eq_true, if_false]
            split
            · rename_i e; rw [← e, setMapped_mapped]
            · rfl
        have h2 : (atomicUpdate E.m k (t (E.M.remap i)) c inPlace).2.2 = true →
            (atomicUpdate E.m k (t (E.M.remap i)) c inPlace).2.1.val? = some v := by
          unfold atomicUpdate inPlace
          cases E.m with
          | true =>
            simp only [if_true, setMapped_mapped]
            split <;> intro _ <;> exact hcp
          | false =>
            simp only [Bool.false_eq_true, if_false]
            split
            · intro _; simp [Cell.liveCell, Cell.val?, hcm]
            · nofun
        rw [h1] at h
        have hset : t.set (E.M.remap i) (t (E.M.remap i)) = t := by
          funext q; unfold Tbl.set; split
          · rename_i e; rw [e]
          · rfl
        rw [hset] at h
        split at h
        · rename_i hsucc
          cases h
          refine ⟨fun p a h => .inl ⟨p, h⟩, nofun, fun r h a h' => ?_⟩
          cases h
          have h'' : (atomicUpdate E.m k (t (E.M.remap i)) c inPlace).2.1.val? = some a := h'
          rw [h2 hsucc] at h''
          cases h''
          exact .inr (.inl hcp)
        · cases h
          refine ⟨fun p a h => .inl ⟨p, h⟩, fun pc' h => ?_, fun r h a h' => ?_⟩
          · obtain ⟨j, n, rfl⟩ := hf2 pc' h
            exact ⟨trivial, nofun⟩
          · rw [hf1 r h] at h'; cases h'
      have live : alloc? op = none → ∃ v, c.c = .live op.key v := by
        intro hn
        rcases hA with ⟨-, h⟩ | h
        · exact absurd hn h
        · exact h
      cases op with
      | find k | locate k => cases hs; exact ⟨fun p a h => .inl ⟨p, h⟩, nofun, nofun⟩
      | insert k d =>
        exact cas hs rfl rfl (fun a ha => .inl ha)
      | update k f =>
        cases hc
        obtain ⟨v, hv⟩ := live rfl
        refine up hv ?_ ?_ hs
        · nofun
        · intro pc' e; cases e; exact ⟨_, _, rfl⟩
      | updateBackoff k f b =>
        cases hc
        obtain ⟨v, hv⟩ := live rfl
        refine up hv ?_ ?_ hs
        · intro r e
          split at e
          · cases e
          · cases e; rfl
        · intro pc' e
          split at e
          · cases e; exact ⟨_, _, rfl⟩
          · cases e
      | insertOrUpdate k d f =>
        cases hc
        simp only [actStep] at hs
        split at hs
        · exact cas hs rfl rfl (fun a ha => .inr (by simpa [Ret.shown, Cell.liveCell, Cell.val?] using ha))
        · rename_i he
          rcases hA with ⟨h, -⟩ | ⟨v, hv⟩
          · exact absurd (by simp [Cell.isEmpty, h]) he
          · refine up hv ?_ ?_ hs
            · nofun
            · intro pc' e; cases e; exact ⟨_, _, rfl⟩
      | updateUnsafe k f => cases hc
      | insertOrUpdateUnsafe k d f => cases hc
      | erase k => cases hc
      | eraseIf k d => cases hc
    · cases hs
      exact ⟨fun p a h => .inl ⟨p, h⟩, nofun, nofun⟩

/-- What a caller gets to see of an answer: the element the iterator refers to, and the element that was
inserted. (specification, no code) -/
def baseShown (op : Op K Addr) (r : Ret K Addr) (a : Addr) : Prop :=
  r.shown = some a ∨ alloc? op = some a ∧ r.ok op = true

/-- Specification, no code. -/
def growShown (op : Op K Addr) (x : SRes Addr) (a : Addr) : Prop :=
  x.shown = some a ∨ alloc? op = some a ∧ x.ok = true

/-! ### Bounded table -/

/-- Proof, no code. -/
def thrReach : Thr K Addr → Addr → Prop
  | .idle, _ => False
  | .busy _ pc, a => pcCopy pc = some a
  | .fin op r, a => baseShown op r a

/-- Proof, no code. -/
def thrOwns : Thr K Addr → Option Addr
  | .idle => none
  | .busy op _ => alloc? op
  | .fin op r => freed op (r.ok op)

/-- Proof, no code. -/
def thrJ : Thr K Addr → Prop
  | .busy op pc => heapCall op ∧ ActOK op pc
  | _ => True

/-- An element is reachable: through a slot, a local copy of a slot, or a result. (specification, no code) -/
def baseReach (s : CSt T K Addr) (a : Addr) : Prop :=
  (∃ p, (s.tbl p).val? = some a) ∨ ∃ i, thrReach (s.thr i) a

theorem inserted_ok {op : Op K Addr} {r : Ret K Addr} {a : Addr} (ha : alloc? op = some a)
    (hr : r.code = some .SUCCESS_IN) : r.ok op = true := by
  cases op <;> simp_all [alloc?, Ret.ok] <;> rfl

theorem base_discipline (E : Env K) : Discipline (CStep (T := T) E heapCall) (fun s => ∀ i, thrJ (s.thr i))
    alloc? (fun o r => freed o (r.ok o)) baseShown baseReach (fun s i => thrOwns (s.thr i)) where
  keep := by
    intro s e s' hJ hs i
    cases hs with
    | @call i' op h ho =>
      simp only [setAt]; split
      · exact ⟨ho, trivial⟩
      · exact hJ i
    | @cont i' op pc pc' t' h hs =>
      simp only [setAt]; split
      · have := hJ i'; rw [h] at this
        exact ⟨this.1, ((step_heap this.1 this.2 hs).2.1 _ rfl).1⟩
      · exact hJ i
    | @done i' op pc t' r h hs =>
      simp only [setAt]; split
      · trivial
      · exact hJ i
    | @ret i' op r h =>
      simp only [setAt]; split
      · trivial
      · exact hJ i
  quiet := by
    intro s e s' hJ hs h1 h2
    cases hs with
    | @call i op h ho => exact absurd rfl (h1 i op)
    | @ret i op r h => exact absurd rfl (h2 i op r)
    | @cont i op pc pc' t' h hs =>
      have hj := hJ i; rw [h] at hj
      obtain ⟨g1, g2, -⟩ := step_heap hj.1 hj.2 hs
      refine ⟨fun j => .inl ?_, fun a ha => .inl ?_⟩
      · simp only [setAt]; split
        · rename_i e; rw [e, h]; rfl
        · rfl
      · rcases ha with ⟨p, hp⟩ | ⟨j, hj⟩
        · rcases g1 p a hp with h | ⟨-, it, h⟩
          · exact .inl h
          · cases h
        · simp only [setAt] at hj; split at hj
          · exact .inl ((g2 _ rfl).2 a hj)
          · exact .inr ⟨j, hj⟩
    | @done i op pc t' r h hs =>
      have hj := hJ i; rw [h] at hj
      obtain ⟨g1, -, g3⟩ := step_heap hj.1 hj.2 hs
      have ins : ∀ a, alloc? op = some a → r.ok op = true →
          ∃ j, thrOwns (s.thr j) = some a ∧ thrOwns (setAt s.thr i (.fin op r) j) = none := by
        intro a h1 h2
        refine ⟨i, by rw [h]; exact h1, ?_⟩
        rw [setAt_same]; simp [thrOwns, freed, h2]
      refine ⟨fun j => ?_, fun a ha => ?_⟩
      · simp only [setAt]; split
        · rename_i e; rw [e, h]
          simp only [thrOwns, freed]
          split
          · exact .inr rfl
          · exact .inl rfl
        · exact .inl rfl
      · rcases ha with ⟨p, hp⟩ | ⟨j, hj⟩
        · rcases g1 p a hp with h | ⟨h1, it, h2⟩
          · exact .inl (.inl h)
          · injection h2 with h2
            exact .inr (ins a h1 (inserted_ok h1 (by rw [h2])))
        · simp only [setAt] at hj; split at hj
          · rcases hj with hj | ⟨h1, h2⟩
            · rcases g3 r rfl a hj with h' | h' | ⟨h1, h2⟩
              · exact .inl (.inl h')
              · exact .inl (.inr ⟨i, by rw [h]; exact h'⟩)
              · exact .inr (ins a h1 (inserted_ok h1 h2))
            · exact .inr (ins a h1 h2)
          · exact .inl (.inr ⟨j, hj⟩)
  call := by
    intro s i o s' hJ hs
    cases hs with
    | @call _ _ h ho =>
      refine ⟨fun a ha => ?_, by rw [h]; rfl, by simp only [setAt_same]; rfl,
        fun j hj => by simp only [setAt_other hj]⟩
      rcases ha with ha | ⟨j, hj⟩
      · exact .inl ha
      · simp only [setAt] at hj; split at hj
        · cases hj
        · exact .inr ⟨j, hj⟩
  ret := by
    intro s i o r s' hJ hs
    cases hs with
    | @ret _ _ _ h =>
      refine ⟨fun a ha => ?_, by rw [h]; rfl, by simp only [setAt_same]; rfl,
        fun j hj => by simp only [setAt_other hj],
        fun a ha => .inr ⟨i, by rw [h]; exact ha⟩⟩
      rcases ha with ha | ⟨j, hj⟩
      · exact .inl ha
      · simp only [setAt] at hj; split at hj
        · cases hj
        · exact .inr ⟨j, hj⟩

/-! ### Migration -/

/-- The element that the copy of a slot in a local variable of `migrate` refers to. (proof, no code) -/
def jobCopy : JobPC K Addr → Option Addr
  | .scanMark _ c | .mark _ _ _ c | .probe _ _ _ _ c | .put _ _ _ _ c => c.val?
  | _ => none

theorem loopHead_copy (G : MEnv K) (e st : Nat) (tail : Bool) (i : Nat) :
    jobCopy (loopHead G e st tail i : JobPC K Addr) = none := by
  unfold loopHead; split <;> rfl

theorem process_copy {G : MEnv K} {e st : Nat} {tail : Bool} {i nxt : Nat} {c : Cell K Addr} {pc : JobPC K Addr}
    (h : process G e st tail i nxt c = .cont pc) {a : Addr} (ha : jobCopy pc = some a) : c.val? = some a := by
  unfold process at h
  repeat' split at h
  all_goals first
    | cases h
    | skip
  all_goals first
    | (rw [loopHead_copy] at ha; cases ha)
    | exact ha
    | cases ha

theorem mark_copies {m u : Bool} {x c : Cell K Addr} {a : Addr} :
    ((atomicMark m u x c).1.val? = some a → x.val? = some a) ∧
    ((atomicMark m u x c).2.1.val? = some a → x.val? = some a ∨ c.val? = some a) := by
  unfold atomicMark
  split
  · split
    · rename_i e
      subst e
      exact ⟨fun h => h, fun h => .inl h⟩
    · refine ⟨fun h => h, fun h => ?_⟩
      split at h
      · exact .inl h
      · exact .inr h
  · exact ⟨fun h => h, fun h => .inr h⟩

theorem job_heap {G : MEnv K} {e : Nat} {pc : JobPC K Addr} {m m' : MMem K Addr} {out : JobOut K Addr}
    (hs : jobStep G e pc m = (m', out)) :
    (∀ p a, (m'.src p).val? = some a → ∃ p, (m.src p).val? = some a) ∧
    (∀ p x a, m'.tgt p = some x → x.val? = some a →
      (∃ p x, m.tgt p = some x ∧ x.val? = some a) ∨ jobCopy pc = some a) ∧
    ∀ pc', out = .cont pc' → ∀ a, jobCopy pc' = some a → jobCopy pc = some a ∨ ∃ p, (m.src p).val? = some a := by
  have same : (∀ p a, (m.src p).val? = some a → ∃ p, (m.src p).val? = some a) ∧
    (∀ p x a, m.tgt p = some x → x.val? = some a →
      (∃ p x, m.tgt p = some x ∧ x.val? = some a) ∨ jobCopy pc = some a) :=
    ⟨fun p _ h => ⟨p, h⟩, fun p x _ h h' => .inl ⟨p, x, h, h'⟩⟩
  have setS : ∀ {q : Nat} {u : Bool} {c : Cell K Addr} {p : Nat} {a : Addr},
      ((m.src.set q (atomicMark G.src.m u (m.src q) c).1) p).val? = some a → ∃ p, (m.src p).val? = some a := by
    intro q u c p a h
    simp only [Tbl.set] at h
    split at h
    · exact ⟨q, mark_copies.1 h⟩
    · exact ⟨p, h⟩
  have setT : ∀ {q : Nat} {y : Cell K Addr} {p : Nat} {x : Cell K Addr} {a : Addr},
      (m.tgt.set q y) p = some x → x.val? = some a →
      (∃ p x, m.tgt p = some x ∧ x.val? = some a) ∨ y.val? = some a := by
    intro q y p x a h h'
    simp only [MTbl.set] at h
    split at h
    · cases h; exact .inr h'
    · exact .inl ⟨p, x, h, h'⟩
  cases pc with
  | scan i =>
    simp only [jobStep] at hs
    repeat' split at hs
    all_goals cases hs
    all_goals refine ⟨same.1, same.2, ?_⟩
    · intro pc' h a ha; cases h; exact .inr ⟨_, ha⟩
    · intro pc' h a ha; cases h; cases ha
    · intro pc' h a ha; cases h; cases ha
    · nofun
  | scanMark i c =>
    simp only [jobStep] at hs
    split at hs
    · cases hs
      refine ⟨fun p a h => setS h, same.2, fun pc' h a ha => ?_⟩
      cases h
      split at ha <;> cases ha
    · cases hs; exact ⟨same.1, same.2, nofun⟩
  | fill st qs tail i =>
    cases qs with
    | nil =>
      simp only [jobStep] at hs
      cases hs
      exact ⟨same.1, same.2, fun pc' h a ha => by cases h; cases ha⟩
    | cons q qs =>
      simp only [jobStep] at hs
      split at hs
      · cases hs
        refine ⟨same.1, fun p x a h h' => ?_, fun pc' h a ha => by cases h; cases ha⟩
        rcases setT h h' with h | h
        · exact .inl h
        · cases h
      · cases hs; exact ⟨same.1, same.2, nofun⟩
  | load st tail i =>
    simp only [jobStep] at hs
    split at hs
    · cases hs
      exact ⟨same.1, same.2, fun pc' h a ha => by cases h; exact .inr ⟨_, ha⟩⟩
    · cases hs; exact ⟨same.1, same.2, nofun⟩
  | mark st tail i c =>
    simp only [jobStep] at hs
    split at hs
    · split at hs
      · cases hs
        refine ⟨fun p a h => setS h, same.2, fun pc' h a ha => ?_⟩
        rcases mark_copies.2 (process_copy h ha) with h | h
        · exact .inr ⟨_, h⟩
        · exact .inl h
      · split at hs
        · cases hs
          exact ⟨fun p a h => setS h, same.2, fun pc' h a ha => .inl (process_copy h ha)⟩
        · cases hs
          exact ⟨fun p a h => setS h, same.2, fun pc' h a ha => by cases h; cases ha⟩
    · cases hs; exact ⟨same.1, same.2, nofun⟩
  | probe st tail i u x =>
    simp only [jobStep] at hs
    repeat' split at hs
    all_goals cases hs
    all_goals refine ⟨same.1, same.2, ?_⟩
    · nofun
    · intro pc' h a ha; cases h; exact .inl ha
    · intro pc' h a ha; cases h; exact .inl ha
    · nofun
  | put st tail i u x =>
    simp only [jobStep] at hs
    split at hs
    · cases hs
      refine ⟨same.1, fun p y a h h' => setT h h', fun pc' h a ha => ?_⟩
      cases h
      rw [loopHead_copy] at ha; cases ha
    · cases hs; exact ⟨same.1, same.2, nofun⟩
  | fin st i =>
    simp only [jobStep] at hs
    cases hs
    exact ⟨same.1, same.2, fun pc' h a ha => by cases h; cases ha⟩
  | nothing =>
    simp only [jobStep] at hs
    cases hs
    exact ⟨same.1, same.2, fun pc' h a ha => by cases h; cases ha⟩

theorem jobStart_copy (G : MEnv K) (s e : Nat) : jobCopy (jobStart G s e : JobPC K Addr) = none := by
  unfold jobStart; repeat' split
  all_goals rfl

theorem published_val {g : MTbl K Addr} {p : Nat} {a : Addr} (h : (published g p).val? = some a) :
    ∃ x, g p = some x ∧ x.val? = some a := by
  unfold published at h
  cases hg : g p with
  | none => rw [hg] at h; cases h
  | some x => rw [hg] at h; exact ⟨x, rfl, h⟩

theorem store_val {g : MTbl K Addr} {t : Tbl K Addr} {p : Nat} {x : Cell K Addr} {a : Addr}
    (h : Sync.store g t p = some x) (hx : x.val? = some a) : (t p).val? = some a := by
  unfold Sync.store at h
  split at h
  · rename_i e; rw [e]; unfold published; rw [h]; exact hx
  · cases h; exact hx

theorem fresh_val {E : Env K} {p : Nat} {x : Cell K Addr} {a : Addr}
    (h : (freshTarget E : MTbl K Addr) p = some x) (hx : x.val? = some a) : False := by
  unfold freshTarget at h
  split at h
  · cases h; cases hx
  · cases h

theorem answer_inserted {op : Op K Addr} {r : Ret K Addr} {a : Addr} {x : SRes Addr} (ha : alloc? op = some a)
    (hr : r.code = some .SUCCESS_IN) (hx : Sync.answer op r = some x) : x.ok = true := by
  obtain ⟨c, it⟩ := r
  simp only at hr
  subst hr
  cases op <;> simp_all [alloc?, Sync.answer, react, switchInsert, switchInsertOrUpdate] <;> rw [← hx]

theorem answer_shown {op : Op K Addr} {r : Ret K Addr} {x : SRes Addr} (hx : Sync.answer op r = some x) :
    x.shown = r.shown := by
  unfold Sync.answer at hx
  split at hx <;> cases hx <;> rfl

/-! ### Growing tables -/

/-- A call through a handle, without the details of the protocol. (proof, no code) -/
inductive CView (K : Type) where
  | idle
  | wait (op : Op K Addr)
  | busy (op : Op K Addr) (pc : Growt.PC K Addr)
  | fin (op : Op K Addr) (x : SRes Addr)

/-- The tables, the migrations and the calls, without the details of the protocol. (proof, no code) -/
structure View (T A K : Type) where
  mem : A → MTbl K Addr
  jobs : A → Nat → Option (JobPC K Addr)
  thr : T → CView K

/-- Proof, no code. -/
def memReach {A : Type} (mem : A → MTbl K Addr) (jobs : A → Nat → Option (JobPC K Addr)) (a : Addr) : Prop :=
  (∃ t p x, mem t p = some x ∧ x.val? = some a) ∨ ∃ t c pc, jobs t c = some pc ∧ jobCopy pc = some a

/-- Proof, no code. -/
def callReach : CView K → Addr → Prop
  | .idle, _ => False
  | .wait _, _ => False
  | .busy _ pc, a => pcCopy pc = some a
  | .fin op x, a => growShown op x a

/-- An element is reachable: through a slot of any table that exists or has existed, through a local
variable of `migrate` or of an operation, or through a result. (specification, no code) -/
def View.reach {A : Type} (v : View T A K) (a : Addr) : Prop :=
  memReach v.mem v.jobs a ∨ ∃ i, callReach (v.thr i) a

/-- Proof, no code. -/
def callOwns : CView K → Option Addr
  | .idle => none
  | .wait op => alloc? op
  | .busy op _ => alloc? op
  | .fin op x => freed op x.ok

/-- Proof, no code. -/
def callJ : CView K → Prop
  | .busy op pc => heapCall op ∧ ActOK op pc
  | .wait op => heapCall op
  | _ => True

/-- Steps of the views: what the steps of both growth strategies have in common. (proof, no code) -/
inductive VStep {A : Type} [DecidableEq A] :
    View T A K → Option (Ev T (Op K Addr) (SRes Addr)) → View T A K → Prop where
  | call {v : View T A K} {i : T} {op : Op K Addr} (h : v.thr i = .idle) (ho : heapCall op) :
      VStep v (some (.call i op)) ⟨v.mem, v.jobs, setAt v.thr i (.wait op)⟩
  | ret {v : View T A K} {i : T} {op : Op K Addr} {x : SRes Addr} (h : v.thr i = .fin op x) :
      VStep v (some (.ret i op x)) ⟨v.mem, v.jobs, setAt v.thr i .idle⟩
  | store {v : View T A K} {mem : A → MTbl K Addr} {jobs : A → Nat → Option (JobPC K Addr)}
      (h : ∀ a, memReach mem jobs a → memReach v.mem v.jobs a) : VStep v none ⟨mem, jobs, v.thr⟩
  | enter {v : View T A K} {i : T} {op : Op K Addr} (E : Env K) (h : v.thr i = .wait op) :
      VStep v none ⟨v.mem, v.jobs, setAt v.thr i (.busy op (start E op))⟩
  | wait {v : View T A K} {i : T} {op : Op K Addr} (h : v.thr i = .wait op) :
      VStep v none ⟨v.mem, v.jobs, setAt v.thr i (.wait op)⟩
  | cont {v : View T A K} {i : T} {op : Op K Addr} {pc pc' : Growt.PC K Addr} {E : Env K} {b : A} {g : Tbl K Addr}
      (h : v.thr i = .busy op pc) (hst : step E op pc (published (v.mem b)) = (g, .cont pc')) :
      VStep v none ⟨Async.upd v.mem b (Sync.store (v.mem b) g), v.jobs, setAt v.thr i (.busy op pc')⟩
  | done {v : View T A K} {i : T} {op : Op K Addr} {pc : Growt.PC K Addr} {E : Env K} {b : A} {g : Tbl K Addr}
      {r : Ret K Addr} {x : SRes Addr} {e : Option (Ev T (Op K Addr) (SRes Addr))}
      (h : v.thr i = .busy op pc) (hst : step E op pc (published (v.mem b)) = (g, .done r))
      (hx : Sync.answer op r = some x) (he : e = none ∨ e = some (.lin i op x)) :
      VStep v e ⟨Async.upd v.mem b (Sync.store (v.mem b) g), v.jobs, setAt v.thr i (.fin op x)⟩
  | again {v : View T A K} {i : T} {op : Op K Addr} {pc : Growt.PC K Addr} {E : Env K} {b : A} {g : Tbl K Addr}
      {r : Ret K Addr}
      (h : v.thr i = .busy op pc) (hst : step E op pc (published (v.mem b)) = (g, .done r))
      (hx : Sync.answer op r = none) :
      VStep v none ⟨Async.upd v.mem b (Sync.store (v.mem b) g), v.jobs, setAt v.thr i (.wait op)⟩

theorem mem_after {A : Type} [DecidableEq A] {v : View T A K} {b : A} {g : Tbl K Addr} {P : Addr → Prop}
    (hg : ∀ p a, (g p).val? = some a → (∃ p, (published (v.mem b) p).val? = some a) ∨ P a) {a : Addr}
    (h : memReach (Async.upd v.mem b (Sync.store (v.mem b) g)) v.jobs a) : memReach v.mem v.jobs a ∨ P a := by
  rcases h with ⟨t, p, x, h, hx⟩ | h
  · simp only [Async.upd] at h
    split at h
    · rcases hg p a (store_val h hx) with ⟨p, hp⟩ | hp
      · obtain ⟨y, h1, h2⟩ := published_val hp
        exact .inl (.inl ⟨b, p, y, h1, h2⟩)
      · exact .inr hp
    · exact .inl (.inl ⟨t, p, x, h, hx⟩)
  · exact .inl (.inr h)

theorem grow_discipline {A : Type} [DecidableEq A] : Discipline (VStep (T := T) (A := A) (K := K))
    (fun s => ∀ i, callJ (s.thr i)) alloc? (fun o x => freed o x.ok) growShown View.reach
    (fun s i => callOwns (s.thr i)) where
  keep := by
    intro s e s' hJ hs i
    cases hs with
    | @call i' op h ho =>
      simp only [setAt]; split
      · exact ho
      · exact hJ i
    | @ret i' op x h =>
      simp only [setAt]; split
      · trivial
      · exact hJ i
    | store h => exact hJ i
    | @enter i' op E h =>
      have := hJ i'; rw [h] at this
      simp only [setAt]; split
      · exact ⟨this, trivial⟩
      · exact hJ i
    | @wait i' op h =>
      have := hJ i'; rw [h] at this
      simp only [setAt]; split
      · exact this
      · exact hJ i
    | @cont i' op pc pc' E b g h hst =>
      have := hJ i'; rw [h] at this
      simp only [setAt]; split
      · exact ⟨this.1, ((step_heap this.1 this.2 hst).2.1 _ rfl).1⟩
      · exact hJ i
    | @done i' op pc E b g r x h hst hx =>
      simp only [setAt]; split
      · trivial
      · exact hJ i
    | @again i' op pc E b g r h hst hx =>
      have := hJ i'; rw [h] at this
      simp only [setAt]; split
      · exact this.1
      · exact hJ i
  quiet := by
    intro s e s' hJ hs h1 h2
    have other : ∀ {t : T} {c : CView K} {P : Prop} {a : Addr}, (∃ i, callReach (setAt s.thr t c i) a) →
        (callReach c a → P) → P ∨ ∃ i, callReach (s.thr i) a := by
      rintro t c P a ⟨j, hj⟩ hc
      simp only [setAt] at hj
      split at hj
      · exact .inl (hc hj)
      · exact .inr ⟨j, hj⟩
    have owner : ∀ {t : T} {c : CView K}, (callOwns c = callOwns (s.thr t) ∨ callOwns c = none) →
        ∀ i, callOwns (setAt s.thr t c i) = callOwns (s.thr i) ∨ callOwns (setAt s.thr t c i) = none := by
      intro t c hc i
      simp only [setAt]
      split
      · rename_i e; rw [e]; exact hc
      · exact .inl rfl
    cases hs with
    | @call i op h ho => exact absurd rfl (h1 i op)
    | @ret i op x h => exact absurd rfl (h2 i op x)
    | store h =>
      refine ⟨fun _ => .inl rfl, fun a ha => .inl ?_⟩
      rcases ha with ha | ha
      · exact .inl (h a ha)
      · exact .inr ha
    | @enter i op E h =>
      refine ⟨owner (.inl (by rw [h]; rfl)), fun a ha => .inl ?_⟩
      rcases ha with ha | ha
      · exact .inl ha
      · exact other ha nofun
    | @wait i op h =>
      refine ⟨owner (.inl (by rw [h])), fun a ha => .inl ?_⟩
      rcases ha with ha | ha
      · exact .inl ha
      · exact other ha nofun
    | @cont i op pc pc' E b g h hst =>
      have hj := hJ i; rw [h] at hj
      obtain ⟨g1, g2, -⟩ := step_heap hj.1 hj.2 hst
      refine ⟨owner (.inl (by rw [h]; rfl)), fun a ha => .inl ?_⟩
      rcases ha with ha | ha
      · have key : ∀ p a, (g p).val? = some a → (∃ p, (published (s.mem b) p).val? = some a) ∨ False := by
          intro p a hp
          rcases g1 p a hp with h | ⟨-, it, h⟩
          · exact .inl h
          · cases h
        rcases mem_after (P := fun _ => False) key ha with h | h
        · exact .inl h
        · exact h.elim
      · refine other ha fun hc => ?_
        obtain ⟨p, hp⟩ := (g2 _ rfl).2 a hc
        obtain ⟨y, h1, h2⟩ := published_val hp
        exact .inl ⟨b, p, y, h1, h2⟩
    | @done i op pc E b g r x _ h hst hx he =>
      have hj := hJ i; rw [h] at hj
      obtain ⟨g1, -, g3⟩ := step_heap hj.1 hj.2 hst
      have ins : ∀ a, alloc? op = some a → x.ok = true → ∃ j, callOwns (s.thr j) = some a ∧
          callOwns (setAt s.thr i (.fin op x) j) = none := by
        intro a h1 h2
        refine ⟨i, by rw [h]; exact h1, ?_⟩
        rw [setAt_same]; simp [callOwns, freed, h2]
      refine ⟨owner ?_, fun a ha => ?_⟩
      · rw [h]
        simp only [callOwns, freed]
        split
        · exact .inr rfl
        · exact .inl rfl
      · rcases ha with ha | ha
        · have key : ∀ p a, (g p).val? = some a → (∃ p, (published (s.mem b) p).val? = some a) ∨
              (alloc? op = some a ∧ x.ok = true) := by
            intro p a hp
            rcases g1 p a hp with h | ⟨h1, it, h2⟩
            · exact .inl h
            · injection h2 with h2
              exact .inr ⟨h1, answer_inserted h1 (by rw [h2]) hx⟩
          rcases mem_after (P := fun a => alloc? op = some a ∧ x.ok = true) key ha with h | h
          · exact .inl (.inl h)
          · exact .inr (ins a h.1 h.2)
        · obtain ⟨j, hj⟩ := ha
          simp only [setAt] at hj
          split at hj
          · rcases hj with hj | ⟨h1, h2⟩
            · rw [answer_shown hx] at hj
              rcases g3 r rfl a hj with ⟨p, hp⟩ | h' | ⟨h1, h2⟩
              · obtain ⟨y, h1, h2⟩ := published_val hp
                exact .inl (.inl (.inl ⟨b, p, y, h1, h2⟩))
              · exact .inl (.inr ⟨i, by rw [h]; exact h'⟩)
              · exact .inr (ins a h1 (answer_inserted h1 h2 hx))
            · exact .inr (ins a h1 h2)
          · exact .inl (.inr ⟨j, hj⟩)
    | @again i op pc E b g r h hst hx =>
      have hj := hJ i; rw [h] at hj
      obtain ⟨g1, -, -⟩ := step_heap hj.1 hj.2 hst
      refine ⟨owner (.inl (by rw [h]; rfl)), fun a ha => .inl ?_⟩
      rcases ha with ha | ha
      · have key : ∀ p a, (g p).val? = some a → (∃ p, (published (s.mem b) p).val? = some a) ∨ False := by
          intro p a hp
          rcases g1 p a hp with h | ⟨h1, it, h2⟩
          · exact .inl h
          · injection h2 with h2
            subst h2
            cases op <;> simp [alloc?] at h1 <;>
              simp [Sync.answer, react, switchInsert, switchInsertOrUpdate] at hx
        rcases mem_after (P := fun _ => False) key ha with h | h
        · exact .inl h
        · exact h.elim
      · exact other ha nofun
  call := by
    intro s i o s' hJ hs
    cases hs with
    | call h ho =>
      refine ⟨fun a ha => ?_, by rw [h]; rfl, by simp only [setAt_same]; rfl,
        fun j hj => by simp only [setAt_other hj]⟩
      rcases ha with ha | ⟨j, hj⟩
      · exact .inl ha
      · simp only [setAt] at hj; split at hj
        · cases hj
        · exact .inr ⟨j, hj⟩
    | done _ _ _ he => rcases he with he | he <;> cases he
  ret := by
    intro s i o r s' hJ hs
    cases hs with
    | ret h =>
      refine ⟨fun a ha => ?_, by rw [h]; rfl, by simp only [setAt_same]; rfl,
        fun j hj => by simp only [setAt_other hj], fun a ha => .inr ⟨i, by rw [h]; exact ha⟩⟩
      rcases ha with ha | ⟨j, hj⟩
      · exact .inl ha
      · simp only [setAt] at hj; split at hj
        · cases hj
        · exact .inr ⟨j, hj⟩
    | done _ _ _ he => rcases he with he | he <;> cases he

/-! ### The growth strategies -/

/-- Proof, no code. -/
def asyncCall : Async.UThr K Addr → CView K
  | .idle => .idle
  | .pend op => .wait op
  | .busy op pc => .busy op pc
  | .again op _ => .wait op
  | .fin op x => .fin op x

/-- Proof, no code. -/
def asyncView {A : Type} (s : Async.DSt T A K Addr) : View T A K := ⟨s.mem, s.jobs, fun i => asyncCall (s.thr i)⟩

/-- Proof, no code. -/
def syncCall : Sync.UThr K Addr → CView K
  | .idle => .idle
  | .pend op => .wait op
  | .busy op pc => .busy op pc
  | .again op _ => .wait op
  | .fin op x => .fin op x

/-- Proof, no code. -/
def syncView {A : Type} (s : Sync.DSt T A K Addr) : View T A K :=
  ⟨s.mem, fun _ => s.jobs, fun i => syncCall (s.thr i)⟩

theorem setAt_map {X Y : Type} (f : X → Y) (g : T → X) (t : T) (x : X) :
    (fun i => f (setAt g t x i)) = setAt (fun i => f (g i)) t (f x) := by
  funext i; simp only [setAt]; split <;> rfl

theorem work_reach {A : Type} [DecidableEq A] {mem : A → MTbl K Addr} {jobs jobs' : A → Nat → Option (JobPC K Addr)}
    {a b a' : A} {k e : Nat} {pc pc' : JobPC K Addr} {m : MMem K Addr} {G : MEnv K} {torn : Bool}
    (hj : jobs a' k = some pc) (hst : jobStep G e pc ⟨published (mem a), mem b, torn⟩ = (m, .cont pc'))
    (hjobs : ∀ t c q, jobs' t c = some q → jobs t c = some q ∨ q = pc') (x : Addr)
    (h : memReach (Async.upd (Async.upd mem a (Sync.store (mem a) m.src)) b m.tgt) jobs' x) :
    memReach mem jobs x := by
  obtain ⟨g1, g2, g3⟩ := job_heap hst
  have src : (∃ p, (published (mem a) p).val? = some x) → memReach mem jobs x := by
    rintro ⟨p, hp⟩
    obtain ⟨y, h1, h2⟩ := published_val hp
    exact .inl ⟨a, p, y, h1, h2⟩
  have cp : jobCopy pc = some x → memReach mem jobs x := fun h => .inr ⟨a', k, pc, hj, h⟩
  rcases h with ⟨t, p, y, h, hy⟩ | ⟨t, c, q, h, hq⟩
  · simp only [Async.upd] at h
    split at h
    · rcases g2 p y x h hy with ⟨p, y, h1, h2⟩ | h
      · exact .inl ⟨b, p, y, h1, h2⟩
      · exact cp h
    · split at h
      · exact src (g1 p x (store_val h hy))
      · exact .inl ⟨t, p, y, h, hy⟩
  · rcases hjobs t c q h with h | rfl
    · exact .inr ⟨t, c, q, h, hq⟩
    · rcases g3 _ rfl x hq with h | h
      · exact cp h
      · exact src h

theorem async_view {A : Type} [DecidableEq A] {u : Bool} {s s' : Async.DSt T A K Addr}
    {e : Option (Ev T (Op K Addr) (SRes Addr))} (hs : Async.DStep u heapCall s e s') :
    VStep (asyncView s) e (asyncView s') := by
  have same : ∀ {v : View T A K}, VStep v none v := .store fun _ h => h
  have nothing : ∀ {op : Op K Addr} {r : Ret K Addr} {x}, Async.retryAs op r = some x → Sync.answer op r = none := by
    intro op r x h
    unfold Async.retryAs at h
    unfold Sync.answer
    split at h <;> simp_all
  cases hs with
  | @call t h op hp ht ho =>
    have := VStep.call (v := asyncView s) (i := t) (op := op) (by simp only [asyncView, ht]; rfl) ho
    simp only [asyncView, setAt_map asyncCall]; exact this
  | @ret t h op x hp ht =>
    have := VStep.ret (v := asyncView s) (i := t) (op := op) (x := x) (by simp only [asyncView, ht]; rfl)
    simp only [asyncView, setAt_map asyncCall]; exact this
  | @enter p' t a op hs ht =>
    have := VStep.enter (v := asyncView s) (i := t) (op := op) (s.env a) (by simp only [asyncView, ht]; rfl)
    simp only [asyncView, setAt_map asyncCall]; exact this
  | @op p' t a op pc pc' g hs ht hst =>
    have := VStep.cont (v := asyncView s) (i := t) (op := op) (b := a) (by simp only [asyncView, ht]; rfl) hst
    simp only [asyncView, setAt_map asyncCall]; exact this
  | @opDone p' t a op pc g r x hs ht hst hx =>
    have := VStep.done (v := asyncView s) (i := t) (op := op) (b := a) (by simp only [asyncView, ht]; rfl) hst hx
      (.inl rfl)
    simp only [asyncView, setAt_map asyncCall]; exact this
  | @opAgain p' t a op pc g r x hs ht hst hx =>
    have := VStep.again (v := asyncView s) (i := t) (op := op) (b := a) (by simp only [asyncView, ht]; rfl) hst
      (nothing hx)
    simp only [asyncView, setAt_map asyncCall]; exact this
  | @exitAgain p' t a op x hs ht =>
    have := VStep.wait (v := asyncView s) (i := t) (op := op) (by simp only [asyncView, ht]; rfl)
    simp only [asyncView, setAt_map asyncCall]; exact this
  | @make p' t a b o i d hs ho hn =>
    refine VStep.store (v := asyncView s) fun x h => ?_
    rcases h with ⟨t, p, y, h, hy⟩ | ⟨t, c, q, h, hq⟩
    · simp only [Async.upd] at h
      split at h
      · exact (fresh_val h hy).elim
      · exact .inl ⟨t, p, y, h, hy⟩
    · simp only [Async.upd] at h
      split at h
      · cases h
      · exact .inr ⟨t, c, q, h, hq⟩
  | @claim p' t a b o hs ho =>
    refine VStep.store (v := asyncView s) fun x h => ?_
    rcases h with h | ⟨t, c, q, h, hq⟩
    · exact .inl h
    · simp only [Async.upd] at h
      split at h
      · simp only [upd1] at h
        split at h
        · cases h; rw [jobStart_copy] at hq; cases hq
        · exact .inr ⟨a, c, q, h, hq⟩
      · exact .inr ⟨t, c, q, h, hq⟩
  | @work p' t a b k pc pc' m hs hk hj he hst =>
    refine VStep.store (v := asyncView s) (work_reach hj hst fun t c q h => ?_)
    simp only [Async.upd] at h
    split at h
    · rename_i e
      subst e
      simp only [upd1] at h
      split at h
      · cases h; exact .inr rfl
      · exact .inl h
    · exact .inl h
  | _ => exact same

theorem sync_upd {A X : Type} [DecidableEq A] (f : A → X) (a : A) (x : X) : Sync.upd f a x = Async.upd f a x := rfl

theorem sync_view {A : Type} [DecidableEq A] {u : Bool} {s s' : Sync.DSt T A K Addr}
    {e : Option (Ev T (Op K Addr) (SRes Addr))} (hs : Sync.DStep u heapCall s e s') :
    VStep (syncView s) e (syncView s') := by
  have same : ∀ {v : View T A K}, VStep v none v := .store fun _ h => h
  have nothing : ∀ {op : Op K Addr} {r : Ret K Addr} {x}, Sync.retryAs op r = some x → Sync.answer op r = none := by
    intro op r x h
    unfold Sync.retryAs at h
    unfold Sync.answer
    split at h <;> simp_all
  cases hs with
  | @call t h op hp ht ho =>
    have := VStep.call (v := syncView s) (i := t) (op := op) (by simp only [syncView, ht]; rfl) ho
    simp only [syncView, setAt_map syncCall]; exact this
  | @ret t h op x hp ht =>
    have := VStep.ret (v := syncView s) (i := t) (op := op) (x := x) (by simp only [syncView, ht]; rfl)
    simp only [syncView, setAt_map syncCall]; exact this
  | @enter p' t a op hs ht =>
    have := VStep.enter (v := syncView s) (i := t) (op := op) (s.env a) (by simp only [syncView, ht]; rfl)
    simp only [syncView, setAt_map syncCall]; exact this
  | @op p' t a op pc pc' g hs ht hst =>
    have := VStep.cont (v := syncView s) (i := t) (op := op) (b := a) (by simp only [syncView, ht]; rfl) hst
    simp only [syncView, setAt_map syncCall]; exact this
  | @opLin p' t a op pc g r x hs ht hst hx =>
    have := VStep.done (v := syncView s) (i := t) (op := op) (b := a) (by simp only [syncView, ht]; rfl) hst hx
      (.inr rfl)
    simp only [syncView, setAt_map syncCall]; exact this
  | @opAgain p' t a op pc g r x hs ht hst hx =>
    have := VStep.again (v := syncView s) (i := t) (op := op) (b := a) (by simp only [syncView, ht]; rfl) hst
      (nothing hx)
    simp only [syncView, setAt_map syncCall]; exact this
  | @exitAgain p' t a op x hs ht =>
    have := VStep.wait (v := syncView s) (i := t) (op := op) (by simp only [syncView, ht]; rfl)
    simp only [syncView, setAt_map syncCall]; exact this
  | @make p' t a b o i d hs ho hn =>
    refine VStep.store (v := syncView s) fun x h => ?_
    rcases h with ⟨t, p, y, h, hy⟩ | ⟨t, c, q, h, hq⟩
    · simp only [Sync.upd] at h
      split at h
      · exact (fresh_val h hy).elim
      · exact .inl ⟨t, p, y, h, hy⟩
    · cases h
  | @claim p' t a b o hs ho =>
    refine VStep.store (v := syncView s) fun x h => ?_
    rcases h with h | ⟨t, c, q, h, hq⟩
    · exact .inl h
    · simp only [upd1] at h
      split at h
      · cases h; rw [jobStart_copy] at hq; cases hq
      · exact .inr ⟨a, c, q, h, hq⟩
  | @work p' t a b k pc pc' m hs hk hj he hst =>
    refine VStep.store (v := syncView s) (work_reach (a' := a) hj hst fun t c q h => ?_)
    simp only [upd1] at h
    split at h
    · cases h; exact .inr rfl
    · exact .inl h
  | _ => exact same

end
end HeapMem
end Growt
