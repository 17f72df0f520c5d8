import Verif.HeapMem

/-!
# Publication of heap allocated elements

A call of `insert` on a table with heap slots (`complex_slot`) constructs an element with plain stores
(`complex_slot.hpp:198-259`) and publishes its address with a compare-and-swap of a slot; other threads load
the slot and read the element through the pointer (`compare_key`, `complex_slot.hpp:347-358`).  The
compare-and-swap and the load are `memory_order_relaxed` (`complex_slot.hpp:466-487`).  The other files treat
the construction and the publication as one step; here they are separated, on two machines:

* the C++ memory model: a thread *sees* the construction of an element if it happened before in the sense of
  the language, that is, if it constructed it or was told by a synchronising access (`PStep`);
* x86: plain stores are delayed in the buffer of the thread; atomic read-modify-write accesses wait until the
  buffer is empty, whatever their memory order (`TStep`).
-/

set_option linter.unusedSectionVars false

namespace Growt
namespace HeapMem

variable {T A K : Type} [DecidableEq T] [DecidableEq A] [DecidableEq K]
variable {S O R : Type}

/-! ## x86 -/

/-- The state of a system together with the memory of the elements: `init a`: the block `a` in memory holds
the element that was last constructed there; `buf i`: the constructions of thread `i` that have not reached
memory yet (the plain stores of `new (ptr) std::pair…`, `complex_slot.hpp:198-259`; all stores of one construction
are taken together). -/
structure TSt (S T : Type) where
  s : S
  init : Addr → Bool
  buf : T → List Addr

/-- Set the flag of a block. (model bookkeeping, no code) -/
def setB (f : Addr → Bool) (o : Option Addr) (b : Bool) : Addr → Bool :=
  fun a => if o = some a then b else f a

/-- One step on a machine with store buffers.  `rmw s s' i`: the step contains an atomic read-modify-write
access of thread `i`.
A call that allocates (`complex_slot.hpp:172-181, 198-259`): what the block contains in memory is not the new
element until the stores arrive.  A call that frees its block before it returns hands the block to the allocator,
which synchronises (`slot.cleanup()`, `complex_slot.hpp:415-427`; assumption about the allocator). -/
inductive TStep (step : S → Option (Ev T O R) → S → Prop) (al : O → Option Addr) (fr : O → R → Option Addr)
    (rmw : S → S → T → Prop) : TSt S T → Option (Ev T O R) → TSt S T → Prop where
  | quiet {s s' : S} {m : Addr → Bool} {b : T → List Addr} {e : Option (Ev T O R)} (h : step s e s')
      (hc : ∀ i o, e ≠ some (.call i o)) (hr : ∀ i o r, e ≠ some (.ret i o r))
      (hb : ∀ i, rmw s s' i → b i = []) : TStep step al fr rmw ⟨s, m, b⟩ e ⟨s', m, b⟩
  | call {s s' : S} {m : Addr → Bool} {b : T → List Addr} {i : T} {o : O} (h : step s (some (.call i o)) s') :
      TStep step al fr rmw ⟨s, m, b⟩ (some (.call i o))
        ⟨s', setB m (al o) false, setAt b i (b i ++ (al o).toList)⟩
  | ret {s s' : S} {m : Addr → Bool} {b : T → List Addr} {i : T} {o : O} {r : R}
      (h : step s (some (.ret i o r)) s') (hb : fr o r ≠ none → b i = []) :
      TStep step al fr rmw ⟨s, m, b⟩ (some (.ret i o r)) ⟨s', m, b⟩
  | flush {s : S} {m : Addr → Bool} {b : T → List Addr} {i : T} {a : Addr} {l : List Addr} (h : b i = a :: l) :
      TStep step al fr rmw ⟨s, m, b⟩ none ⟨s, setB m (some a) true, setAt b i l⟩

/-- An execution with store buffers is an execution of the system. -/
theorem TStep.project {step : S → Option (Ev T O R) → S → Prop} {al : O → Option Addr}
    {fr : O → R → Option Addr} {rmw : S → S → T → Prop} {x0 x : TSt S T} {l : List (Ev T O R)}
    (h : Exec (TStep step al fr rmw) x0 l x) : Exec step x0.s l x.s := by
  induction h with
  | init => exact .init
  | silent _ hs ih =>
    cases hs with
    | quiet h => exact .silent ih h
    | flush h => exact ih
  | vis _ hs ih =>
    cases hs with
    | quiet h => exact .vis ih h
    | call h => exact .vis ih h
    | ret h => exact .vis ih h

/-- The invariant: reachable elements are in memory; only constructions of owned elements are delayed; an owned
element is in memory or on its way. (proof, no code) -/
structure TInv (reach : S → Addr → Prop) (owns : S → T → Option Addr) (x : TSt S T) : Prop where
  reached : ∀ a, reach x.s a → x.init a = true
  delayed : ∀ i a, a ∈ x.buf i → owns x.s i = some a
  owned : ∀ i a, owns x.s i = some a → x.init a = true ∨ a ∈ x.buf i

theorem hrun_prefix {h : Addr → Bool} {l l' : List HEv} (hf : hrun h (l ++ l') ≠ .badAlloc) :
    hrun h l ≠ .badAlloc := by
  intro e; rw [hrun_append, e] at hf; exact hf rfl

/-- On x86 every reachable element is completely constructed in memory. -/
theorem tso_reached {step : S → Option (Ev T O R) → S → Prop} {J : S → Prop} {al : O → Option Addr}
    {fr : O → R → Option Addr} {sh : O → R → Addr → Prop} {reach : S → Addr → Prop}
    {owns : S → T → Option Addr} {rmw : S → S → T → Prop} (D : Discipline step J al fr sh reach owns)
    (hrmw : ∀ {s e s'}, J s → step s e s' → (∀ i o, e ≠ some (.call i o)) → (∀ i o r, e ≠ some (.ret i o r)) →
      ∀ i a, owns s i = some a → owns s' i = none → rmw s s' i)
    {s0 : S} (h0 : J s0) (hr : ∀ a, ¬ reach s0 a) (ho : ∀ i, owns s0 i = none) {m : Addr → Bool}
    {l : List (Ev T O R)} {x : TSt S T} (h : Exec (TStep step al fr rmw) ⟨s0, m, fun _ => []⟩ l x)
    (hf : hrun (fun _ => false) (trace al fr l) ≠ .badAlloc) : TInv reach owns x := by
  induction h with
  | init =>
    exact ⟨fun a ha => absurd ha (hr a), fun i a ha => (by cases ha), fun i a ha => (by
      have ha : owns s0 i = some a := ha
      rw [ho i] at ha; cases ha)⟩
  | @silent l x x' h hs ih =>
    have hI := ih hf
    obtain ⟨hJ, hp, -, G⟩ := D.good h0 hr ho (TStep.project h) hf
    cases hs with
    | @quiet s s' m b _ h hc hr' hb =>
      obtain ⟨q1, q2⟩ := D.quiet hJ h hc hr'
      refine ⟨fun a ha => ?_, fun i a ha => ?_, fun i a ha => ?_⟩
      · rcases q2 a ha with h1 | ⟨i, h1, h2⟩
        · exact hI.reached a h1
        · have := hb i (hrmw hJ h hc hr' i a h1 h2)
          rcases hI.owned i a h1 with h3 | h3
          · exact h3
          · have h3 : a ∈ b i := h3
            rw [this] at h3; cases h3
      · have h1 := hI.delayed i a ha
        rcases q1 i with h2 | h2
        · exact h2.trans h1
        · have h3 := hb i (hrmw hJ h hc hr' i a h1 h2)
          have ha : a ∈ b i := ha
          rw [h3] at ha; cases ha
      · rcases q1 i with h2 | h2
        · exact hI.owned i a (h2.symm.trans ha)
        · have ha : owns s' i = some a := ha
          rw [h2] at ha; cases ha
    | @flush s m b i a lb h =>
      refine ⟨fun a' ha => ?_, fun j a' ha => ?_, fun j a' ha => ?_⟩
      · simp only [setB]; split
        · rfl
        · exact hI.reached a' ha
      · refine hI.delayed j a' ?_
        simp only [setAt] at ha; split at ha
        · rename_i e; subst e
          show a' ∈ b j
          rw [h]; exact List.mem_cons_of_mem _ ha
        · exact ha
      · simp only [setB]
        rcases hI.owned j a' ha with h1 | h1
        · left; split
          · rfl
          · exact h1
        · have h1 : a' ∈ b j := h1
          by_cases e : j = i
          · subst e
            rw [h] at h1
            rcases List.mem_cons.1 h1 with rfl | h1
            · left; simp
            · right
              show a' ∈ setAt b j lb j
              rw [setAt_same]; exact h1
          · right
            show a' ∈ setAt b i lb j
            rw [setAt_other e]; exact h1
  | @vis l x x' e h hs ih =>
    rw [trace_append] at hf
    have hf' := hrun_prefix hf
    have hI := ih hf'
    obtain ⟨hJ, hp, hh, G⟩ := D.good h0 hr ho (TStep.project h) hf'
    cases hs with
    | @quiet s s' m b _ h hc hr' hb =>
      obtain ⟨q1, q2⟩ := D.quiet hJ h hc hr'
      refine ⟨fun a ha => ?_, fun i a ha => ?_, fun i a ha => ?_⟩
      · rcases q2 a ha with h1 | ⟨i, h1, h2⟩
        · exact hI.reached a h1
        · have := hb i (hrmw hJ h hc hr' i a h1 h2)
          rcases hI.owned i a h1 with h3 | h3
          · exact h3
          · have h3 : a ∈ b i := h3
            rw [this] at h3; cases h3
      · have h1 := hI.delayed i a ha
        rcases q1 i with h2 | h2
        · exact h2.trans h1
        · have h3 := hb i (hrmw hJ h hc hr' i a h1 h2)
          have ha : a ∈ b i := ha
          rw [h3] at ha; cases ha
      · rcases q1 i with h2 | h2
        · exact hI.owned i a (h2.symm.trans ha)
        · have ha : owns s' i = some a := ha
          rw [h2] at ha; cases ha
    | @call s s' m b i o h' =>
      obtain ⟨c1, c2, c3, c4⟩ := D.call hJ h'
      have hnew : ∀ a, al o = some a → hp a = false := by
        intro a ha
        rw [hrun_append, hh] at hf
        cases hb : hp a
        · rfl
        · simp [trace, ha, hrun, hb] at hf
      refine ⟨fun a ha => ?_, fun j a ha => ?_, fun j a ha => ?_⟩
      · have h1 := c1 a ha
        simp only [setB]; split
        · rename_i e; have := G.live a h1; rw [hnew a e] at this; cases this
        · exact hI.reached a h1
      · simp only [setAt] at ha; split at ha
        · rename_i e; subst e
          rcases List.mem_append.1 ha with h1 | h1
          · have := hI.delayed j a h1
            have c2 : owns s j = none := c2
            rw [c2] at this; cases this
          · show owns s' j = some a
            rw [c3]; exact Option.mem_toList.1 h1
        · rename_i e
          exact (c4 j e).trans (hI.delayed j a ha)
      · by_cases e : j = i
        · subst e
          have ha : owns s' j = some a := ha
          right
          show a ∈ setAt b j (b j ++ (al o).toList) j
          rw [setAt_same]
          exact List.mem_append.2 (.inr (Option.mem_toList.2 (c3.symm.trans ha)))
        · have h1 : owns s j = some a := (c4 j e).symm.trans ha
          have : al o ≠ some a := by
            intro e'
            have := (G.own j a h1).1; rw [hnew a e'] at this; cases this
          show setB m (al o) false a = true ∨ a ∈ setAt b i (b i ++ (al o).toList) j
          rw [setAt_other e]
          simp only [setB, if_neg this]
          exact hI.owned j a h1
    | @ret s s' m b i o r h' hb =>
      obtain ⟨r1, r2, r3, r4, -⟩ := D.ret hJ h'
      refine ⟨fun a ha => hI.reached a (r1 a ha), fun j a ha => ?_, fun j a ha => ?_⟩
      · have h1 : owns s j = some a := hI.delayed j a ha
        by_cases e : j = i
        · subst e
          have : fr o r ≠ none := by
            have r2 : owns s j = fr o r := r2
            rw [← r2, h1]; intro h; cases h
          have ha : a ∈ b j := ha
          rw [hb this] at ha; cases ha
        · exact (r4 j e).trans h1
      · by_cases e : j = i
        · subst e
          have ha : owns s' j = some a := ha
          rw [r3] at ha; cases ha
        · exact hI.owned j a ((r4 j e).symm.trans ha)

/-! ### The systems -/

/-- A call that returns after a load has not inserted its element. -/
theorem load_code {E : Env K} {op : Op K Addr} {j att : Nat} {t t' : Tbl K Addr} {r : Ret K Addr} {a : Addr}
    (ha : alloc? op = some a) (hs : step E op (.load j att) t = (t', .done r)) :
    r.code = some .UNSUCCESS_INVALID ∨ r.code = some .UNSUCCESS_FULL ∨ r.code = some .UNSUCCESS_ALREADY_USED := by
  simp only [step] at hs
  split at hs
  · injection hs with _ hs
    cases op <;> simp only [alloc?] at ha <;> try cases ha
    all_goals
      simp only [afterLoad, retEnd] at hs
      repeat' split at hs
      all_goals first
        | (cases hs; done)
        | (injection hs with hs; subst hs; simp; done)
  · injection hs with _ hs; cases hs

theorem load_answer {E : Env K} {op : Op K Addr} {j att : Nat} {t t' : Tbl K Addr} {r : Ret K Addr} {a : Addr}
    {x : SRes Addr} (ha : alloc? op = some a) (hs : step E op (.load j att) t = (t', .done r))
    (hx : Sync.answer op r = some x) : x.ok = false := by
  have h := load_code ha hs
  cases op <;> simp only [alloc?] at ha <;> try cases ha
  all_goals
    unfold Sync.answer react at hx
    rcases h with h | h | h <;> rw [h] at hx <;>
      simp [switchInsert, switchInsertOrUpdate] at hx <;> (try (subst hx; rfl))

theorem load_not_ok {E : Env K} {op : Op K Addr} {j att : Nat} {t t' : Tbl K Addr} {r : Ret K Addr} {a : Addr}
    (ha : alloc? op = some a) (hs : step E op (.load j att) t = (t', .done r)) : r.ok op = false := by
  have h := load_code ha hs
  cases op <;> simp only [alloc?] at ha <;> try cases ha
  all_goals
    rcases h with h | h | h <;> simp [Ret.ok, h, ReturnCode.successful] <;> try rfl

/-- The step contains a compare-and-swap of thread `i` on a slot (`base_linear.hpp:578, 749, 800`). -/
def rmwBase (s s' : CSt T K Addr) (i : T) : Prop :=
  ∃ op j att c, s.thr i = .busy op (.act j att c) ∧ s'.thr i ≠ s.thr i

/-- The same through the handle of an asynchronously growing table (`migration_table.hpp:549-588, 768-798`). -/
def rmwAsync (s s' : Async.DSt T A K Addr) (i : T) : Prop :=
  ∃ op j att c, s.thr i = .busy op (.act j att c) ∧ s'.thr i ≠ s.thr i

/-- The same through the handle of a synchronously growing table (`migration_table.hpp:549-588, 768-798`). -/
def rmwSync (s s' : Sync.DSt T A K Addr) (i : T) : Prop :=
  ∃ op j att c, s.thr i = .busy op (.act j att c) ∧ s'.thr i ≠ s.thr i

/-- The same for views. (proof, no code) -/
def rmwView (s s' : View T A K) (i : T) : Prop :=
  ∃ op j att c, s.thr i = .busy op (.act j att c) ∧ s'.thr i ≠ s.thr i

theorem base_rmw {E : Env K} {s s' : CSt T K Addr} {e : Option (TEv T K Addr)} (hs : CStep E heapCall s e s')
    (hc : ∀ i o, e ≠ some (.call i o)) (hr : ∀ i o r, e ≠ some (.ret i o r)) (i : T) (a : Addr)
    (h1 : thrOwns (s.thr i) = some a) (h2 : thrOwns (s'.thr i) = none) : rmwBase s s' i := by
  cases hs with
  | @call i' op h ho => exact absurd rfl (hc i' op)
  | @ret i' op r h => exact absurd rfl (hr i' op r)
  | @cont i' op pc pc' t' h hs =>
    simp only [setAt] at h2; split at h2
    · rename_i e; subst e
      rw [h] at h1; rw [show thrOwns (.busy op pc) = alloc? op from rfl] at h1
      rw [show thrOwns (.busy op pc') = alloc? op from rfl, h1] at h2; cases h2
    · rw [h1] at h2; cases h2
  | @done i' op pc t' r h hs =>
    by_cases e : i = i'
    · subst e
      simp only [setAt_same] at h2
      have h1' : alloc? op = some a := by rw [h] at h1; exact h1
      cases pc with
      | load j att =>
        have := load_not_ok h1' hs
        simp [thrOwns, freed, this, h1'] at h2
      | act j att c =>
        refine ⟨op, j, att, c, h, ?_⟩
        simp only [setAt_same]; rw [h]; intro h; cases h
    · simp only [setAt_other e] at h2
      rw [h1] at h2; cases h2

theorem view_rmw {v v' : View T A K} {e : Option (Ev T (Op K Addr) (SRes Addr))} (hs : VStep v e v')
    (hc : ∀ i o, e ≠ some (.call i o)) (hr : ∀ i o r, e ≠ some (.ret i o r)) (i : T) (a : Addr)
    (h1 : callOwns (v.thr i) = some a) (h2 : callOwns (v'.thr i) = none) : rmwView v v' i := by
  cases hs with
  | @call i' op h ho => exact absurd rfl (hc i' op)
  | @ret i' op r h => exact absurd rfl (hr i' op r)
  | store h => rw [h1] at h2; cases h2
  | @enter i' op E h =>
    simp only [setAt] at h2; split at h2
    · rename_i e; subst e
      have h1' : alloc? op = some a := by rw [h] at h1; exact h1
      rw [show callOwns (.busy op (start E op)) = alloc? op from rfl, h1'] at h2; cases h2
    · rw [h1] at h2; cases h2
  | @wait i' op h =>
    simp only [setAt] at h2; split at h2
    · rename_i e; subst e
      have h1' : alloc? op = some a := by rw [h] at h1; exact h1
      rw [show callOwns (.wait op) = alloc? op from rfl, h1'] at h2; cases h2
    · rw [h1] at h2; cases h2
  | @cont i' op pc pc' E b g h hst =>
    simp only [setAt] at h2; split at h2
    · rename_i e; subst e
      have h1' : alloc? op = some a := by rw [h] at h1; exact h1
      rw [show callOwns (.busy op pc') = alloc? op from rfl, h1'] at h2; cases h2
    · rw [h1] at h2; cases h2
  | @again i' op pc E b g r h hst hx =>
    simp only [setAt] at h2; split at h2
    · rename_i e; subst e
      have h1' : alloc? op = some a := by rw [h] at h1; exact h1
      rw [show callOwns (.wait op) = alloc? op from rfl, h1'] at h2; cases h2
    · rw [h1] at h2; cases h2
  | @done i' op pc E b g r x _ h hst hx he =>
    by_cases e : i = i'
    · subst e
      simp only [setAt_same] at h2
      have h1' : alloc? op = some a := by rw [h] at h1; exact h1
      cases pc with
      | load j att =>
        have := load_answer h1' hst hx
        simp [callOwns, freed, this, h1'] at h2
      | act j att c =>
        refine ⟨op, j, att, c, h, ?_⟩
        simp only [setAt_same]; rw [h]; intro h; cases h
    · simp only [setAt_other e] at h2
      rw [h1] at h2; cases h2

/-! ## The C++ memory model -/

/-- Memory orders of the accesses to a slot: does `load` acquire, does `cas` release?
(`complex_slot.hpp:466-487`) -/
structure Orders where
  acq : Bool
  rel : Bool

/-- The orders in the code: both accesses are `memory_order_relaxed` (`complex_slot.hpp:470, 486`). -/
def codeOrders : Orders := ⟨false, false⟩

/-- A bounded table together with what *happens before* (language standard): `know i a`: the construction of
the element at `a` happened before the present point of thread `i`; `msg p a`: it happened before the writes
that an acquiring load of slot `p` synchronises with (`_table`, `base_linear.hpp:248`; `_aptr`,
`complex_slot.hpp:136`). -/
structure PSt (T K : Type) where
  c : CSt T K Addr
  know : T → Addr → Bool
  msg : Nat → Addr → Bool

/-- Does the call write the address of its element to the slot from which it has loaded `curr`
(`base_linear.hpp:578, 749`)? -/
def casSlot (op : Op K Addr) (curr : Cell K Addr) : Bool :=
  match op with
  | .insert _ _ => true
  | .insertOrUpdate _ _ _ => curr.isEmpty
  | _ => false

/-- What thread `i` learns by an access to a slot: an acquiring load synchronises with the releasing
compare-and-swaps whose values it reads (`load`, `complex_slot.hpp:466-472`). -/
def learn (o : Orders) (E : Env K) (know : T → Addr → Bool) (msg : Nat → Addr → Bool) (i : T) :
    Growt.PC K Addr → T → Addr → Bool
  | .load j _ => if o.acq then setAt know i (fun a => know i a || msg (E.M.remap j) a) else know
  | .act _ _ _ => know

/-- What an access of thread `i` leaves at the slot: a successful releasing compare-and-swap adds what the thread
knows (a read-modify-write access continues the release sequence; `cas`, `complex_slot.hpp:481-487`). -/
def tell (o : Orders) (E : Env K) (know : T → Addr → Bool) (msg : Nat → Addr → Bool) (i : T) (op : Op K Addr)
    (t : Tbl K Addr) : Growt.PC K Addr → Nat → Addr → Bool
  | .load _ _ => msg
  | .act j _ curr =>
    if o.rel && casSlot op curr && decide (t (E.M.remap j) = curr) then
      fun p a => msg p a || (decide (p = E.M.remap j) && know i a)
    else msg

/-- One step of the bounded table with the happens-before relation; without it these are the steps of `CStep`
(`base_linear.hpp:556-1084`).  A call that allocates constructs its element at once: its own thread knows it,
nobody else does (`complex_slot.hpp:198-259`). -/
inductive PStep (o : Orders) (E : Env K) : PSt T K → Option (TEv T K Addr) → PSt T K → Prop where
  | call {x : PSt T K} {i : T} {op : Op K Addr} (h : x.c.thr i = .idle) (ho : heapCall op) :
      PStep o E x (some (.call i op))
        ⟨⟨x.c.tbl, setAt x.c.thr i (.busy op (start E op))⟩,
          fun j => setB (x.know j) (alloc? op) (decide (j = i)), fun p => setB (x.msg p) (alloc? op) false⟩
  | cont {x : PSt T K} {i : T} {op : Op K Addr} {pc pc' : Growt.PC K Addr} {t' : Tbl K Addr}
      (h : x.c.thr i = .busy op pc) (hs : step E op pc x.c.tbl = (t', .cont pc')) :
      PStep o E x none
        ⟨⟨t', setAt x.c.thr i (.busy op pc')⟩, learn o E x.know x.msg i pc, tell o E x.know x.msg i op x.c.tbl pc⟩
  | done {x : PSt T K} {i : T} {op : Op K Addr} {pc : Growt.PC K Addr} {t' : Tbl K Addr} {r : Ret K Addr}
      (h : x.c.thr i = .busy op pc) (hs : step E op pc x.c.tbl = (t', .done r)) :
      PStep o E x (some (.lin i op r))
        ⟨⟨t', setAt x.c.thr i (.fin op r)⟩, learn o E x.know x.msg i pc, tell o E x.know x.msg i op x.c.tbl pc⟩
  | ret {x : PSt T K} {i : T} {op : Op K Addr} {r : Ret K Addr} (h : x.c.thr i = .fin op r) :
      PStep o E x (some (.ret i op r)) ⟨⟨x.c.tbl, setAt x.c.thr i .idle⟩, x.know, x.msg⟩

/-- The empty table (`base_linear.hpp:396-411`). -/
def PSt.init : PSt T K := ⟨CSt.init, fun _ _ => false, fun _ _ => false⟩

/-- Thread `i` is about to load slot `p`, which points to the element at `a` with the key that it looks for;
it will then read the key in the element (`compare_key`, `complex_slot.hpp:347-358`; the fingerprints agree). -/
def Reads (E : Env K) (s : CSt T K Addr) (i : T) (p : Nat) (a : Addr) : Prop :=
  ∃ op j att, s.thr i = .busy op (.load j att) ∧ E.M.remap j = p ∧ p < E.M.total ∧ (s.tbl p).c = .live op.key a

/-- The construction of the element at `a` happens before what thread `i` does after its load of slot `p`
(`complex_slot.hpp:466-472`).  Otherwise reading the element is a data race. -/
def Seen (o : Orders) (x : PSt T K) (i : T) (p : Nat) (a : Addr) : Bool := x.know i a || (o.acq && x.msg p a)

theorem PStep.base {o : Orders} {E : Env K} {x x' : PSt T K} {e : Option (TEv T K Addr)} (h : PStep o E x e x') :
    CStep E heapCall x.c e x'.c := by
  cases h with
  | call h ho => exact .call h ho
  | cont h hs => exact .cont h hs
  | done h hs => exact .done h hs
  | ret h => exact .ret h

theorem PStep.project {o : Orders} {E : Env K} {x0 x : PSt T K} {l : List (TEv T K Addr)}
    (h : Exec (PStep o E) x0 l x) : Exec (CStep E heapCall) x0.c l x.c := by
  induction h with
  | init => exact .init
  | silent _ hs ih => exact .silent ih hs.base
  | vis _ hs ih => exact .vis ih hs.base

/-- Where the pointers come from: a load. -/
theorem load_pub {E : Env K} {op : Op K Addr} {j att : Nat} {t t' : Tbl K Addr} {out : Out K Addr}
    (hc : heapCall op) (hs : step E op (.load j att) t = (t', out)) :
    t' = t ∧ (∀ pc', out = .cont pc' → ∀ a, pcCopy pc' = some a → (t (E.M.remap j)).val? = some a) ∧
    (∀ r, out = .done r → ∀ a, r.shown = some a → (t (E.M.remap j)).val? = some a) := by
  simp only [step] at hs
  split at hs
  · cases hs
    refine ⟨rfl, fun pc' h a ha => ?_, fun r h a ha => ?_⟩
    · cases op <;> simp only [heapCall] at hc <;> simp only [afterLoad, retEnd] at h <;>
        repeat' split at h
      all_goals cases h
      all_goals first
        | cases ha
        | exact ha
    · cases op <;> simp only [heapCall] at hc <;> simp only [afterLoad, retEnd] at h <;>
        repeat' split at h
      all_goals cases h
      all_goals first
        | cases ha
        | exact ha
  · cases hs
    exact ⟨rfl, nofun, nofun⟩

/-- Where the pointers come from: a compare-and-swap or an update. -/
theorem act_pub {E : Env K} {op : Op K Addr} {i att : Nat} {c : Cell K Addr} {t t' : Tbl K Addr}
    {out : Out K Addr} (hc : heapCall op) (hA : ActOK op (.act i att c))
    (hs : step E op (.act i att c) t = (t', out)) :
    (∀ p a, (t' p).val? = some a → (t p).val? = some a ∨
      p = E.M.remap i ∧ t p = c ∧ casSlot op c = true ∧ alloc? op = some a) ∧
    (∀ pc', out = .cont pc' → pcCopy pc' = none) ∧
    (∀ r, out = .done r → ∀ a, r.shown = some a → c.val? = some a ∨ alloc? op = some a) := by
  simp only [step] at hs
  split at hs
  · have cas : ∀ {k : K} {b : Addr} {r : Ret K Addr}, casStep t i att (E.M.remap i) c (Cell.liveCell k b) r = (t', out) →
        casSlot op c = true → alloc? op = some b → (∀ a, r.shown = some a → c.val? = some a ∨ b = a) →
        (∀ p a, (t' p).val? = some a → (t p).val? = some a ∨
          p = E.M.remap i ∧ t p = c ∧ casSlot op c = true ∧ alloc? op = some a) ∧
        (∀ pc', out = .cont pc' → pcCopy pc' = none) ∧
        (∀ r, out = .done r → ∀ a, r.shown = some a → c.val? = some a ∨ alloc? op = some a) := by
      intro k b r h hcs ha hsh
      simp only [casStep] at h
      split at h
      · rename_i heq
        cases h
        refine ⟨fun p a h => ?_, nofun, fun r h a h' => ?_⟩
        · simp only [Tbl.set] at h
          split at h
          · rename_i e
            subst e
            cases h
            exact .inr ⟨rfl, heq, hcs, ha⟩
          · exact .inl h
        · cases h
          rcases hsh a h' with h | h
          · exact .inl h
          · exact .inr (by rw [ha, h])
      · cases h
        exact ⟨fun p a h => .inl h, fun pc' h => by cases h; rfl, nofun⟩
    have up : ∀ {k : K} {fail : Out K Addr} {v : Addr}, c.c = .live k v →
        (∀ r, fail = .done r → r.shown = none) → (∀ pc', fail = .cont pc' → ∃ j n, pc' = .load j n) →
        ((t.set (E.M.remap i) (atomicUpdate E.m k (t (E.M.remap i)) c inPlace).1,
          if (atomicUpdate E.m k (t (E.M.remap i)) c inPlace).2.2 = true then
            Out.done ⟨some .SUCCESS_UP, some (E.M.remap i, (atomicUpdate E.m k (t (E.M.remap i)) c inPlace).2.1)⟩
          else fail) = (t', out)) →
        (∀ p a, (t' p).val? = some a → (t p).val? = some a ∨
          p = E.M.remap i ∧ t p = c ∧ casSlot op c = true ∧ alloc? op = some a) ∧
        (∀ pc', out = .cont pc' → pcCopy pc' = none) ∧
        (∀ r, out = .done r → ∀ a, r.shown = some a → c.val? = some a ∨ alloc? op = some a) := by
      intro k fail v hcv hf1 hf2 h
      have hcm : c.mapped = v := by simp [Cell.mapped, hcv]
      have hcp : c.val? = some v := by simp [Cell.val?, hcv]
      have h1 : (atomicUpdate E.m k (t (E.M.remap i)) c inPlace).1 = t (E.M.remap i) := by
        unfold atomicUpdate inPlace
        cases E.m with
        | true =>
          simp only [if_true, setMapped_mapped]
          split
          · rename_i e; rw [e]
          · rfl
        | false =>
          simp only [Bool.false_eq_true, if_false]
          split
          · rename_i e; rw [← e, setMapped_mapped]
          · rfl
      have h2 : (atomicUpdate E.m k (t (E.M.remap i)) c inPlace).2.2 = true →
          (atomicUpdate E.m k (t (E.M.remap i)) c inPlace).2.1.val? = some v := by
        unfold atomicUpdate inPlace
        cases E.m with
        | true =>
          simp only [if_true, setMapped_mapped]
          split <;> intro _ <;> exact hcp
        | false =>
          simp only [Bool.false_eq_true, if_false]
          split
          · intro _; simp [Cell.liveCell, Cell.val?, hcm]
          · nofun
      rw [h1] at h
      have hset : t.set (E.M.remap i) (t (E.M.remap i)) = t := by
        funext q; unfold Tbl.set; split
        · rename_i e; rw [e]
        · rfl
      rw [hset] at h
      split at h
      · rename_i hsucc
        cases h
        refine ⟨fun p a h => .inl h, nofun, fun r h a h' => ?_⟩
        cases h
        have h'' : (atomicUpdate E.m k (t (E.M.remap i)) c inPlace).2.1.val? = some a := h'
        rw [h2 hsucc] at h''
        cases h''
        exact .inl hcp
      · cases h
        refine ⟨fun p a h => .inl h, fun pc' h => ?_, fun r h a h' => ?_⟩
        · obtain ⟨j, n, rfl⟩ := hf2 pc' h
          rfl
        · rw [hf1 r h] at h'; cases h'
    have live : alloc? op = none → ∃ v, c.c = .live op.key v := by
      intro hn
      rcases hA with ⟨-, h⟩ | h
      · exact absurd hn h
      · exact h
    cases op with
    | find k | locate k => cases hs; exact ⟨fun p a h => .inl h, nofun, nofun⟩
    | insert k d => exact cas hs rfl rfl (fun a ha => .inl ha)
    | update k f =>
      cases hc
      obtain ⟨v, hv⟩ := live rfl
      refine up hv ?_ ?_ hs
      · nofun
      · intro pc' e; cases e; exact ⟨_, _, rfl⟩
    | updateBackoff k f b =>
      cases hc
      obtain ⟨v, hv⟩ := live rfl
      refine up hv ?_ ?_ hs
      · intro r e
        split at e
        · cases e
        · cases e; rfl
      · intro pc' e
        split at e
        · cases e; exact ⟨_, _, rfl⟩
        · cases e
    | insertOrUpdate k d f =>
      cases hc
      simp only [actStep] at hs
      split at hs
      · rename_i he
        exact cas hs he rfl (fun a ha => .inr (by simpa [Ret.shown, Cell.liveCell, Cell.val?] using ha))
      · rename_i he
        rcases hA with ⟨h, -⟩ | ⟨v, hv⟩
        · exact absurd (by simp [Cell.isEmpty, h]) he
        · refine up hv ?_ ?_ hs
          · nofun
          · intro pc' e; cases e; exact ⟨_, _, rfl⟩
    | updateUnsafe k f => cases hc
    | insertOrUpdateUnsafe k d f => cases hc
    | erase k => cases hc
    | eraseIf k d => cases hc
  · cases hs
    exact ⟨fun p a h => .inl h, nofun, nofun⟩

/-- The invariant: the constructions of elements in slots are known there, those of elements to which a thread has
pointers are known to the thread. (proof, no code) -/
structure PInv (x : PSt T K) : Prop where
  slot : ∀ p a, (x.c.tbl p).val? = some a → x.msg p a = true
  held : ∀ i a, thrReach (x.c.thr i) a → x.know i a = true
  own : ∀ i a, thrOwns (x.c.thr i) = some a → x.know i a = true

theorem learn_mono {o : Orders} {E : Env K} {know : T → Addr → Bool} {msg : Nat → Addr → Bool} {i j : T}
    {pc : Growt.PC K Addr} {a : Addr} (h : know j a = true) : learn o E know msg i pc j a = true := by
  cases pc with
  | load q att =>
    simp only [learn]; split
    · simp only [setAt]; split
      · rename_i e; subst e; simp [h]
      · exact h
    · exact h
  | act _ _ _ => exact h

theorem tell_mono {o : Orders} {E : Env K} {know : T → Addr → Bool} {msg : Nat → Addr → Bool} {i : T}
    {op : Op K Addr} {t : Tbl K Addr} {pc : Growt.PC K Addr} {p : Nat} {a : Addr} (h : msg p a = true) :
    tell o E know msg i op t pc p a = true := by
  cases pc with
  | load q att => exact h
  | act _ _ _ =>
    simp only [tell]; split
    · simp [h]
    · exact h

/-- One step of a thread inside a call. -/
theorem PInv.inside {o : Orders} (hacq : o.acq = true) (hrel : o.rel = true) {E : Env K} {x : PSt T K} (hI : PInv x)
    {i : T} {op : Op K Addr} {pc : Growt.PC K Addr} {t' : Tbl K Addr} {out : Out K Addr}
    (h : x.c.thr i = .busy op pc) (hJ : heapCall op ∧ ActOK op pc) (hs : step E op pc x.c.tbl = (t', out)) :
    (∀ p a, (t' p).val? = some a → tell o E x.know x.msg i op x.c.tbl pc p a = true) ∧
    (∀ pc', out = .cont pc' → ∀ a, pcCopy pc' = some a → learn o E x.know x.msg i pc i a = true) ∧
    (∀ r, out = .done r → ∀ a, r.shown = some a → learn o E x.know x.msg i pc i a = true) := by
  have hown : ∀ a, alloc? op = some a → x.know i a = true := fun a ha => hI.own i a (by rw [h]; exact ha)
  cases pc with
  | load j att =>
    obtain ⟨rfl, l1, l2⟩ := load_pub hJ.1 hs
    have key : ∀ a, (x.c.tbl (E.M.remap j)).val? = some a → learn o E x.know x.msg i (.load j att) i a = true := by
      intro a ha
      simp [learn, hacq, setAt_same, hI.slot _ a ha]
    exact ⟨fun p a ha => tell_mono (hI.slot p a ha), fun pc' e a ha => key a (l1 pc' e a ha),
      fun r e a ha => key a (l2 r e a ha)⟩
  | act j att c =>
    obtain ⟨a1, a2, a3⟩ := act_pub hJ.1 hJ.2 hs
    refine ⟨fun p a ha => ?_, fun pc' e a ha => ?_, fun r e a ha => learn_mono ?_⟩
    · rcases a1 p a ha with h1 | ⟨e1, e2, e3, e4⟩
      · exact tell_mono (hI.slot p a h1)
      · subst e1
        simp [tell, hrel, e2, e3, hown a e4]
    · rw [a2 pc' e] at ha; cases ha
    · rcases a3 r e a ha with h1 | h1
      · exact hI.held i a (by rw [h]; exact h1)
      · exact hown a h1

theorem base_start {T : Type} (a : Addr) : ¬ baseReach (CSt.init : CSt T K Addr) a := by
  rintro (⟨p, hp⟩ | ⟨i, hi⟩)
  · cases hp
  · exact hi

/-- With acquiring loads and releasing compare-and-swaps the invariant holds in every execution. -/
theorem PInv.reach {o : Orders} (hacq : o.acq = true) (hrel : o.rel = true) {E : Env K} {x : PSt T K}
    {l : List (TEv T K Addr)} (h : Exec (PStep o E) PSt.init l x)
    (hf : hrun (fun _ => false) (baseTrace l) ≠ .badAlloc) : PInv x := by
  induction h with
  | init => exact ⟨fun p a ha => (by cases ha), fun i a ha => ha.elim, fun i a ha => (by cases ha)⟩
  | @silent l x x' h hs ih =>
    have hI := ih hf
    obtain ⟨hJ, -⟩ := (base_discipline (T := T) E).good (s0 := CSt.init) (fun _ => trivial)
      base_start (fun _ => rfl) (PStep.project h) hf
    cases hs with
    | @cont i op pc pc' t' h hs =>
      have hj := hJ i; rw [h] at hj
      obtain ⟨g1, g2, -⟩ := hI.inside hacq hrel h hj hs
      refine ⟨g1, fun j a ha => ?_, fun j a ha => ?_⟩
      · simp only [setAt] at ha; split at ha
        · rename_i e; subst e; exact g2 _ rfl a ha
        · exact learn_mono (hI.held j a ha)
      · simp only [setAt] at ha; split at ha
        · rename_i e; subst e; exact learn_mono (hI.own j a (by rw [h]; exact ha))
        · exact learn_mono (hI.own j a ha)
  | @vis l x x' e h hs ih =>
    have hf0 : hrun (fun _ => false) (baseTrace l ++ baseTrace [e]) ≠ .badAlloc := by
      unfold baseTrace; rw [← trace_append]; exact hf
    have hf' := hrun_prefix hf0
    have hI := ih hf'
    obtain ⟨hJ, hp, hh, G⟩ := (base_discipline (T := T) E).good (s0 := CSt.init) (fun _ => trivial)
      base_start (fun _ => rfl) (PStep.project h) hf'
    cases hs with
    | @call i op h ho =>
      have hnew : ∀ a, alloc? op = some a → hp a = false := by
        intro a ha
        have hh : hrun (fun _ => false) (baseTrace l) = .ok hp := hh
        rw [hrun_append, hh] at hf0
        cases hb : hp a
        · rfl
        · simp [baseTrace, trace, ha, hrun, hb] at hf0
      have keep : ∀ {f : Addr → Bool} {b : Bool} {a : Addr}, f a = true → hp a = true →
          setB f (alloc? op) b a = true := by
        intro f b a h1 h2
        simp only [setB]; split
        · rename_i e; rw [hnew a e] at h2; cases h2
        · exact h1
      refine ⟨fun p a ha => keep (hI.slot p a ha) (G.live a (.inl ⟨p, ha⟩)), fun j a ha => ?_, fun j a ha => ?_⟩
      · simp only [setAt] at ha; split at ha
        · cases ha
        · exact keep (hI.held j a ha) (G.live a (.inr ⟨j, ha⟩))
      · simp only [setAt] at ha; split at ha
        · rename_i e; subst e
          have ha : alloc? op = some a := ha
          simp [setB, ha]
        · exact keep (hI.own j a ha) (G.own j a ha).1
    | @done i op pc t' r h hs =>
      have hj := hJ i; rw [h] at hj
      obtain ⟨g1, -, g3⟩ := hI.inside hacq hrel h hj hs
      refine ⟨g1, fun j a ha => ?_, fun j a ha => ?_⟩
      · simp only [setAt] at ha; split at ha
        · rename_i e; subst e
          rcases ha with ha | ⟨ha, -⟩
          · exact g3 _ rfl a ha
          · exact learn_mono (hI.own j a (by rw [h]; exact ha))
        · exact learn_mono (hI.held j a ha)
      · simp only [setAt] at ha; split at ha
        · rename_i e; subst e
          refine learn_mono (hI.own j a ?_)
          rw [h]
          simp only [thrOwns, freed] at ha
          split at ha
          · cases ha
          · exact ha
        · exact learn_mono (hI.own j a ha)
    | @ret i op r h =>
      refine ⟨hI.slot, fun j a ha => ?_, fun j a ha => ?_⟩
      · simp only [setAt] at ha; split at ha
        · cases ha
        · exact hI.held j a ha
      · simp only [setAt] at ha; split at ha
        · cases ha
        · exact hI.own j a ha

end HeapMem
end Growt
