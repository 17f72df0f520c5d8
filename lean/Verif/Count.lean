/-
Model of the element counters of a growing table
(/repo/data-structures/migration_table.hpp, counters 140-150, local_count 389-426,
handle construction, move and destruction 468-540, update_numbers 1085-1117,
inc_inserted 1120, inc_deleted 1135) together with the places where the two growing
strategies touch the counters (/repo/data-structures/strategies/estrat_async.hpp
322-350, /repo/data-structures/strategies/estrat_sync.hpp 301-370).

The model is an interleaving model: every step performs one access to a shared counter
or one purely handle-local action.  Any number of handles exist.

Simplifications:
* `_elements`, `_dummies` are `atomic_int`; the model uses unbounded integers, i.e. it
  describes executions in which neither counter leaves the range of `int`.
* A handle is used by one thread at a time (the class is documented that way), so its
  local counters are only touched by its own steps.
* The successful table operation and the `++` of the handle-local counter are one step;
  the local counter is visible to nobody else.
-/

namespace Growt.Cnt

/-- `local_count` of a handle (migration_table.hpp 389-395).  The default values are
those of its default constructor (line 395). -/
structure Local where
  updates : Int := 0
  inserted : Int := 0
  deleted : Int := 0
  deriving DecidableEq, Repr

/-- Where a handle is inside `update_numbers` (migration_table.hpp 1085-1117).
`ready`: not inside; `addDummies`: before line 1097; `addElements`: before line 1099;
`grow`: about to call `grow(v)` (line 1110); `clear`: before `_counts.set(0,0,0)`
(lines 1111, 1116); `gone`: the destructor (lines 523-540) has finished, the memory
holds no handle. -/
inductive Stage where
  | ready | addDummies | addElements | grow | clear | gone
  deriving DecidableEq, Repr

/-- A handle: its local counters (migration_table.hpp 427), its position in
`update_numbers`, and whether it is being destroyed (line 523). -/
structure Handle where
  c : Local := {}
  st : Stage := .ready
  dying : Bool := false
  deriving DecidableEq, Repr

/-- The shared counters (migration_table.hpp 147-148), all handles ever created, and the
growing threads between their accesses to the counters:
`exchanged` holds, for every growing thread of the asynchronous strategy between
estrat_async.hpp lines 339 and 340, the value it took out of `_dummies`;
`loaded` and `subtracted` hold, for the synchronous strategy, the value read in
estrat_sync.hpp line 353 before the subtraction in line 354 respectively between lines
354 and 355. -/
structure St where
  elements : Int := 0
  dummies : Int := 0
  hs : List Handle := []
  exchanged : List Int := []
  loaded : List Int := []
  subtracted : List Int := []
  deriving DecidableEq, Repr

/-- What an outside observer is told about a step. (model bookkeeping, no code) -/
inductive Ev where
  /-- an insertion through handle `i` succeeded -/
  | inserted (i : Nat)
  /-- an erasure through handle `i` succeeded -/
  | erased (i : Nat)
  /-- a handle that sees a table with `cap` slots moved `_elements` from `prev` to
  `now` and decided whether to trigger growth -/
  | flushed (cap : Nat) (prev now : Int) (trigger : Bool)
  /-- a growing thread changed a counter -/
  | grew
  | tau
  deriving DecidableEq, Repr

/-- `int thresh = table->capacity() * _max_fill_factor` (migration_table.hpp 1103 and
378, factor 0.666).  The product is computed in `double` and truncated; for capacities
below `2^40` this is the integer division below (the fraction part of
`capacity*666/1000` is a multiple of `1/500`, far above the rounding error). -/
def thresh (cap : Nat) : Int := (cap * 666 / 1000 : Nat)

/-- `temp > thresh` and `temp - _counts._inserted < thresh` (migration_table.hpp
1104-1106), where `prev` is the value before the addition. -/
def triggers (cap : Nat) (prev ins : Int) : Bool :=
  decide (prev + ins > thresh cap) && decide (prev + ins - ins < thresh cap)

/-- The first statement of `update_numbers` (migration_table.hpp 1087). -/
def Handle.startFlush (h : Handle) : Handle :=
  { h with c := { h.c with updates := 0 }, st := .addDummies }

/-- `inc_inserted` (migration_table.hpp 1120-1125) up to the call of
`update_numbers`. -/
def Handle.incInserted (h : Handle) : Handle :=
  let h' := { h with c := { h.c with inserted := h.c.inserted + 1
                                     updates := h.c.updates + 1 } }
  if h.c.updates + 1 > 64 then h'.startFlush else h'

/-- `inc_deleted` (migration_table.hpp 1135-1140) up to the call of
`update_numbers`. -/
def Handle.incDeleted (h : Handle) : Handle :=
  let h' := { h with c := { h.c with deleted := h.c.deleted + 1
                                     updates := h.c.updates + 1 } }
  if h.c.updates + 1 > 64 then h'.startFlush else h'

/-- `_counts.set(0,0,0)` (migration_table.hpp 1111, 1116, 417-422) and the end of
`update_numbers`; a handle under destruction is gone afterwards (523-540). -/
def Handle.clear (h : Handle) : Handle :=
  { h with c := {}, st := if h.dying then .gone else .ready }

/-- Move construction of the counters (migration_table.hpp 397-404, called in line 501,
and line 503): the counters of the new handle and those left in the source. -/
def moveCounts (src : Local) : Local × Local := (src, {})

/-- One step of the system.  `i` is the acting handle.
(`migration_table.hpp:389-427, 467-538, 1085-1140`; the lines are at the constructors) -/
inductive Step : St → Ev → St → Prop where
  /-- handle construction, migration_table.hpp 468-491 -/
  | create (s : St) : Step s .tau { s with hs := s.hs ++ [{}] }
  /-- a successful insertion, lines 614, 827, 904 -/
  | insertOk (s : St) (i : Nat) (h : Handle) (hi : s.hs[i]? = some h)
      (hr : h.st = .ready) : Step s (.inserted i) { s with hs := s.hs.set i h.incInserted }
  /-- a successful erasure, lines 974, 1011 -/
  | eraseOk (s : St) (i : Nat) (h : Handle) (hi : s.hs[i]? = some h)
      (hr : h.st = .ready) : Step s (.erased i) { s with hs := s.hs.set i h.incDeleted }
  /-- a call of the public `update_numbers`, line 1085 -/
  | flush (s : St) (i : Nat) (h : Handle) (hi : s.hs[i]? = some h)
      (hr : h.st = .ready) : Step s .tau { s with hs := s.hs.set i h.startFlush }
  /-- the destructor begins, line 523 (also as first part of the move assignment, line
  516) -/
  | destroy (s : St) (i : Nat) (h : Handle) (hi : s.hs[i]? = some h)
      (hr : h.st = .ready) :
      Step s .tau { s with hs := s.hs.set i { h.startFlush with dying := true } }
  /-- `_dummies.fetch_add(_deleted)`, line 1097 -/
  | addDummies (s : St) (i : Nat) (h : Handle) (hi : s.hs[i]? = some h)
      (hr : h.st = .addDummies) :
      Step s .tau { s with dummies := s.dummies + h.c.deleted
                           hs := s.hs.set i { h with st := .addElements } }
  /-- `_elements.fetch_add(_inserted)` and the decision, lines 1099-1106; `cap` is the
  capacity of the table the handle got in line 1089 -/
  | addElements (s : St) (i : Nat) (h : Handle) (cap : Nat) (hi : s.hs[i]? = some h)
      (hr : h.st = .addElements) :
      Step s (.flushed cap s.elements (s.elements + h.c.inserted)
          (triggers cap s.elements h.c.inserted))
        { s with elements := s.elements + h.c.inserted
                 hs := s.hs.set i { h with
                  st := if triggers cap s.elements h.c.inserted then .grow else .clear } }
  /-- `grow(v)` has returned, line 1110; what it does to the counters are the steps
  `exchange` to `subDummies` below -/
  | grown (s : St) (i : Nat) (h : Handle) (hi : s.hs[i]? = some h)
      (hr : h.st = .grow) : Step s .tau { s with hs := s.hs.set i { h with st := .clear } }
  /-- `_counts.set(0,0,0)`, lines 1111, 1116 -/
  | clear (s : St) (i : Nat) (h : Handle) (hi : s.hs[i]? = some h)
      (hr : h.st = .clear) : Step s .tau { s with hs := s.hs.set i h.clear }
  /-- move construction, lines 496-508; the new handle is appended -/
  | moveCtor (s : St) (i : Nat) (h : Handle) (hi : s.hs[i]? = some h)
      (hr : h.st = .ready) :
      Step s .tau { s with hs := s.hs.set i { h with c := (moveCounts h.c).2 } ++
                                  [{ c := (moveCounts h.c).1 }] }
  /-- move assignment, lines 510-520, second part: placement construction in the memory
  of a destroyed handle `j` -/
  | moveAssign (s : St) (i j : Nat) (h g : Handle) (hi : s.hs[i]? = some h)
      (hj : s.hs[j]? = some g) (hr : h.st = .ready) (hg : g.st = .gone) (hij : i ≠ j) :
      Step s .tau { s with hs := (s.hs.set i { h with c := (moveCounts h.c).2 }).set j
                                  { c := (moveCounts h.c).1 } }
  /-- `_dummies.exchange(0)`, estrat_async.hpp 339 -/
  | exchange (s : St) :
      Step s .grew { s with dummies := 0, exchanged := s.dummies :: s.exchanged }
  /-- `_elements.fetch_sub(temp)`, estrat_async.hpp 340 -/
  | subExchanged (s : St) (x : Int) (hx : x ∈ s.exchanged) :
      Step s .grew { s with elements := s.elements - x, exchanged := s.exchanged.erase x }
  /-- `rem_dummies = _dummies.load()`, estrat_sync.hpp 353 -/
  | load (s : St) : Step s .grew { s with loaded := s.dummies :: s.loaded }
  /-- `_elements.fetch_sub(rem_dummies)`, estrat_sync.hpp 354 -/
  | subElements (s : St) (x : Int) (hx : x ∈ s.loaded) :
      Step s .grew { s with elements := s.elements - x, loaded := s.loaded.erase x
                            subtracted := x :: s.subtracted }
  /-- `_dummies.fetch_sub(rem_dummies)`, estrat_sync.hpp 355 -/
  | subDummies (s : St) (x : Int) (hx : x ∈ s.subtracted) :
      Step s .grew { s with dummies := s.dummies - x, subtracted := s.subtracted.erase x }

/-- Executions with the list of observable events, newest first. (model bookkeeping, no code) -/
inductive Exec : St → List Ev → St → Prop where
  | refl (s : St) : Exec s [] s
  | snoc {s s' s'' : St} {tr : List Ev} {e : Ev} :
      Exec s tr s' → Step s' e s'' → Exec s (e :: tr) s''

/-- `element_count_approx` (migration_table.hpp 136-139) executed in one go: the `int`
difference converted to `size_t`. -/
def approx (s : St) : Nat := ((s.elements - s.dummies) % (2 ^ 64 : Int)).toNat

/-- The two loads of `element_count_approx` (`migration_table.hpp:138`) happening at different moments:
`e` is the value read from `_elements`, `d` the one read from `_dummies`. -/
def approxRead (e d : Int) : Nat := ((e - d) % (2 ^ 64 : Int)).toNat

/-- The part of a handle's counts not yet contained in the shared counters. (specification, no code) -/
def Handle.unflushed (h : Handle) : Int :=
  match h.st with
  | .ready | .addDummies => h.c.inserted - h.c.deleted
  | .addElements => h.c.inserted
  | .grow | .clear | .gone => 0

/-! ### Sums over lists -/

/-- Sum of integers (specification helper). (specification, no code) -/
def isum : List Int → Int
  | [] => 0
  | x :: xs => x + isum xs

theorem isum_append (l m : List Int) : isum (l ++ m) = isum l + isum m := by
  induction l with
  | nil => simp [isum]
  | cons a l ih => simp only [List.cons_append, isum, ih]; omega

theorem isum_erase {l : List Int} {x : Int} (h : x ∈ l) :
    isum (l.erase x) = isum l - x := by
  induction l with
  | nil => cases h
  | cons a l ih =>
    by_cases hax : a = x
    · subst hax; simp [isum]; omega
    · have : x ∈ l := by
        cases h with
        | head => exact absurd rfl hax
        | tail _ h => exact h
      rw [List.erase_cons_tail (by simpa using hax)]
      simp only [isum, ih this]; omega

theorem isum_set (f : Handle → Int) {l : List Handle} {i : Nat} {h : Handle}
    (hi : l[i]? = some h) (h' : Handle) :
    isum ((l.set i h').map f) = isum (l.map f) - f h + f h' := by
  induction l generalizing i with
  | nil => simp at hi
  | cons a l ih =>
    cases i with
    | zero =>
      simp at hi; subst hi
      simp only [List.set_cons_zero, List.map_cons, isum]; omega
    | succ i =>
      simp at hi
      simp only [List.set_cons_succ, List.map_cons, isum, ih hi]; omega

/-- Sum of all unflushed differences. (specification, no code) -/
def pending (s : St) : Int := isum (s.hs.map Handle.unflushed)

/-- Successful insertions minus successful erasures in a trace. (specification, no code) -/
def net : List Ev → Int
  | [] => 0
  | .inserted _ :: tr => net tr + 1
  | .erased _ :: tr => net tr - 1
  | _ :: tr => net tr

/-- Everything counted anywhere. (proof, no code) -/
def total (s : St) : Int :=
  s.elements - s.dummies + pending s - isum s.exchanged + isum s.subtracted

theorem unflushed_startFlush (h : Handle) (hr : h.st = .ready) :
    h.startFlush.unflushed = h.unflushed := by
  simp [Handle.startFlush, Handle.unflushed, hr]

theorem unflushed_incInserted (h : Handle) (hr : h.st = .ready) :
    h.incInserted.unflushed = h.unflushed + 1 := by
  unfold Handle.incInserted
  dsimp only
  split
  · simp only [Handle.startFlush, Handle.unflushed, hr]; omega
  · simp only [Handle.unflushed, hr]; omega

theorem unflushed_incDeleted (h : Handle) (hr : h.st = .ready) :
    h.incDeleted.unflushed = h.unflushed - 1 := by
  unfold Handle.incDeleted
  dsimp only
  split
  · simp only [Handle.startFlush, Handle.unflushed, hr]; omega
  · simp only [Handle.unflushed, hr]; omega

theorem unflushed_clear (h : Handle) : h.clear.unflushed = 0 := by
  unfold Handle.clear Handle.unflushed
  cases h.dying <;> simp

theorem step_total {s s' : St} {e : Ev} (hs : Step s e s') :
    total s' = total s + net [e] := by
  cases hs with
  | create => simp [total, pending, isum_append, isum, net, Handle.unflushed]
  | insertOk i h hi hr =>
    simp only [total, pending, isum_set _ hi, net, unflushed_incInserted h hr]; omega
  | eraseOk i h hi hr =>
    simp only [total, pending, isum_set _ hi, net, unflushed_incDeleted h hr]; omega
  | flush i h hi hr =>
    simp only [total, pending, isum_set _ hi, net, unflushed_startFlush h hr]; omega
  | destroy i h hi hr =>
    have : Handle.unflushed { h.startFlush with dying := true } = h.unflushed := by
      rw [← unflushed_startFlush h hr]; rfl
    simp only [total, pending, isum_set _ hi, net, this]; omega
  | addDummies i h hi hr =>
    simp only [total, pending, isum_set _ hi, net, Handle.unflushed, hr]; omega
  | addElements i h cap hi hr =>
    have : Handle.unflushed { h with
        st := if triggers cap s.elements h.c.inserted then .grow else .clear } = 0 := by
      cases triggers cap s.elements h.c.inserted <;> rfl
    simp only [total, pending, isum_set _ hi, net, this]
    simp only [Handle.unflushed, hr]; omega
  | grown i h hi hr =>
    simp only [total, pending, isum_set _ hi, net, Handle.unflushed, hr]; omega
  | clear i h hi hr =>
    simp only [total, pending, isum_set _ hi, net, unflushed_clear]
    simp only [Handle.unflushed, hr]; omega
  | moveCtor i h hi hr =>
    simp only [total, pending, List.map_append, isum_append, isum_set _ hi, net,
      Handle.unflushed, hr, moveCounts, List.map_cons, List.map_nil, isum]; omega
  | moveAssign i j h g hi hj hr hg hij =>
    have hj' : (s.hs.set i { h with c := (moveCounts h.c).2 })[j]? = some g := by
      rw [List.getElem?_set_ne hij]; exact hj
    have h1 := isum_set Handle.unflushed hj' { c := (moveCounts h.c).1 }
    have h2 := isum_set Handle.unflushed hi { h with c := (moveCounts h.c).2 }
    simp only [total, pending, net, h1, h2]
    simp only [Handle.unflushed, hr, hg, moveCounts]; omega
  | exchange => simp only [total, pending, isum, net]; omega
  | subExchanged x hx =>
    simp only [total, pending, isum_erase hx, net]; omega
  | load => simp only [total, pending, net]; omega
  | subElements x hx => simp only [total, pending, isum, net]; omega
  | subDummies x hx => simp only [total, pending, isum_erase hx, net]; omega

theorem net_cons (e : Ev) (tr : List Ev) : net (e :: tr) = net tr + net [e] := by
  cases e <;> simp [net] <;> omega

theorem exec_total {s s' : St} {tr : List Ev} (h : Exec s tr s') :
    total s' = total s + net tr := by
  induction h with
  | refl => simp [net]
  | @snoc _ _ tr e _ hs ih =>
    have := net_cons e tr
    rw [step_total hs, ih]; omega

/-- Facts about handles that hold at every moment: a handle that is gone and a handle
that counts negative does not exist. (proof, no code) -/
structure HInv (h : Handle) : Prop where
  gone : h.st = .gone → h.c = {}
  insNonneg : 0 ≤ h.c.inserted
  delNonneg : 0 ≤ h.c.deleted
  updates : h.st = .ready → h.c.updates ≤ 64
  bound : h.st = .ready → h.c.inserted + h.c.deleted = h.c.updates
  bound' : h.c.inserted + h.c.deleted ≤ 65

theorem HInv.fresh : HInv {} :=
  ⟨by decide, by decide, by decide, by decide, by decide, by decide⟩

theorem HInv.zero {h : Handle} (hc : h.c = {}) : HInv h := by
  refine ⟨fun _ => hc, ?_, ?_, ?_, ?_, ?_⟩ <;> simp [hc]

theorem HInv.startFlush {h : Handle} (hh : HInv h) (d : Bool) :
    HInv { h.startFlush with dying := d } :=
  ⟨fun x => by simp [Handle.startFlush] at x, hh.insNonneg, hh.delNonneg,
    fun x => by simp [Handle.startFlush] at x, fun x => by simp [Handle.startFlush] at x,
    hh.bound'⟩

theorem HInv.incInserted {h : Handle} (hh : HInv h) (hr : h.st = .ready) :
    HInv h.incInserted := by
  have h1 := hh.updates hr; have h2 := hh.bound hr
  have h3 := hh.insNonneg; have h4 := hh.delNonneg
  unfold Handle.incInserted
  dsimp only
  split
  · refine ⟨?_, ?_, ?_, ?_, ?_, ?_⟩ <;> simp [Handle.startFlush] <;> omega
  · refine ⟨?_, ?_, ?_, ?_, ?_, ?_⟩ <;> simp [hr] <;> omega

theorem HInv.incDeleted {h : Handle} (hh : HInv h) (hr : h.st = .ready) :
    HInv h.incDeleted := by
  have h1 := hh.updates hr; have h2 := hh.bound hr
  have h3 := hh.insNonneg; have h4 := hh.delNonneg
  unfold Handle.incDeleted
  dsimp only
  split
  · refine ⟨?_, ?_, ?_, ?_, ?_, ?_⟩ <;> simp [Handle.startFlush] <;> omega
  · refine ⟨?_, ?_, ?_, ?_, ?_, ?_⟩ <;> simp [hr] <;> omega

theorem HInv.stage {h : Handle} (hh : HInv h) {st : Stage} (h1 : st ≠ .gone)
    (h2 : st ≠ .ready) : HInv { h with st := st } :=
  ⟨fun x => absurd x h1, hh.insNonneg, hh.delNonneg, fun x => absurd x h2,
    fun x => absurd x h2, hh.bound'⟩

theorem forall_set {l : List Handle} {i : Nat} {h' : Handle} {P : Handle → Prop}
    (hl : ∀ h ∈ l, P h) (hp : P h') : ∀ h ∈ l.set i h', P h := by
  intro h hm
  rcases List.mem_or_eq_of_mem_set hm with h1 | h1
  · exact hl h h1
  · exact h1 ▸ hp

theorem step_hinv {s s' : St} {e : Ev} (hs : Step s e s') (hI : ∀ h ∈ s.hs, HInv h) :
    ∀ h ∈ s'.hs, HInv h := by
  have get : ∀ {i h}, s.hs[i]? = some h → HInv h := fun hi =>
    hI _ (List.mem_of_getElem? hi)
  cases hs with
  | create =>
    intro h hm
    simp at hm
    rcases hm with hm | hm
    · exact hI h hm
    · exact hm ▸ HInv.fresh
  | insertOk i h hi hr => exact forall_set hI ((get hi).incInserted hr)
  | eraseOk i h hi hr => exact forall_set hI ((get hi).incDeleted hr)
  | flush i h hi hr => exact forall_set hI ((get hi).startFlush h.dying)
  | destroy i h hi hr => exact forall_set hI ((get hi).startFlush true)
  | addDummies i h hi hr => exact forall_set hI ((get hi).stage (by decide) (by decide))
  | addElements i h cap hi hr =>
    refine forall_set hI ((get hi).stage ?_ ?_) <;> split <;> decide
  | grown i h hi hr => exact forall_set hI ((get hi).stage (by decide) (by decide))
  | clear i h hi hr => exact forall_set hI (HInv.zero rfl)
  | moveCtor i h hi hr =>
    intro g hm
    rw [List.mem_append] at hm
    rcases hm with hm | hm
    · exact forall_set hI (h' := { h with c := (moveCounts h.c).2 }) (HInv.zero rfl) g hm
    · simp at hm
      have := get hi
      subst hm
      exact ⟨by simp, this.insNonneg, this.delNonneg, fun _ => this.updates hr,
        fun _ => this.bound hr, this.bound'⟩
  | moveAssign i j h g hi hj hr hg hij =>
    have := get hi
    refine forall_set (forall_set hI (HInv.zero rfl)) ?_
    exact ⟨by simp, this.insNonneg, this.delNonneg, fun _ => this.updates hr,
      fun _ => this.bound hr, this.bound'⟩
  | exchange => exact hI
  | subExchanged x hx => exact hI
  | load => exact hI
  | subElements x hx => exact hI
  | subDummies x hx => exact hI

theorem exec_hinv {s s' : St} {tr : List Ev} (h : Exec s tr s')
    (hI : ∀ h ∈ s.hs, HInv h) : ∀ h ∈ s'.hs, HInv h := by
  induction h with
  | refl => exact hI
  | snoc _ hs ih => exact step_hinv hs ih

theorem Exec.trans {s s' s'' : St} {tr tr' : List Ev} (h : Exec s tr s')
    (h' : Exec s' tr' s'') : Exec s (tr' ++ tr) s'' := by
  induction h' with
  | refl => exact h
  | snoc _ hs ih => exact .snoc ih hs

end Growt.Cnt
