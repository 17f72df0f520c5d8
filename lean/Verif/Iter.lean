import Verif.Conc
import Verif.SeqTrace

/-!
# Iterators and ranges of `base_linear`
-/

set_option linter.unusedSectionVars false

namespace Growt
section
variable {K V : Type} [DecidableEq K] [DecidableEq V] [Inhabited V]

/-- `base_linear_iterator`, `data-structures/base_linear_iterator.hpp:143-298`: copied slot, position
(`none` = `nullptr`) and end position, as slot indices. -/
structure BIt (K V : Type) where
  copy : Cell K V
  ptr : Option Nat
  eptr : Nat

/-- The slots at which iteration stops: `!(is_empty() || is_deleted())`,
`base_linear_iterator.hpp:238`, `base_linear.hpp:487, 529`. -/
def presents (x : Cell K V) : Bool := !(x.isEmpty || x.isDeleted)

/-- The loop `while (_ptr < _eptr)` of `operator++` (`base_linear_iterator.hpp:235-240`), also the
`for` loops of `begin` (`base_linear.hpp:484-489`) and `range` (`:526-531`): load slot after slot
until one is presented.  `n` bounds the number of iterations, callers give `e - p`. -/
def advance (t : Tbl K V) (e : Nat) : Nat → Nat → Cell K V → Cell K V × Nat
  | 0, p, c => (c, p)
  | n + 1, p, c =>
    if p < e then
      if presents (t p) then (t p, p) else advance t e n (p + 1) (t p)
    else (c, p)

/-- `operator++`, `base_linear_iterator.hpp:232-243`; `none`: arithmetic on the null pointer of an
`end()` iterator (undefined behaviour). -/
def BIt.next (t : Tbl K V) (it : BIt K V) : Option (BIt K V) :=
  match it.ptr with
  | none => none
  | some p =>
    let r := advance t it.eptr (it.eptr - (p + 1)) (p + 1) it.copy
    some ⟨r.1, if r.2 = it.eptr then none else some r.2, it.eptr⟩

/-- `end()` and `range_end()`, `base_linear.hpp:494-497, 367`. -/
def BIt.endIt : BIt K V := ⟨Cell.emptyCell, none, 0⟩

/-- `range(rstart, rend)`, `base_linear.hpp:522-534`. -/
def BIt.range (E : Env K) (t : Tbl K V) (rs re : Nat) : BIt K V :=
  let e := min re E.M.total
  let r := advance t e (e - rs) rs Cell.emptyCell
  if r.2 < e then ⟨r.1, some r.2, e⟩ else BIt.endIt

/-- `begin()`, `base_linear.hpp:482-491`, with `make_iterator` (311-314). -/
def BIt.begin (E : Env K) (t : Tbl K V) : BIt K V :=
  let r := advance t E.M.total E.M.total 0 Cell.emptyCell
  if r.2 < E.M.total then ⟨r.1, some r.2, E.M.total⟩ else BIt.endIt

/-- The user's loop `for (; it != end(); ++it)`: positions and copies seen.  `none`: undefined
behaviour or more than `fuel` rounds. (`base_linear_iterator.hpp:232-243`) -/
def BIt.walk (t : Tbl K V) : Nat → BIt K V → Option (List (Nat × Cell K V))
  | 0, _ => none
  | fuel + 1, it =>
    match it.ptr with
    | none => some []
    | some p =>
      match it.next t with
      | none => none
      | some it' => (BIt.walk t fuel it').map ((p, it.copy) :: ·)

/-- `operator value_type` of a copied slot (`element_types/simple_slot.hpp:252`): the pair shown; a
tombstone or empty copy shows no element. -/
def shownPair (x : Cell K V) : Option (K × V) :=
  match x.c with | .live k v => some (k, v) | _ => none

/-- The presented slots among `n` slots from `a` on, in order. (specification, no code) -/
def vis (t : Tbl K V) (a n : Nat) : List (Nat × Cell K V) :=
  ((List.range' a n).filter fun p => presents (t p)).map fun p => (p, t p)

theorem vis_zero (t : Tbl K V) (a : Nat) : vis t a 0 = [] := rfl

theorem vis_cons (t : Tbl K V) (a n : Nat) :
    vis t a (n + 1) = (if presents (t a) then [(a, t a)] else []) ++ vis t (a + 1) n := by
  unfold vis
  rw [List.range'_succ, List.filter_cons]
  split <;> simp

theorem vis_append (t : Tbl K V) (a m n : Nat) : vis t a m ++ vis t (a + m) n = vis t a (m + n) := by
  unfold vis
  rw [← List.map_append, ← List.filter_append, List.range'_append_1]

theorem mem_vis {t : Tbl K V} {a n : Nat} {x : Nat × Cell K V} :
    x ∈ vis t a n ↔ a ≤ x.1 ∧ x.1 < a + n ∧ presents (t x.1) = true ∧ x.2 = t x.1 := by
  unfold vis
  simp only [List.mem_map, List.mem_filter, List.mem_range'_1]
  constructor
  · rintro ⟨p, ⟨⟨h1, h2⟩, h3⟩, rfl⟩; exact ⟨h1, h2, h3, rfl⟩
  · rintro ⟨h1, h2, h3, h4⟩; exact ⟨x.1, ⟨⟨h1, h2⟩, h3⟩, by rw [← h4]⟩

theorem vis_pos_nodup (t : Tbl K V) (a n : Nat) : ((vis t a n).map Prod.fst).Nodup := by
  unfold vis
  rw [List.map_map]
  have : (Prod.fst ∘ fun p => (p, t p)) = (id : Nat → Nat) := rfl
  rw [this, List.map_id]
  exact (List.nodup_range' (step := 1)).filter _

theorem advance_spec (t : Tbl K V) (e : Nat) : ∀ n p c, p + n = e →
    ((advance t e n p c).2 = e ∧ vis t p n = []) ∨
    ∃ q, (advance t e n p c).2 = q ∧ p ≤ q ∧ q < e ∧ (advance t e n p c).1 = t q ∧
      vis t p n = (q, t q) :: vis t (q + 1) (e - (q + 1)) := by
  intro n
  induction n with
  | zero => intro p c h; exact .inl ⟨by simpa [advance] using h, rfl⟩
  | succ n ih =>
    intro p c h
    have hlt : p < e := by omega
    rw [vis_cons]
    simp only [advance, hlt, if_true]
    cases hp : presents (t p) with
    | true =>
      right
      refine ⟨p, rfl, Nat.le_refl _, hlt, rfl, ?_⟩
      have : e - (p + 1) = n := by omega
      simp [this]
    | false =>
      simp only [Bool.false_eq_true, if_false, List.nil_append]
      rcases ih (p + 1) (t p) (by omega) with h' | ⟨q, h1, h2, h3, h4, h5⟩
      · exact .inl h'
      · exact .inr ⟨q, h1, by omega, h3, h4, h5⟩

/-- Walking from an iterator that stands on a slot. -/
theorem walk_spec (t : Tbl K V) (e : Nat) : ∀ fuel p c, p < e → e - p < fuel →
    BIt.walk t fuel ⟨c, some p, e⟩ = some ((p, c) :: vis t (p + 1) (e - (p + 1))) := by
  intro fuel
  induction fuel with
  | zero => intro p c h h'; omega
  | succ fuel ih =>
    intro p c hp hf
    simp only [BIt.walk, BIt.next]
    rcases advance_spec t e (e - (p + 1)) (p + 1) c (by omega) with ⟨h1, h2⟩ | ⟨q, h1, h2, h3, h4, h5⟩
    · rw [h1, h2]
      cases fuel with
      | zero => omega
      | succ n => simp [BIt.walk]
    · rw [h1, h4, h5]
      have hne : q ≠ e := by omega
      simp only [hne, if_false]
      rw [ih q (t q) h3 (by omega)]
      rfl

theorem range_spec (E : Env K) (t : Tbl K V) (rs re : Nat) (fuel : Nat) (hf : E.M.total < fuel) :
    BIt.walk t fuel (BIt.range E t rs re) = some (vis t rs (min re E.M.total - rs)) := by
  obtain ⟨f, rfl⟩ : ∃ f, fuel = f + 1 := ⟨fuel - 1, by omega⟩
  unfold BIt.range
  simp only
  by_cases hle : rs ≤ min re E.M.total
  · rcases advance_spec t (min re E.M.total) (min re E.M.total - rs) rs Cell.emptyCell (by omega)
      with ⟨h1, h2⟩ | ⟨q, h1, h2, h3, h4, h5⟩
    · rw [h1, h2]; simp [BIt.endIt, BIt.walk]
    · rw [h1, h4, h5]
      simp only [h3, if_true]
      exact walk_spec t _ _ q (t q) h3 (by omega)
  · have : min re E.M.total - rs = 0 := by omega
    rw [this]
    have h' : ¬ rs < min re E.M.total := by omega
    simp [advance, h', BIt.endIt, BIt.walk, vis_zero]

theorem begin_spec (E : Env K) (t : Tbl K V) (fuel : Nat) (hf : E.M.total < fuel) :
    BIt.walk t fuel (BIt.begin E t) = some (vis t 0 E.M.total) := by
  obtain ⟨f, rfl⟩ : ∃ f, fuel = f + 1 := ⟨fuel - 1, by omega⟩
  unfold BIt.begin
  simp only
  rcases advance_spec t E.M.total E.M.total 0 Cell.emptyCell (by omega)
    with ⟨h1, h2⟩ | ⟨q, h1, h2, h3, h4, h5⟩
  · rw [h1, h2]; simp [BIt.endIt, BIt.walk]
  · rw [h1, h4, h5]
    simp only [h3, if_true]
    exact walk_spec t _ _ q (t q) h3 (by omega)

theorem presents_nomarks {t : Tbl K V} (hn : NoMarks t) {p : Nat} :
    presents (t p) = true ↔ ∃ k v, (t p).c = .live k v := by
  have := hn p
  unfold presents Cell.isEmpty Cell.isDeleted
  cases h : (t p).c <;> simp [this]

end
end Growt
