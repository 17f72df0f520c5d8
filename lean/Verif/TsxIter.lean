import Verif.Iter
import Verif.Tsx

/-!
# Iterators of the transactional table

`data-structures/tsx_iterator.hpp` (`operator++`, `operator*`, `refresh`) and `begin`/`end` of
`tsx_circular.hpp`, while nobody else works on the table.
-/

set_option linter.unusedSectionVars false

namespace Growt.Tsx
section
variable {K V : Type} [DecidableEq K] [DecidableEq V] [Inhabited V]

/-- `IteratorTSX` (`tsx_iterator.hpp:136-235`): the copied pair (`none` stands for the default pair of
`end()`), position (`none` = null pointer) and end. -/
structure TIt (K V : Type) where
  copy : Option (K × V)
  ptr : Option Nat
  eptr : Nat

/-- The loop `while (ptr < eptr && (ptr->isEmpty() || ptr->isDeleted())) ++ptr`
(`tsx_iterator.hpp:191`), also the `for` loop of `begin` (`tsx_circular.hpp:326-331`); `n` bounds the
number of iterations, callers give `e - p`. -/
def seek (t : Tbl K V) (e : Nat) : Nat → Nat → Nat
  | 0, p => p
  | n + 1, p => if p < e then if presents (t p) then p else seek t e n (p + 1) else p

/-- `operator++` (`tsx_iterator.hpp:188-198`); `none`: arithmetic on the null pointer.  The copied pair
stays as it is, unless the end is reached. -/
def TIt.next (t : Tbl K V) (it : TIt K V) : Option (TIt K V) :=
  match it.ptr with
  | none => none
  | some p =>
    let q := seek t it.eptr (it.eptr - (p + 1)) (p + 1)
    some (if q = it.eptr then ⟨none, none, it.eptr⟩ else ⟨it.copy, some q, it.eptr⟩)

/-- `begin()` (`tsx_circular.hpp:324-333`) with `makeIterator` (197-201), and `end()` (337-341). -/
def TIt.begin (Q : Tab K) (t : Tbl K V) : TIt K V :=
  let q := seek t (2 ^ Q.k) (2 ^ Q.k) 0
  if q < 2 ^ Q.k then ⟨shownPair (t q), some q, 2 ^ Q.k⟩ else ⟨none, none, 0⟩

/-- `refresh()` (`tsx_iterator.hpp:213`). -/
def TIt.refresh (t : Tbl K V) (it : TIt K V) : TIt K V :=
  match it.ptr with
  | none => it
  | some p => { it with copy := shownPair (t p) }

/-- The loop `for (auto it = begin(); it != end(); ++it)` (`tsx_iterator.hpp:188-211`): positions and
pairs shown by `*it`.  With `r` the program calls `refresh()` after each `++it`.  `none`: undefined
behaviour or more than `fuel` rounds. -/
def TIt.walk (t : Tbl K V) (r : Bool) : Nat → TIt K V → Option (List (Nat × Option (K × V)))
  | 0, _ => none
  | fuel + 1, it =>
    match it.ptr with
    | none => some []
    | some p =>
      match it.next t with
      | none => none
      | some it' => (TIt.walk t r fuel (if r then it'.refresh t else it')).map ((p, it.copy) :: ·)

/-- The search stops at the first presented slot, or at the end. -/
theorem seek_spec (t : Tbl K V) (e : Nat) : ∀ n p, p + n = e →
    (seek t e n p = e ∧ vis t p n = []) ∨
    (seek t e n p < e ∧ presents (t (seek t e n p)) = true ∧
      vis t p n = (seek t e n p, t (seek t e n p)) :: vis t (seek t e n p + 1) (e - (seek t e n p + 1)))
  | 0, p, h => Or.inl ⟨by simpa [seek] using h, vis_zero t p⟩
  | n + 1, p, h => by
    have hp : p < e := by omega
    by_cases hv : presents (t p) = true
    · refine Or.inr ?_
      have : seek t e (n + 1) p = p := by simp [seek, hp, hv]
      rw [this]
      refine ⟨hp, hv, ?_⟩
      rw [vis_cons, if_pos hv, show e - (p + 1) = n by omega]
      rfl
    · have : seek t e (n + 1) p = seek t e n (p + 1) := by simp [seek, hp, hv]
      rw [this, vis_cons, if_neg hv, List.nil_append]
      exact seek_spec t e n (p + 1) (by omega)

/-- The loop from a presented slot on. -/
theorem walk_from (t : Tbl K V) (r : Bool) (e : Nat) : ∀ n p c fuel, p + 1 + n = e → n + 1 < fuel →
    TIt.walk t r fuel ⟨c, some p, e⟩ =
      some ((p, c) :: (vis t (p + 1) n).map fun x => (x.1, if r then shownPair x.2 else c)) := by
  intro n
  induction n using Nat.strongRecOn with
  | _ n ih =>
    intro p c fuel hn hf
    obtain ⟨fuel, rfl⟩ : ∃ f, fuel = f + 1 := ⟨fuel - 1, by omega⟩
    have he : e - (p + 1) = n := by omega
    rcases seek_spec t e n (p + 1) hn with ⟨h1, h2⟩ | ⟨h1, h2, h3⟩
    · obtain ⟨fuel, rfl⟩ : ∃ f, fuel = f + 1 := ⟨fuel - 1, by omega⟩
      rw [h2]
      cases r <;> simp [TIt.walk, TIt.next, he, h1, TIt.refresh]
    · have hle : p + 1 ≤ seek t e n (p + 1) := by
        cases hh : decide (p + 1 ≤ seek t e n (p + 1)) with
        | true => exact of_decide_eq_true hh
        | false =>
          have hm : (seek t e n (p + 1), t (seek t e n (p + 1))) ∈ vis t (p + 1) n := by
            rw [h3]; exact List.mem_cons_self ..
          unfold vis at hm
          obtain ⟨q, hq, e1⟩ := List.mem_map.mp hm
          have := (List.mem_range'_1.mp (List.mem_filter.mp hq).1).1
          have e2 : q = seek t e n (p + 1) := congrArg Prod.fst e1
          omega
      generalize hq : seek t e n (p + 1) = q at *
      have hrec := ih (e - (q + 1)) (by omega) q (if r then shownPair (t q) else c) fuel (by omega) (by omega)
      rw [h3]
      have hne : q ≠ e := by omega
      cases r
      · simp only [Bool.false_eq_true, if_false] at hrec ⊢
        simp [TIt.walk, TIt.next, he, hq, hne, hrec]
      · simp only [if_true] at hrec ⊢
        simp [TIt.walk, TIt.next, he, hq, hne, TIt.refresh, hrec]

/-- The whole loop: the positions are those of the presented slots; the pairs are those of the slots only
if the program refreshes. -/
theorem walk_spec (Q : Tab K) (t : Tbl K V) (r : Bool) :
    TIt.walk t r (2 ^ Q.k + 2) (TIt.begin Q t) =
      some (match vis t 0 (2 ^ Q.k) with
        | [] => []
        | x :: l => (x.1, shownPair x.2) :: l.map fun y => (y.1, if r then shownPair y.2 else shownPair x.2)) := by
  rcases seek_spec t (2 ^ Q.k) (2 ^ Q.k) 0 (by omega) with ⟨h1, h2⟩ | ⟨h1, h2, h3⟩
  · rw [h2]
    simp [TIt.begin, h1, TIt.walk]
  · generalize hq : seek t (2 ^ Q.k) (2 ^ Q.k) 0 = q at *
    rw [h3]
    have := walk_from t r (2 ^ Q.k) (2 ^ Q.k - (q + 1)) q (shownPair (t q)) (2 ^ Q.k + 2) (by omega) (by omega)
    simp only [TIt.begin, hq, if_pos h1]
    exact this

end
end Growt.Tsx
