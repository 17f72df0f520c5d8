import Verif.TsxIter
import Verif.Props.Iter
import Verif.Props.Tsx

/-!
# C65: iteration over the transactional table
-/

set_option linter.unusedSectionVars false

namespace Growt.Tsx
section
variable {T K V : Type} [DecidableEq T] [DecidableEq K] [DecidableEq V] [Inhabited V]

/-- **C65, positions.**  The loop from `begin()` to `end()` ends for every table and stops exactly at the
slots with an element, in order. -/
theorem C65_positions (Q : Tab K) (t : Tbl K V) (r : Bool) :
    ∃ l, TIt.walk t r (2 ^ Q.k + 2) (TIt.begin Q t) = some l ∧
      l.map Prod.fst = (List.range (2 ^ Q.k)).filter fun p => !((t p).isEmpty || (t p).isDeleted) := by
  refine ⟨_, walk_spec Q t r, ?_⟩
  have : ((List.range (2 ^ Q.k)).filter fun p => !((t p).isEmpty || (t p).isDeleted)) =
      (vis t 0 (2 ^ Q.k)).map Prod.fst := by
    unfold vis presents
    rw [List.map_map, ← List.range_eq_range']
    exact (List.map_id _).symm
  rw [this]
  cases vis t 0 (2 ^ Q.k) with
  | nil => rfl
  | cons x l => simp [List.map_map, Function.comp_def]

/-- **C65** (partial).  After any concurrent execution without migration, the loop of a program that calls
`refresh()` after every `++it` shows exactly the elements of the ideal map, each once.

Missing: the loop without `refresh()`, see `C65_shows_the_first_element_only`; `erase` of the iterator
(`tsx_iterator.hpp:215-229`) does not compile when used. -/
theorem C65_refreshed_iteration_partial {Q : Tab K} (hQ : Q.OK) {l : List (TEv T K V)} {s : St T K V}
    (h : Exec (Step Q) St.init l s) :
    ∃ d, Legal idealObj (fun _ => none) (effects l) d ∧
      ∃ seen, TIt.walk s.tbl true (2 ^ Q.k + 2) (TIt.begin Q s.tbl) = some seen ∧
        ∃ es : List (K × V), seen.map Prod.snd = es.map some ∧ (es.map Prod.fst).Nodup ∧
          ∀ k v, (k, v) ∈ es ↔ d k = some v := by
  obtain ⟨d, hl, hd⟩ := C61_contents hQ h
  have I := SInv.reach hQ h
  obtain ⟨es, h1, h2⟩ := vis_elements I.nomarks 0 (2 ^ Q.k)
  refine ⟨d, hl, _, walk_spec Q s.tbl true, es, ?_, ?_, fun k v => ?_⟩
  · rw [← h1]
    unfold pairs
    cases vis s.tbl 0 (2 ^ Q.k) with
    | nil => rfl
    | cons x l => simp [List.map_map, Function.comp_def]
  · exact vis_keys_nodup I.inv I.nomarks _ _ (by rw [Q.total_eq]; omega) es h1
  · rw [h2, hd]
    constructor
    · rintro ⟨p, -, h, h'⟩; exact ⟨p, by omega, h'⟩
    · rintro ⟨p, h, h'⟩; exact ⟨p, by omega, by omega, h'⟩

/-- **C65**, negative: whatever the table contains, the loop without `refresh()` shows the pair of the first
element at every position. -/
theorem C65_shows_the_first_element_only (Q : Tab K) (t : Tbl K V) :
    ∃ l c, TIt.walk t false (2 ^ Q.k + 2) (TIt.begin Q t) = some l ∧ ∀ x ∈ l, x.2 = c := by
  refine ⟨_, match vis t 0 (2 ^ Q.k) with | [] => none | x :: _ => shownPair x.2, walk_spec Q t false, ?_⟩
  cases vis t 0 (2 ^ Q.k) with
  | nil => intro x hx; cases hx
  | cons y l =>
    intro x hx
    cases List.mem_cons.mp hx with
    | inl h => rw [h]
    | inr h =>
      obtain ⟨z, _, rfl⟩ := List.mem_map.mp h
      rfl

/-- Two insertions by one thread. -/
theorem two_inserted : ∃ l, ∃ s : St Unit Nat Nat, Exec (Step exQ) St.init l s ∧
    effects l = [(.insert 7 70, ⟨some .TSX_SUCCESS_IN, some (0, 7, 70)⟩),
      (.insert 8 80, ⟨some .TSX_SUCCESS_IN, some (1, 8, 80)⟩)] ∧
    s.tbl = Tbl.set (Tbl.set emptyTbl 0 (Cell.liveCell 7 70)) 1 (Cell.liveCell 8 80) ∧ s.thr () = .idle := by
  have hc : computeRightShift (2 ^ 12) = 52 := by decide +kernel
  have h7 : exQ.home 7 = 0 := by simp only [Tab.home, exQ, hc]; decide
  have h8 : exQ.home 8 = 0 := by simp only [Tab.home, exQ, hc]; decide
  have p0 : exQ.pos 0 = 0 := by simp [Tab.pos]
  have p1 : exQ.pos 1 = 1 := by simp [Tab.pos, exQ]
  let o1 : Call Nat Nat := .insert 7 70
  let o2 : Call Nat Nat := .insert 8 80
  let r1 : Ret Nat Nat := ⟨some .TSX_SUCCESS_IN, some (0, 7, 70)⟩
  let r2 : Ret Nat Nat := ⟨some .TSX_SUCCESS_IN, some (1, 8, 80)⟩
  let t0 : Tbl Nat Nat := emptyTbl
  let t1 : Tbl Nat Nat := t0.set 0 (Cell.liveCell 7 70)
  let t2 : Tbl Nat Nat := t1.set 1 (Cell.liveCell 8 80)
  have e1 : Exec (Step exQ) (St.init : St Unit Nat Nat) ([] ++ [.call () o1])
      ⟨t0, setAt (fun _ => .idle) () (.busy o1 .begin)⟩ := .vis .init (.call rfl)
  have e2 := e1.vis (Step.commit (i := ()) (op := o1) (n := 1) (t' := t1) (r := r1) (by simp [setAt])
    (by simp [body, o1, Call.key, h7, p0, t0, emptyTbl, Cell.emptyCell, Cell.hasKey, Cell.isEmpty, t1, r1]))
  have e3 := e2.vis (Step.ret (i := ()) (op := o1) (r := r1) (by simp [setAt]))
  have e4 := e3.vis (Step.call (i := ()) (op := o2) (by simp [setAt]))
  have e5 := e4.vis (Step.commit (i := ()) (op := o2) (n := 2) (t' := t2) (r := r2)
    (by simp [setAt, start, o2, Call.transactional])
    (by simp [body, o2, Call.key, h8, p0, p1, t0, t1, t2, r2, Tbl.set, emptyTbl, Cell.liveCell, Cell.emptyCell,
      Cell.hasKey, Cell.isEmpty]))
  have e6 := e5.vis (Step.ret (i := ()) (op := o2) (r := r2) (by simp [setAt]))
  exact ⟨_, _, e6, rfl, rfl, by simp [setAt]⟩

/-- **C65**, negative: after two insertions by the only thread, the loop shows the first element twice and
the second one never. -/
theorem C65_second_element_never_shown : ∃ l, ∃ s : St Unit Nat Nat, Exec (Step exQ) St.init l s ∧
    effects l = [(.insert 7 70, ⟨some .TSX_SUCCESS_IN, some (0, 7, 70)⟩),
      (.insert 8 80, ⟨some .TSX_SUCCESS_IN, some (1, 8, 80)⟩)] ∧
    ∃ seen, TIt.walk s.tbl false (2 ^ exQ.k + 2) (TIt.begin exQ s.tbl) = some seen ∧
      seen = [(0, some (7, 70)), (1, some (7, 70))] := by
  obtain ⟨l, s, h, he, ht, _⟩ := two_inserted
  refine ⟨l, s, h, he, _, walk_spec exQ s.tbl false, ?_⟩
  have hv : vis s.tbl 0 (2 ^ exQ.k) = [(0, Cell.liveCell 7 70), (1, Cell.liveCell 8 80)] := by
    rw [ht, show 2 ^ exQ.k = (4094 + 1) + 1 from rfl, vis_cons, vis_cons]
    have : vis (Tbl.set (Tbl.set emptyTbl 0 (Cell.liveCell 7 70)) 1 (Cell.liveCell 8 80)) 2 4094 = [] := by
      unfold vis
      rw [List.filter_eq_nil_iff.mpr, List.map_nil]
      intro p hp
      have := (List.mem_range'_1.mp hp).1
      have h1 : p ≠ 1 := by omega
      have h0 : p ≠ 0 := by omega
      simp [presents, Tbl.set, h1, h0, emptyTbl, Cell.emptyCell, Cell.isEmpty]
    rw [this]
    simp [presents, Tbl.set, Cell.liveCell, Cell.isEmpty, Cell.isDeleted]
  rw [hv]
  rfl

/-- Not vacuous: `C65_refreshed_iteration_partial` applies to the execution with two elements. -/
theorem C65_not_vacuous : ∃ l, ∃ s : St Unit Nat Nat, Exec (Step exQ) St.init l s ∧ exQ.OK ∧
    ∃ d, Legal idealObj (fun _ => none) (effects l) d ∧ d 7 = some 70 ∧ d 8 = some 80 := by
  obtain ⟨l, s, h, _, ht, _⟩ := two_inserted
  obtain ⟨d, hl, hd⟩ := C61_contents exQ_ok h
  refine ⟨l, s, h, exQ_ok, d, hl, (hd 7 70).mpr ⟨0, by decide, ?_⟩, (hd 8 80).mpr ⟨1, by decide, ?_⟩⟩
  · rw [ht]; rfl
  · rw [ht]; rfl

end
end Growt.Tsx
