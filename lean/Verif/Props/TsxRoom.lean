import Verif.Props.TsxProgress
import Verif.Props.Geometry

/-!
# C87: the size of the table with transactions suffices for the elements it was made for
-/

set_option linter.unusedSectionVars false

namespace Growt.Tsx.Progress
section
variable {T K V : Type} [DecidableEq T] [DecidableEq K] [DecidableEq V] [Inhabited V]

/-- `compute_size` (`tsx_circular.hpp:238-243`): `auto temp = 4096u` has 32 bits, the loop is the one of
`base_linear.hpp:60-61`; `MiSt / 100.` is 2 (`tsx_circular.hpp:35`).  The product is a `double`: it is exact below
`2^53`, and above it is larger than every `temp` anyway.  `none`: the loop has not ended within `fuel` rounds. -/
def computeSize (fuel desired : Nat) : Option Nat := capLoop (2 * desired) fuel 4096

/-- A step is an insertion that reports success. (specification, no code) -/
def isIn : Option (TEv T K V) → Bool
  | some (.lin _ (.insert k d) r) => r.ok (.insert k d)
  | some (.lin _ (.insertOrUpdate k d f) r) => r.ok (.insertOrUpdate k d f)
  | _ => false

/-! ## The capacity -/

theorem capLoop_ge {d : Nat} : ∀ {fuel t x : Nat}, capLoop d fuel t = some x → d ≤ x := by
  intro fuel
  induction fuel with
  | zero => intro t x h; cases h
  | succ f ih =>
    intro t x h
    rw [capLoop] at h
    split at h
    · exact ih h
    · cases h; omega

/-- **C87 (partial: requests up to `2^30`).**  The capacity is a power of two, at least 4096, at least twice the
requested number of elements, and less than four times of it (or 4096).
Missing: larger requests, for which the constructor does not return (`C87_diverges`). -/
theorem C87_capacity_partial {n : Nat} (hn : n ≤ 2 ^ 30) :
    ∃ fuel k, computeSize fuel n = some (2 ^ k) ∧ 12 ≤ k ∧ k ≤ 31 ∧ 2 * n ≤ 2 ^ k ∧
      (2 ^ k = 4096 ∨ 2 ^ k < 4 * n) := by
  have hex : ∀ m, 2 * n ≤ 2 ^ (12 + m) → ∃ s, s ≤ m ∧ 2 * n ≤ 2 ^ (12 + s) ∧ ∀ i, i < s → 2 ^ (12 + i) < 2 * n := by
    intro m
    induction m with
    | zero => intro h; exact ⟨0, by omega, h, by omega⟩
    | succ m ih =>
      intro h
      by_cases hm : 2 * n ≤ 2 ^ (12 + m)
      · obtain ⟨s, h1, h2, h3⟩ := ih hm
        exact ⟨s, by omega, h2, h3⟩
      · refine ⟨m + 1, Nat.le_refl _, h, fun i hi => ?_⟩
        have : 2 ^ (12 + i) ≤ 2 ^ (12 + m) := Nat.pow_le_pow_right (by omega) (by omega)
        omega
  obtain ⟨s, hs, hd, hlt⟩ := hex 19 (by
    have : 2 ^ (12 + 19) = 2 * 2 ^ 30 := by decide
    omega)
  refine ⟨s + 1, 12 + s, capLoop_shift s 12 (by omega) hd hlt, by omega, by omega, hd, ?_⟩
  cases s with
  | zero => exact .inl rfl
  | succ s =>
    right
    have := hlt s (by omega)
    have e : 12 + (s + 1) = 12 + s + 1 := by omega
    rw [e, Nat.pow_succ]; omega

/-- **C87 (violated by the code)**: for every request above `2^30` the constructor does not return. -/
theorem C87_diverges {n : Nat} (h : 2 ^ 30 < n) (fuel : Nat) : computeSize fuel n = none := by
  have key : ∀ fuel t, (t = 0 ∨ ∃ j, j ≤ 31 ∧ t = 2 ^ j) → capLoop (2 * n) fuel t = none := by
    intro fuel
    induction fuel with
    | zero => intro t _; rfl
    | succ f ih =>
      intro t ht
      have hlt : t < 2 * n := by
        rcases ht with rfl | ⟨j, hj, rfl⟩
        · omega
        · have : 2 ^ j ≤ 2 ^ 31 := Nat.pow_le_pow_right (by omega) hj
          omega
      rw [capLoop, if_pos hlt]
      apply ih
      rcases ht with rfl | ⟨j, hj, rfl⟩
      · exact .inl rfl
      · by_cases hj' : j = 31
        · subst hj'; exact .inl rfl
        · right
          refine ⟨j + 1, by omega, ?_⟩
          rw [Nat.shiftLeft_eq, ← Nat.pow_succ]
          exact Nat.mod_eq_of_lt (Nat.pow_lt_pow_right (by omega) (by omega))
  exact key fuel 4096 (.inr ⟨12, by omega, rfl⟩)

/-! ## Room -/

/-- The number of slots that are not empty. (proof, no code) -/
def filled (Q : Tab K) (t : Tbl K V) : Nat := (List.range (2 ^ Q.k)).countP fun p => !(t p).isEmpty

theorem countP_one {f g : Nat → Bool} {p : Nat} (h : ∀ q, q ≠ p → f q = g q) : ∀ n,
    (List.range n).countP f ≤ (List.range n).countP g + if p < n then 1 else 0 := by
  intro n
  induction n with
  | zero => simp
  | succ n ih =>
    rw [List.range_succ, List.countP_append, List.countP_append]
    simp only [List.countP_cons, List.countP_nil, Nat.zero_add]
    by_cases hp : n = p
    · subst hp
      simp only [Nat.lt_irrefl, if_false, Nat.add_zero] at ih
      simp only [Nat.lt_succ_self, if_true]
      split <;> split <;> omega
    · rw [h n hp]
      have : (if p < n + 1 then 1 else 0) = if p < n then 1 else 0 := by
        have : p < n + 1 ↔ p < n := by omega
        simp only [this]
      rw [this]; omega

theorem filled_set (Q : Tab K) (t : Tbl K V) (p : Nat) (c : Cell K V) : filled Q (t.set p c) ≤ filled Q t + 1 := by
  have := countP_one (f := fun q => !((t.set p c) q).isEmpty) (g := fun q => !(t q).isEmpty) (p := p)
    (fun q hq => by simp [Tbl.set, hq]) (2 ^ Q.k)
  unfold filled
  split at this <;> omega

theorem filled_keep (Q : Tab K) {t : Tbl K V} {p : Nat} {c : Cell K V} (h : c.c ≠ .empty → (t p).c ≠ .empty) :
    filled Q (t.set p c) ≤ filled Q t := by
  unfold filled
  refine List.countP_mono_left fun q _ hq => ?_
  by_cases e : q = p
  · subst e
    simp only [Tbl.set, if_true, Bool.not_eq_true', Cell.isEmpty] at hq ⊢
    have := h (by intro e; rw [e] at hq; cases hq)
    split
    · rename_i e; exact absurd e this
    · rfl
  · simpa [Tbl.set, e] using hq

theorem room_of_filled {Q : Tab K} {t : Tbl K V} (h : filled Q t < 2 ^ Q.k) : Room Q t := by
  by_cases hr : ∃ p, p < 2 ^ Q.k ∧ (t p).c = .empty
  · exact hr
  · exfalso
    have : filled Q t = (List.range (2 ^ Q.k)).length := by
      unfold filled
      rw [List.countP_eq_length]
      intro p hp
      have hp' : (t p).c ≠ .empty := fun e => hr ⟨p, List.mem_range.1 hp, e⟩
      cases he : (t p).isEmpty with
      | false => rfl
      | true => exact absurd (Cell.isEmpty_iff.1 he) hp'
    rw [List.length_range] at this
    omega

theorem body_fill {Q : Tab K} {op : Call K V} {t t' : Tbl K V} {r : Ret K V} {i : T} (n : Nat) : ∀ j,
    body Q op n j t = some (t', r) →
      filled Q t' ≤ filled Q t + if isIn (some (.lin i op r) : Option (TEv T K V)) then 1 else 0 := by
  induction n with
  | zero => intro j h; simp [body] at h
  | succ n ih =>
    intro j h
    have hv : ∀ k f, filled Q (t.set (Q.pos j) (nonAtomicUpdate k (t (Q.pos j)) f).1) ≤ filled Q t :=
      fun k f => filled_keep Q fun hn he => hn (Growt.Progress.setMapped_empty.2 he)
    have hl : ∀ k d, filled Q (t.set (Q.pos j) (Cell.liveCell k d)) ≤ filled Q t + 1 := fun k d => filled_set _ _ _ _
    cases op <;> simp only [body] at h
    case find => cases h
    case erase => cases h
    all_goals
      split at h
      · cases h; omega
      · split at h
        · cases h
          first
          | omega
          | exact Nat.le_trans (hv _ _) (Nat.le_add_right _ _)
        · split at h
          · cases h
            first
            | exact hl _ _
            | omega
          · exact ih _ h

/-- An erasing call has seen an element. (proof, no code) -/
def Seen (op : Call K V) (pc : PC K V) : Prop :=
  ∀ k j curr, op = .erase k → pc = .act j curr → curr.c ≠ .empty

/-- What a step does to the number of slots in use. (proof, no code) -/
def Fills (Q : Tab K) (op : Call K V) (i : T) (t : Tbl K V) (x : Tbl K V × Out K V) : Prop :=
  match x.2 with
  | .cont pc' => filled Q x.1 ≤ filled Q t ∧ Seen op pc'
  | .done r => filled Q x.1 ≤ filled Q t + if isIn (some (.lin i op r) : Option (TEv T K V)) then 1 else 0

theorem step_fill {Q : Tab K} {op : Call K V} {pc : PC K V} {t : Tbl K V} (hs : Seen op pc) {i : T} :
    Fills Q op i t (step Q op pc t) := by
  cases pc with
  | begin => exact ⟨Nat.le_refl _, fun _ _ _ _ h => by cases h⟩
  | load j =>
    have hc : (step Q op (.load j) t).1 = t := rfl
    unfold Fills
    rw [hc]
    cases ho : (step Q op (.load j) t).2 with
    | done r => exact Nat.le_add_right _ _
    | cont pc' =>
      refine ⟨Nat.le_refl _, ?_⟩
      intro k l curr h1 h2 h3
      subst h1 h2
      simp only [step, afterLoad] at ho
      (repeat' split at ho) <;> cases ho
      rename_i hk
      obtain ⟨v, hv⟩ := Cell.hasKey_iff.1 hk
      rw [hv] at h3
      cases h3
  | act j curr =>
    have hcas : ∀ new r, (isIn (some (.lin i op r) : Option (TEv T K V)) = false → curr.c ≠ .empty) →
        Fills Q op i t (cas t j (Q.pos j) curr new r) := by
      intro new r hn
      unfold cas
      split
      · rename_i e
        show filled Q _ ≤ filled Q t + if isIn (some (.lin i op r) : Option (TEv T K V)) then 1 else 0
        split
        · exact filled_set _ _ _ _
        · rename_i h0
          exact filled_keep Q fun h => by rw [e]; exact hn (by simpa using h0)
      · exact ⟨Nat.le_refl _, fun _ _ _ _ h => by cases h⟩
    have hupd : ∀ (k : K) (f : UpdFn V),
        Fills Q op i t (t.set (Q.pos j) (atomicUpdate true k (t (Q.pos j)) curr f).1,
          if (atomicUpdate true k (t (Q.pos j)) curr f).2.2 = true then
            (.done ⟨some .SUCCESS_UP,
              some (Q.pos j, k, (atomicUpdate true k (t (Q.pos j)) curr f).2.1.mapped)⟩ : Out K V)
          else .cont (.load j)) := by
      intro k f
      have h1 : filled Q (t.set (Q.pos j) (atomicUpdate true k (t (Q.pos j)) curr f).1) ≤ filled Q t := by
        refine filled_keep Q fun hn he => hn ?_
        unfold atomicUpdate
        simp only [if_true]
        split
        · rename_i e
          exact Growt.Progress.setMapped_empty.2 (by rw [← e]; exact he)
        · exact he
      split
      · exact Nat.le_trans h1 (Nat.le_add_right _ _)
      · exact ⟨h1, fun _ _ _ _ h => by cases h⟩
    cases op with
    | find k => exact ⟨Nat.le_refl _, fun _ _ _ _ h => by cases h⟩
    | insert k d => exact hcas _ _ fun h => absurd h (by simp [isIn, Ret.ok, ReturnCode.successful]; rfl)
    | update k f => exact hupd k f
    | insertOrUpdate k d f =>
      simp only [step, change]
      split
      · exact hupd k f
      · exact hcas _ _ fun h => absurd h (by simp [isIn, Ret.ok])
    | erase k => exact hcas _ _ fun _ => hs k j curr rfl rfl

/-- Fewer slots are in use than insertions have reported success. -/
theorem filled_le {Q : Tab K} {tr : List (Move T K V)} {s : St T K V} (h : Trace Q tr s) :
    filled Q s.tbl ≤ count isIn tr ∧ ∀ i op pc, s.thr i = .busy op pc → Seen op pc := by
  induction h with
  | nil =>
    refine ⟨?_, fun i op pc h => by cases h⟩
    have : filled Q (emptyTbl : Tbl K V) = 0 := by
      unfold filled
      rw [List.countP_eq_zero]
      intro p _
      simp [emptyTbl, Cell.isEmpty, Cell.emptyCell]
    exact Nat.le_of_eq this
  | @cons tr s s' i e h hs hi ih =>
    obtain ⟨h1, h2⟩ := ih
    have hset : ∀ {j : T} {x : Thr K V}, (∀ op pc, x = .busy op pc → Seen op pc) →
        ∀ i op pc, setAt s.thr j x i = .busy op pc → Seen op pc := by
      intro j x hx i op pc he
      by_cases hij : i = j
      · subst hij
        rw [setAt_same] at he
        exact hx _ _ he
      · rw [setAt_other hij] at he
        exact h2 _ _ _ he
    simp only [count]
    cases hs with
    | call hc =>
      refine ⟨Nat.le_add_right_of_le h1, hset ?_⟩
      intro op pc he k j curr hk hpc
      cases he
      subst hk
      simp [start, Call.transactional] at hpc
    | @commit j op n t' r hc hb =>
      refine ⟨?_, hset nofun⟩
      have := body_fill (i := j) n _ hb
      show filled Q t' ≤ _
      omega
    | @cont j op pc pc' t' hc hst =>
      have := step_fill (Q := Q) (t := s.tbl) (h2 _ _ _ hc) (i := j)
      rw [hst] at this
      change filled Q t' ≤ _ ∧ Seen op pc' at this
      refine ⟨Nat.le_add_right_of_le (Nat.le_trans this.1 h1), hset ?_⟩
      intro op pc he
      cases he
      exact this.2
    | @done j op pc t' r hc hst =>
      have := step_fill (Q := Q) (t := s.tbl) (h2 _ _ _ hc) (i := j)
      rw [hst] at this
      change filled Q t' ≤ filled Q s.tbl + (if isIn (some (.lin j op r) : Option (TEv T K V)) then 1 else 0) at this
      refine ⟨?_, hset nofun⟩
      show filled Q t' ≤ _
      omega
    | ret hc => exact ⟨Nat.le_add_right_of_le h1, hset nofun⟩

/-- **C87, room.**  As long as fewer insertions have reported success than the table has slots, there is an empty
slot. -/
theorem C87_room {Q : Tab K} {tr : List (Move T K V)} {s : St T K V} (h : Trace Q tr s)
    (hc : count isIn tr < 2 ^ Q.k) : Room Q s.tbl :=
  room_of_filled (Nat.lt_of_le_of_lt (filled_le h).1 hc)

/-- **C87, the table suffices.**  In a table made for `n` elements, whatever the threads do, up to the `n`-th insertion
that reports success there is an empty slot, a lookup makes at most `2 ^ k` steps, every call at most `2 ^ k + 2`
steps and two more for each successful modification by others during the call, and `c` calls make at most
`c * (2 ^ k + 2 * c + 4)` steps: no search runs for ever. -/
theorem C87_made_for {Q : Tab K} (hQ : Q.OK) {n fuel : Nat} (hn : computeSize fuel n = some (2 ^ Q.k))
    {tr : List (Move T K V)} {s : St T K V} (h : Trace Q tr s) (hc : count isIn tr ≤ n) :
    Room Q s.tbl ∧
    (∀ i op, reads op → ((∃ pc, s.thr i = .busy op pc) ∨ ∃ r, s.thr i = .fin op r) → mine i tr ≤ 2 ^ Q.k) ∧
    (∀ i, s.thr i ≠ .idle → mine i tr ≤ 2 ^ Q.k + 2 * others i tr + 2) ∧
    tr.length ≤ count isCall tr * (2 ^ Q.k + 2 * count isCall tr + 4) := by
  have h2 : 2 * n ≤ 2 ^ Q.k := capLoop_ge hn
  have hp : 0 < 2 ^ Q.k := Nat.two_pow_pos _
  have hR : Room Q s.tbl := C87_room h (by omega)
  exact ⟨hR, fun i op ho hi => C81_lookup_wait_free hQ h hR ho hi, fun i hi => C81_lock_free hQ h hR hi,
    C81_total_work hQ h hR⟩

end

/-- **C87 is not vacuous**: in a table made for 2000 elements, with 4096 slots, a thread has inserted an element, one
insertion has reported success, and another thread is looking for it. -/
theorem C87_not_vacuous : computeSize 1 2000 = some (2 ^ exQ.k) ∧
    ∃ (tr : List (Move Bool Nat Nat)) (s : St Bool Nat Nat) (pc : PC Nat Nat), Trace exQ tr s ∧ count isIn tr = 1 ∧
      s.thr true = .busy (.find 8) pc ∧ Room exQ s.tbl ∧ mine true tr ≤ 2 ^ exQ.k := by
  have hn : computeSize 1 2000 = some (2 ^ exQ.k) := by decide
  refine ⟨hn, ?_⟩
  have hE0 : (emptyTbl : Tbl Nat Nat) (exQ.pos (exQ.home 8)) = ⟨false, .empty⟩ := rfl
  have s2 : body exQ (.insert 8 0) 1 (exQ.home 8) (emptyTbl : Tbl Nat Nat) =
      some ((emptyTbl : Tbl Nat Nat).set (exQ.pos (exQ.home 8)) (Cell.liveCell 8 0),
        ⟨some .TSX_SUCCESS_IN, some (exQ.pos (exQ.home 8), 8, 0)⟩) := by
    simp [body, hE0, Cell.isEmpty, Cell.hasKey]
  have t0 : Trace exQ [] (⟨emptyTbl, two .idle .idle⟩ : St Bool Nat Nat) := by
    have : (⟨emptyTbl, two .idle .idle⟩ : St Bool Nat Nat) = St.init := by
      unfold St.init; congr; funext b; cases b <;> rfl
    rw [this]; exact .nil
  have t4 := tr_call (tr_ret (tr_commit (tr_call t0 (op := .insert 8 0)) s2)) (op := .find 8)
  obtain ⟨h1, h2, -, -⟩ := C87_made_for exQ_ok hn t4 (by
    show 1 ≤ 2000
    decide)
  exact ⟨_, _, _, t4, rfl, rfl, h1, h2 true (.find 8) ⟨8, rfl⟩ (.inl ⟨_, rfl⟩)⟩

end Growt.Tsx.Progress
