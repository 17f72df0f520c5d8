import Verif.TsxProgress
import Verif.Props.Tsx
import Verif.Props.Conc

/-!
# C81: progress of the table with transactions
-/

set_option linter.unusedSectionVars false

namespace Growt.Tsx
namespace Progress

section
variable {T K V : Type} [DecidableEq T] [DecidableEq K] [DecidableEq V] [Inhabited V]

/-- The events of a trace, oldest first. (specification, no code) -/
def events : List (Move T K V) → List (TEv T K V)
  | [] => []
  | (_, e) :: tr => events tr ++ e.toList

/-- Traces are executions with the moving threads written down: nothing is left out. -/
theorem C81_every_execution {Q : Tab K} {l : List (TEv T K V)} {s : St T K V} :
    Exec (Step Q) St.init l s ↔ ∃ tr, Trace Q tr s ∧ events tr = l := by
  constructor
  · intro h
    induction h with
    | init => exact ⟨[], .nil, rfl⟩
    | silent h hs ih =>
      obtain ⟨tr, h1, h2⟩ := ih
      obtain ⟨i, h3⟩ := trace_step h1 hs
      exact ⟨_, h3, by simpa [events] using h2⟩
    | vis h hs ih =>
      obtain ⟨tr, h1, h2⟩ := ih
      obtain ⟨i, h3⟩ := trace_step h1 hs
      exact ⟨_, h3, by simp [events, h2]⟩
  · rintro ⟨tr, h, rfl⟩
    induction h with
    | nil => exact .init
    | @cons tr s s' i e h hs hi ih =>
      cases e with
      | none => simpa [events] using Exec.silent ih hs
      | some e => exact Exec.vis ih hs

/-- **C81, no call waits.**  Whatever the other threads do or do not do, a thread in the middle of a call can make its
next step, even if no transaction ever commits. -/
theorem C81_never_blocked {Q : Tab K} {tr : List (Move T K V)} {s : St T K V} (h : Trace Q tr s) {i : T}
    (hi : s.thr i ≠ .idle) : ∃ e s', Trace Q ((i, e) :: tr) s' := by
  cases hb : s.thr i with
  | idle => exact absurd hb hi
  | fin op r => exact ⟨_, _, h.cons (.ret hb) (by show setAt _ _ _ _ ≠ _; rw [setAt_same, hb]; nofun)⟩
  | busy op pc =>
    cases hst : step Q op pc s.tbl with
    | mk t' o =>
      cases o with
      | done r => exact ⟨_, _, h.cons (.done hb hst) (by show setAt _ _ _ _ ≠ _; rw [setAt_same, hb]; nofun)⟩
      | cont pc' =>
        refine ⟨_, _, h.cons (.cont hb hst) ?_⟩
        show setAt _ _ _ _ ≠ _
        rw [setAt_same, hb]
        intro e
        injection e with _ e
        subst e
        cases pc' with
        | begin => simp [step] at hst
        | load j =>
          obtain ⟨-, ⟨e, -⟩ | ⟨e, -⟩⟩ := load_cont hst
          · injection e with e; omega
          · cases e
        | act j c =>
          obtain ⟨-, -, e⟩ := act_cont (no_act h _ _ _ _ hb) hst
          cases e

theorem body_ends {Q : Tab K} {op : Call K V} (ho : op.transactional = true) {t : Tbl K V} (n : Nat) : ∀ i,
    (∃ b, b < n ∧ (t (Q.pos (i + b))).c = .empty) → ∃ t' r, body Q op n i t = some (t', r) := by
  induction n with
  | zero => rintro i ⟨b, hb, -⟩; omega
  | succ n ih =>
    rintro i ⟨b, hb, he⟩
    have hrec : (t (Q.pos i)).isEmpty = false → ∃ t' r, body Q op n (i + 1) t = some (t', r) := by
      intro h
      cases b with
      | zero => rw [Cell.isEmpty_iff.2 (show (t (Q.pos i)).c = _ from he)] at h; cases h
      | succ b => exact ih (i + 1) ⟨b, by omega, by rw [← he, Nat.add_assoc, Nat.add_comm 1 b]⟩
    cases op with
    | find k => cases ho
    | erase k => cases ho
    | insert k d =>
      simp only [body]
      split
      · exact ⟨_, _, rfl⟩
      · split
        · exact ⟨_, _, rfl⟩
        · split
          · exact ⟨_, _, rfl⟩
          · rename_i h; exact hrec (by simpa using h)
    | update k f =>
      simp only [body]
      split
      · exact ⟨_, _, rfl⟩
      · split
        · exact ⟨_, _, rfl⟩
        · split
          · exact ⟨_, _, rfl⟩
          · rename_i h; exact hrec (by simpa using h)
    | insertOrUpdate k d f =>
      simp only [body]
      split
      · exact ⟨_, _, rfl⟩
      · split
        · exact ⟨_, _, rfl⟩
        · split
          · exact ⟨_, _, rfl⟩
          · rename_i h; exact hrec (by simpa using h)

/-- **C81, transactions are bounded.**  If some slot is empty, the loop inside a transaction makes at most as many
rounds as the table has slots, wherever it begins. -/
theorem C81_transaction_bounded {Q : Tab K} {op : Call K V} (ho : op.transactional = true) {t : Tbl K V}
    (hR : Room Q t) (i : Nat) : ∃ t' r, body Q op (2 ^ Q.k) i t = some (t', r) := by
  obtain ⟨p, hp, he⟩ := hR
  apply body_ends ho
  have hpos := Nat.two_pow_pos Q.k
  have hm := Nat.mod_lt i hpos
  refine ⟨(p + (2 ^ Q.k - i % 2 ^ Q.k)) % 2 ^ Q.k, Nat.mod_lt _ hpos, ?_⟩
  have : Q.pos (i + (p + (2 ^ Q.k - i % 2 ^ Q.k)) % 2 ^ Q.k) = p := by
    unfold Tab.pos
    rw [Nat.and_two_pow_sub_one_eq_mod, Nat.add_mod, Nat.mod_mod, ← Nat.add_mod]
    have e : i + (p + (2 ^ Q.k - i % 2 ^ Q.k)) = p + 2 ^ Q.k * (i / 2 ^ Q.k + 1) := by
      have := Nat.div_add_mod i (2 ^ Q.k)
      rw [Nat.mul_add]; omega
    rw [e, Nat.add_mul_mod_self_left, Nat.mod_eq_of_lt hp]
  rw [this]; exact he

/-- **C81, a call that begins can end at once**: before its transaction has been aborted, it is one commit away from
its result. -/
theorem C81_one_commit {Q : Tab K} {tr : List (Move T K V)} {s : St T K V} (h : Trace Q tr s) (hR : Room Q s.tbl)
    {i : T} {op : Call K V} (hb : s.thr i = .busy op .begin) :
    ∃ r s', Trace Q ((i, some (.lin i op r)) :: tr) s' ∧ s'.thr i = .fin op r := by
  have hA := acc h i
  rw [hb] at hA
  obtain ⟨t', r, e⟩ := C81_transaction_bounded hA.2 hR (Q.home op.key)
  exact ⟨r, _, h.cons (.commit hb e) (by show setAt _ _ _ _ ≠ _; rw [setAt_same, hb]; nofun), setAt_same _ _ _⟩

/-- **C81, lookups are wait-free.**  Whatever the other threads do, a lookup makes at most as many steps as the
table has slots, provided that some slot is empty. -/
theorem C81_lookup_wait_free {Q : Tab K} (hQ : Q.OK) {tr : List (Move T K V)} {s : St T K V}
    (h : Trace Q tr s) (hR : Room Q s.tbl) {i : T} {op : Call K V} (ho : reads op)
    (hi : (∃ pc, s.thr i = .busy op pc) ∨ ∃ r, s.thr i = .fin op r) : mine i tr ≤ 2 ^ Q.k := by
  rcases hi with ⟨pc, hi⟩ | ⟨r, hi⟩
  · exact (busy_bound hQ h hR hi).2 ho
  · exact (fin_bound hQ h hR hi).2 ho

/-- **C81, all calls are lock-free, also without transactions.**  A call makes at most `2 ^ k + 2` steps, one of them
for an aborted transaction, and two more for every successful modification of the table by another thread during the
call.  Unsuccessful calls of others cost nothing. -/
theorem C81_lock_free {Q : Tab K} (hQ : Q.OK) {tr : List (Move T K V)} {s : St T K V}
    (h : Trace Q tr s) (hR : Room Q s.tbl) {i : T} (hi : s.thr i ≠ .idle) :
    mine i tr ≤ 2 ^ Q.k + 2 * others i tr + 2 := by
  cases hb : s.thr i with
  | idle => exact absurd hb hi
  | busy op pc => have := (busy_bound hQ h hR hb).1; have := abort_le op; omega
  | fin op r => have := (fin_bound hQ h hR hb).1; have := abort_le op; omega

/-- **C81, all threads together.**  An execution with `c` calls has at most `c * (2 ^ k + 2 * c + 4)` steps. -/
theorem C81_total_work {Q : Tab K} (hQ : Q.OK) {tr : List (Move T K V)} {s : St T K V}
    (h : Trace Q tr s) (hR : Room Q s.tbl) :
    tr.length ≤ count isCall tr * (2 ^ Q.k + 2 * count isCall tr + 4) := length_bound hQ h hR

/-- **C81, the system as a whole gets on.**  If the threads that move are among the `n` threads of a list, then
after `(c + n) * (2 ^ k + 2 * (c + n) + 4)` steps more than `c` calls have returned. -/
theorem C81_calls_return {Q : Tab K} (hQ : Q.OK) {tr : List (Move T K V)} {s : St T K V}
    (h : Trace Q tr s) (hR : Room Q s.tbl) {L : List T} (hL : L.Nodup) (hm : ∀ m ∈ tr, m.1 ∈ L) {c : Nat}
    (hc : (c + L.length) * (2 ^ Q.k + 2 * (c + L.length) + 4) < tr.length) : c < count isRet tr := by
  apply Nat.lt_of_not_le
  intro hle
  have h1 := C81_total_work hQ h hR
  have h2 := pending h hL hm
  have h3 := sum_pend_le (f := s.thr) L
  have h4 : count isCall tr ≤ c + L.length := by omega
  have h5 : count isCall tr * (2 ^ Q.k + 2 * count isCall tr + 4) ≤
      (c + L.length) * (2 ^ Q.k + 2 * (c + L.length) + 4) := Nat.mul_le_mul h4 (by omega)
  omega

end

/-! ## Updates are not wait-free -/

section
variable {K : Type} [DecidableEq K]

/-- The states of two threads. (model bookkeeping, no code) -/
def two (x y : Thr K Nat) : Bool → Thr K Nat := fun b => if b then y else x

theorem set_false (x y z : Thr K Nat) : setAt (two x y) false z = two z y := by
  funext b; cases b <;> simp [setAt, two]

theorem set_true (x y z : Thr K Nat) : setAt (two x y) true z = two x z := by
  funext b; cases b <;> simp [setAt, two]

/-- Thread `false`, whose transaction was aborted, is about to look at the only element, with value `v`; thread `true`
is idle. (proof, no code) -/
def Caught (Q : Tab K) (k : K) (v : Nat) (t : Tbl K Nat) : St Bool K Nat → Prop := fun s =>
  s = ⟨t, two (.busy (.update k (incFn 1)) (.load (Q.home k))) .idle⟩ ∧
  t (Q.pos (Q.home k)) = Cell.liveCell k v ∧
  ∀ p, p ≠ Q.pos (Q.home k) → (t p).c = .empty

theorem tr_call {Q : Tab K} {tr : List (Move Bool K Nat)} {t : Tbl K Nat} {x : Thr K Nat}
    {op : Call K Nat} (h : Trace Q tr ⟨t, two x .idle⟩) :
    Trace Q ((true, some (.call true op)) :: tr) ⟨t, two x (.busy op (start Q op))⟩ := by
  have := Step.call (Q := Q) (s := ⟨t, two x .idle⟩) (i := true) (op := op) rfl
  simp only [set_true] at this
  exact h.cons this nofun

theorem tr_commit {Q : Tab K} {tr : List (Move Bool K Nat)} {t t' : Tbl K Nat} {x : Thr K Nat}
    {op : Call K Nat} {r : Ret K Nat} (h : Trace Q tr ⟨t, two x (.busy op .begin)⟩)
    (hs : body Q op 1 (Q.home op.key) t = some (t', r)) :
    Trace Q ((true, some (.lin true op r)) :: tr) ⟨t', two x (.fin op r)⟩ := by
  have := Step.commit (Q := Q) (s := ⟨t, two x (.busy op .begin)⟩) (i := true) rfl hs
  simp only [set_true] at this
  exact h.cons this nofun

theorem tr_cont' {Q : Tab K} {tr : List (Move Bool K Nat)} {t t' : Tbl K Nat} {y : Thr K Nat}
    {op : Call K Nat} {pc pc' : PC K Nat} (h : Trace Q tr ⟨t, two (.busy op pc) y⟩)
    (hs : step Q op pc t = (t', .cont pc')) (hne : pc' ≠ pc) :
    Trace Q ((false, none) :: tr) ⟨t', two (.busy op pc') y⟩ := by
  have := Step.cont (Q := Q) (s := ⟨t, two (.busy op pc) y⟩) (i := false) rfl hs
  simp only [set_false] at this
  exact h.cons this fun e => hne (by injection e)

theorem tr_ret {Q : Tab K} {tr : List (Move Bool K Nat)} {t : Tbl K Nat} {x : Thr K Nat}
    {op : Call K Nat} {r : Ret K Nat} (h : Trace Q tr ⟨t, two x (.fin op r)⟩) :
    Trace Q ((true, some (.ret true op r)) :: tr) ⟨t, two x .idle⟩ := by
  have := Step.ret (Q := Q) (s := ⟨t, two x (.fin op r)⟩) (i := true) rfl
  simp only [set_true] at this
  exact h.cons this nofun

theorem load_live {Q : Tab K} {k : K} {v : Nat} {t : Tbl K Nat} (h : t (Q.pos (Q.home k)) = Cell.liveCell k v) :
    step Q (.update k (incFn 1)) (.load (Q.home k)) t =
      (t, .cont (.act (Q.home k) (Cell.liveCell k v))) := by
  simp [step, h, afterLoad, Cell.liveCell, Cell.hasKey]

theorem body_live {Q : Tab K} {k : K} {v : Nat} {t : Tbl K Nat} (h : t (Q.pos (Q.home k)) = Cell.liveCell k v) :
    body Q (.update k (incFn 1)) 1 (Q.home k) t = some (t.set (Q.pos (Q.home k)) (Cell.liveCell k (v + 1)),
      ⟨some .TSX_SUCCESS_UP, some (Q.pos (Q.home k), k, v + 1)⟩) := by
  simp [body, h, nonAtomicUpdate, Cell.liveCell, Cell.hasKey, Cell.setMapped, Cell.mapped, incFn]

theorem act_late {Q : Tab K} {k : K} {v : Nat} {t : Tbl K Nat}
    (h : t (Q.pos (Q.home k)) = Cell.liveCell k (v + 1)) :
    step Q (.update k (incFn 1)) (.act (Q.home k) (Cell.liveCell k v)) t = (t, .cont (.load (Q.home k))) := by
  have e : t.set (Q.pos (Q.home k)) (t (Q.pos (Q.home k))) = t := Tbl.set_self ..
  simp [step, change, atomicUpdate, h, Cell.liveCell]
  rw [h] at e
  exact e

theorem caught_next {Q : Tab K} {k : K} {v : Nat} {tr : List (Move Bool K Nat)}
    {t : Tbl K Nat} {s : St Bool K Nat} (h : Trace Q tr s) (hc : Caught Q k v t s) :
    ∃ tr' t' s', Trace Q tr' s' ∧ Caught Q k (v + 1) t' s' ∧ mine false tr' = mine false tr + 2 ∧
      others false tr' = others false tr + 1 ∧ tr'.length = tr.length + 5 := by
  obtain ⟨rfl, c1, c2⟩ := hc
  have hset : (t.set (Q.pos (Q.home k)) (Cell.liveCell k (v + 1)))
      (Q.pos (Q.home k)) = Cell.liveCell k (v + 1) := by simp [Tbl.set]
  have t1 := tr_cont' h (load_live c1) nofun
  have t2 := tr_call t1 (op := .update k (incFn 1))
  have t4 := tr_commit t2 (body_live c1)
  have t6 := tr_cont' (tr_ret t4) (act_late hset) nofun
  refine ⟨_, _, _, t6, ⟨rfl, hset, fun p hp => ?_⟩, ?_, ?_, rfl⟩
  · simp only [Tbl.set, if_neg hp]
    exact c2 p hp
  · simp [mine, isCall]
  · simp [others, isCall, isWrite, ReturnCode.successful]
    rfl

theorem caught_first {Q : Tab K} (k : K) :
    ∃ tr t s, Trace Q tr s ∧ Caught Q k 0 t s ∧ mine false tr = 1 ∧ others false tr = 0 ∧ tr.length = 5 := by
  have hE0 : (emptyTbl : Tbl K Nat) (Q.pos (Q.home k)) = ⟨false, .empty⟩ := rfl
  have s2 : body Q (.insert k 0) 1 (Q.home k) (emptyTbl : Tbl K Nat) =
      some ((emptyTbl : Tbl K Nat).set (Q.pos (Q.home k)) (Cell.liveCell k 0),
        ⟨some .TSX_SUCCESS_IN, some (Q.pos (Q.home k), k, 0)⟩) := by
    simp [body, hE0, Cell.isEmpty, Cell.hasKey]
  have t0 : Trace Q [] (⟨emptyTbl, two .idle .idle⟩ : St Bool K Nat) := by
    have : (⟨emptyTbl, two .idle .idle⟩ : St Bool K Nat) = St.init := by
      unfold St.init; congr; funext b; cases b <;> rfl
    rw [this]; exact .nil
  have t1 := tr_call t0 (op := .insert k 0)
  have t4 := tr_ret (tr_commit t1 s2)
  have hc := Step.call (Q := Q)
    (s := ⟨(emptyTbl : Tbl K Nat).set (Q.pos (Q.home k)) (Cell.liveCell k 0), two .idle .idle⟩)
    (i := false) (op := .update k (incFn 1)) rfl
  simp only [set_false] at hc
  have t5 := tr_cont' (t4.cons (i := false) hc nofun) (pc := .begin) (pc' := .load (Q.home k)) rfl nofun
  refine ⟨_, _, _, t5, ⟨rfl, by simp [Tbl.set], fun p hp => ?_⟩, ?_, ?_, rfl⟩
  · simp only [Tbl.set, if_neg hp]
    rfl
  · simp [mine, isCall]
  · simp [others, isCall]

theorem caught_all {Q : Tab K} (k : K) (n : Nat) :
    ∃ tr t s, Trace Q tr s ∧ Caught Q k n t s ∧ mine false tr = 2 * n + 1 ∧ others false tr = n ∧
      tr.length = 5 * n + 5 := by
  induction n with
  | zero => exact caught_first k
  | succ n ih =>
    obtain ⟨tr, t, s, h1, h2, h3, h4, h5⟩ := ih
    obtain ⟨tr', t', s', g1, g2, g3, g4, g5⟩ := caught_next h1 h2
    exact ⟨tr', t', s', g1, g2, by omega, by omega, by omega⟩

theorem caught_room {Q : Tab K} (hQ : Q.OK) {k : K} {n : Nat} {t : Tbl K Nat} {s : St Bool K Nat}
    (h : Caught Q k n t s) : Room Q t := by
  obtain ⟨-, -, hrest⟩ := h
  have hp : 2 ^ 12 ≤ 2 ^ Q.k := Nat.pow_le_pow_right (by omega) hQ.lo
  by_cases h0 : Q.pos (Q.home k) = 0
  · exact ⟨1, by omega, hrest 1 (by omega)⟩
  · exact ⟨0, by omega, hrest 0 (by omega)⟩

/-- **C81, limit of the property: an update whose transaction was aborted is not wait-free.**  For every `n` it can be
kept in its loop for `2 * n` steps by `n` committed transactions of another thread, although the table holds a single
element.  The code tries the transaction only once. -/
theorem C81_update_starves {Q : Tab K} (hQ : Q.OK) (k : K) (n : Nat) :
    ∃ (tr : List (Move Bool K Nat)) (s : St Bool K Nat) (pc : PC K Nat), Trace Q tr s ∧ Room Q s.tbl ∧
      s.thr false = .busy (.update k (incFn 1)) pc ∧ mine false tr = 2 * n + 1 ∧ others false tr = n := by
  obtain ⟨tr, t, s, h1, h2, h3, h4, -⟩ := caught_all (Q := Q) k n
  have hr := caught_room hQ h2
  obtain ⟨rfl, -, -⟩ := h2
  exact ⟨tr, _, _, h1, hr, rfl, h3, h4⟩

end

/-! ## The hypotheses are met -/

/-- Two threads increment the same element; one of them is in the middle of its call after 201 steps and 100 successful
calls of the other.  All bounds apply. -/
theorem C81_not_vacuous : ∃ (tr : List (Move Bool Nat Nat)) (s : St Bool Nat Nat) (pc : PC Nat Nat),
    Trace exQ tr s ∧ Room exQ s.tbl ∧ s.thr false = .busy (.update 7 (incFn 1)) pc ∧ mine false tr = 201 ∧
      mine false tr ≤ 2 ^ exQ.k + 2 * others false tr + 2 ∧
      tr.length ≤ count isCall tr * (2 ^ exQ.k + 2 * count isCall tr + 4) ∧
      (∃ e s', Trace exQ ((false, e) :: tr) s') ∧
      ∃ t' r, body exQ (.insert 8 (1 : Nat)) (2 ^ exQ.k) (exQ.home 8) s.tbl = some (t', r) := by
  obtain ⟨tr, s, pc, h1, h2, h3, h4, h5⟩ := C81_update_starves exQ_ok 7 100
  have hb : s.thr false ≠ .idle := by rw [h3]; nofun
  exact ⟨tr, s, pc, h1, h2, h3, h4, C81_lock_free exQ_ok h1 h2 hb,
    C81_total_work exQ_ok h1 h2, C81_never_blocked h1 hb, C81_transaction_bounded rfl h2 _⟩

/-- A lookup in the middle of its call, a call before its transaction, and a run that is long enough for calls to have
returned. -/
theorem C81_more_not_vacuous :
    (∃ (tr : List (Move Bool Nat Nat)) (s : St Bool Nat Nat) (pc : PC Nat Nat),
      Trace exQ tr s ∧ Room exQ s.tbl ∧ s.thr true = .busy (.find 7) pc ∧ mine true tr ≤ 2 ^ exQ.k) ∧
    (∃ (tr : List (Move Bool Nat Nat)) (s s' : St Bool Nat Nat) (r : Ret Nat Nat),
      Trace exQ tr s ∧ Room exQ s.tbl ∧ s.thr true = .busy (.insert 8 1) .begin ∧
      Trace exQ ((true, some (.lin true (.insert 8 1) r)) :: tr) s') ∧
    ∃ (tr : List (Move Bool Nat Nat)) (s : St Bool Nat Nat), Trace exQ tr s ∧
      Room exQ s.tbl ∧ 3 < count isRet tr := by
  refine ⟨?_, ?_, ?_⟩
  · obtain ⟨tr, t, s, h1, h2, h3, h4, -⟩ := caught_all (Q := exQ) 7 100
    have hr := caught_room exQ_ok h2
    obtain ⟨rfl, -, -⟩ := h2
    have h5 := tr_call h1 (op := .find 7)
    exact ⟨_, _, _, h5, hr, rfl, C81_lookup_wait_free exQ_ok h5 hr (op := .find 7) ⟨7, rfl⟩ (.inl ⟨_, rfl⟩)⟩
  · obtain ⟨tr, t, s, h1, h2, h3, h4, -⟩ := caught_all (Q := exQ) 7 100
    have hr := caught_room exQ_ok h2
    obtain ⟨rfl, -, -⟩ := h2
    have h5 := tr_call h1 (op := .insert 8 1)
    obtain ⟨r, s', h6, -⟩ := C81_one_commit h5 hr (i := true) (op := .insert 8 1) rfl
    exact ⟨_, _, _, _, h5, hr, rfl, h6⟩
  · obtain ⟨tr, t, s, h1, h2, h3, h4, h5⟩ := caught_all (Q := exQ) 7 6000
    have hr := caught_room exQ_ok h2
    obtain ⟨rfl, -, -⟩ := h2
    refine ⟨tr, _, h1, hr, C81_calls_return exQ_ok h1 hr (L := [false, true]) (by decide) ?_ ?_⟩
    · rintro ⟨b, e⟩ -; cases b <;> simp
    · have : 2 ^ exQ.k = 4096 := rfl
      simp only [List.length_cons, List.length_nil]
      omega

end Progress
end Growt.Tsx
