import Verif.Progress
import Verif.Props.Conc

/-!
# C73: progress of the bounded table
-/

set_option linter.unusedSectionVars false

namespace Growt
namespace Progress

section
variable {T K V : Type} [DecidableEq T] [DecidableEq K] [DecidableEq V] [Inhabited V]

/-- The events of a trace, oldest first. (specification, no code) -/
def events : List (Move T K V) → List (TEv T K V)
  | [] => []
  | (_, e) :: tr => events tr ++ e.toList

/-- Traces are executions with the moving threads written down: nothing is left out. -/
theorem C73_every_execution {E : Env K} {ok : Op K V → Prop} {l : List (TEv T K V)} {s : CSt T K V} :
    Exec (CStep E ok) CSt.init l s ↔ ∃ tr, Trace E ok tr s ∧ events tr = l := by
  constructor
  · intro h
    induction h with
    | init => exact ⟨[], .nil, rfl⟩
    | silent h hs ih =>
      obtain ⟨tr, h1, h2⟩ := ih
      obtain ⟨i, h3⟩ := trace_step h1 hs
      exact ⟨_, h3, by simpa [events] using h2⟩
    | vis h hs ih =>
      obtain ⟨tr, h1, h2⟩ := ih
      obtain ⟨i, h3⟩ := trace_step h1 hs
      exact ⟨_, h3, by simp [events, h2]⟩
  · rintro ⟨tr, h, rfl⟩
    induction h with
    | nil => exact .init
    | @cons tr s s' i e h hs hi ih =>
      cases e with
      | none => simpa [events] using Exec.silent ih hs
      | some e => exact Exec.vis ih hs

/-- **C73, no call waits.**  Whatever the other threads do or do not do, a thread in the middle of a call can
make its next step. -/
theorem C73_never_blocked {E : Env K} (hE : E.OK) {ok : Op K V → Prop} (hok : ∀ op, ok op → op.isSafe)
    {tr : List (Move T K V)} {s : CSt T K V} (h : Trace E ok tr s) {i : T} (hi : s.thr i ≠ .idle) :
    ∃ e s', Trace E ok ((i, e) :: tr) s' := by
  cases hb : s.thr i with
  | idle => exact absurd hb hi
  | fin op r => exact ⟨_, _, h.cons (.ret hb) (by show setAt _ _ _ _ ≠ _; rw [setAt_same, hb]; nofun)⟩
  | busy op pc =>
    have hx := C73_every_execution.2 ⟨tr, h, rfl⟩
    have hn := C11_no_out_of_bounds_partial hE hok hx hb
    cases hst : step E op pc s.tbl with
    | mk t' o =>
      cases o with
      | oob => rw [hst] at hn; exact absurd rfl hn
      | done r => exact ⟨_, _, h.cons (.done hb hst) (by show setAt _ _ _ _ ≠ _; rw [setAt_same, hb]; nofun)⟩
      | cont pc' =>
        refine ⟨_, _, h.cons (.cont hb hst) ?_⟩
        show setAt _ _ _ _ ≠ _
        rw [setAt_same, hb]
        intro e
        injection e with _ e
        subst e
        cases pc' with
        | load j att =>
          obtain ⟨-, -, ⟨e, -⟩ | ⟨e, -⟩⟩ := load_cont hst
          · injection e with e; omega
          · cases e
        | act j att c =>
          obtain ⟨-, -, att', e⟩ := act_cont hst
          cases e

/-- **C73, lookups are wait-free.**  Whatever the other threads do, a lookup makes at most as many steps as the
table has slots - provided, with circular probing, that some slot is empty. -/
theorem C73_lookup_wait_free {E : Env K} (hE : E.OK) {ok : Op K V → Prop} {tr : List (Move T K V)} {s : CSt T K V}
    (h : Trace E ok tr s) (hR : Room E s.tbl) {i : T} {op : Op K V} (ho : reads op)
    (hi : (∃ pc, s.thr i = .busy op pc) ∨ ∃ r, s.thr i = .fin op r) : mine i tr ≤ E.M.total := by
  obtain ⟨k, hw⟩ := hE.wf
  rcases hi with ⟨pc, hi⟩ | ⟨r, hi⟩
  · exact (busy_bound hw h hR hi).2 ho
  · exact (fin_bound hw h hR hi).2 ho

/-- **C73, all calls are lock-free.**  A call makes at most `total + 1` steps and two more for every successful
modification of the table by another thread during the call.  Unsuccessful calls of others cost
nothing. -/
theorem C73_lock_free {E : Env K} (hE : E.OK) {ok : Op K V → Prop} {tr : List (Move T K V)} {s : CSt T K V}
    (h : Trace E ok tr s) (hR : Room E s.tbl) {i : T} (hi : s.thr i ≠ .idle) :
    mine i tr ≤ E.M.total + 2 * others i tr + 1 := by
  obtain ⟨k, hw⟩ := hE.wf
  cases hb : s.thr i with
  | idle => exact absurd hb hi
  | busy op pc => have := (busy_bound hw h hR hb).1; omega
  | fin op r => exact (fin_bound hw h hR hb).1

/-- **C73, all threads together.**  An execution with `c` calls has at most `c * (total + 2 * c + 3)` steps. -/
theorem C73_total_work {E : Env K} (hE : E.OK) {ok : Op K V → Prop} {tr : List (Move T K V)} {s : CSt T K V}
    (h : Trace E ok tr s) (hR : Room E s.tbl) :
    tr.length ≤ count isCall tr * (E.M.total + 2 * count isCall tr + 3) := by
  obtain ⟨k, hw⟩ := hE.wf
  exact length_bound hw h hR

/-- **C73, the system as a whole gets on.**  If the threads that move are among the `n` threads of a list, then
after `(c + n) * (total + 2 * (c + n) + 3)` steps more than `c` calls have returned, or no step is left. -/
theorem C73_calls_return {E : Env K} (hE : E.OK) {ok : Op K V → Prop} {tr : List (Move T K V)} {s : CSt T K V}
    (h : Trace E ok tr s) (hR : Room E s.tbl) {L : List T} (hL : L.Nodup) (hm : ∀ m ∈ tr, m.1 ∈ L) {c : Nat}
    (hc : (c + L.length) * (E.M.total + 2 * (c + L.length) + 3) < tr.length) : c < count isRet tr := by
  apply Nat.lt_of_not_le
  intro hle
  have h1 := C73_total_work hE h hR
  have h2 := pending h hL hm
  have h3 := sum_pend_le (f := s.thr) L
  have h4 : count isCall tr ≤ c + L.length := by omega
  have h5 : count isCall tr * (E.M.total + 2 * count isCall tr + 3) ≤
      (c + L.length) * (E.M.total + 2 * (c + L.length) + 3) := Nat.mul_le_mul h4 (by omega)
  omega

end

/-! ## Updates are not wait-free -/

section
variable {K : Type} [DecidableEq K]

/-- The calls of the example: one insertion and increments of the same element. (specification, no code) -/
def incs (k : K) (op : Op K Nat) : Prop := op = .insert k 0 ∨ op = .update k (incFn 1)

/-- The states of two threads. (model bookkeeping, no code) -/
def two (x y : Thr K Nat) : Bool → Thr K Nat := fun b => if b then y else x

theorem set_false (x y z : Thr K Nat) : setAt (two x y) false z = two z y := by
  funext b; cases b <;> simp [setAt, two]

theorem set_true (x y z : Thr K Nat) : setAt (two x y) true z = two x z := by
  funext b; cases b <;> simp [setAt, two]

/-- Thread `false` is about to look at the only element, with value `v`; thread `true` is idle. (proof, no code) -/
def Caught (E : Env K) (k : K) (v : Nat) (t : Tbl K Nat) : CSt Bool K Nat → Prop := fun s =>
  s = ⟨t, two (.busy (.update k (incFn 1)) (.load (E.M.map (E.h k)) 0)) .idle⟩ ∧
  t (E.M.remap (E.M.map (E.h k))) = Cell.liveCell k v ∧
  ∀ p, p ≠ E.M.remap (E.M.map (E.h k)) → (t p).c = .empty

theorem tr_call {E : Env K} {ok : Op K Nat → Prop} {tr : List (Move Bool K Nat)} {t : Tbl K Nat} {x : Thr K Nat}
    {op : Op K Nat} (h : Trace E ok tr ⟨t, two x .idle⟩) (ho : ok op) :
    Trace E ok ((true, some (.call true op)) :: tr) ⟨t, two x (.busy op (start E op))⟩ := by
  have := CStep.call (E := E) (ok := ok) (s := ⟨t, two x .idle⟩) (i := true) (op := op) rfl ho
  simp only [set_true] at this
  exact h.cons this nofun

theorem tr_cont {E : Env K} {ok : Op K Nat → Prop} {tr : List (Move Bool K Nat)} {t t' : Tbl K Nat} {x : Thr K Nat}
    {op : Op K Nat} {pc pc' : PC K Nat} (h : Trace E ok tr ⟨t, two x (.busy op pc)⟩)
    (hs : step E op pc t = (t', .cont pc')) (hne : pc' ≠ pc) :
    Trace E ok ((true, none) :: tr) ⟨t', two x (.busy op pc')⟩ := by
  have := CStep.cont (E := E) (ok := ok) (s := ⟨t, two x (.busy op pc)⟩) (i := true) rfl hs
  simp only [set_true] at this
  exact h.cons this fun e => hne (by injection e)

theorem tr_cont' {E : Env K} {ok : Op K Nat → Prop} {tr : List (Move Bool K Nat)} {t t' : Tbl K Nat} {y : Thr K Nat}
    {op : Op K Nat} {pc pc' : PC K Nat} (h : Trace E ok tr ⟨t, two (.busy op pc) y⟩)
    (hs : step E op pc t = (t', .cont pc')) (hne : pc' ≠ pc) :
    Trace E ok ((false, none) :: tr) ⟨t', two (.busy op pc') y⟩ := by
  have := CStep.cont (E := E) (ok := ok) (s := ⟨t, two (.busy op pc) y⟩) (i := false) rfl hs
  simp only [set_false] at this
  exact h.cons this fun e => hne (by injection e)

theorem tr_done {E : Env K} {ok : Op K Nat → Prop} {tr : List (Move Bool K Nat)} {t t' : Tbl K Nat} {x : Thr K Nat}
    {op : Op K Nat} {pc : PC K Nat} {r : Ret K Nat} (h : Trace E ok tr ⟨t, two x (.busy op pc)⟩)
    (hs : step E op pc t = (t', .done r)) :
    Trace E ok ((true, some (.lin true op r)) :: tr) ⟨t', two x (.fin op r)⟩ := by
  have := CStep.done (E := E) (ok := ok) (s := ⟨t, two x (.busy op pc)⟩) (i := true) rfl hs
  simp only [set_true] at this
  exact h.cons this nofun

theorem tr_ret {E : Env K} {ok : Op K Nat → Prop} {tr : List (Move Bool K Nat)} {t : Tbl K Nat} {x : Thr K Nat}
    {op : Op K Nat} {r : Ret K Nat} (h : Trace E ok tr ⟨t, two x (.fin op r)⟩) :
    Trace E ok ((true, some (.ret true op r)) :: tr) ⟨t, two x .idle⟩ := by
  have := CStep.ret (E := E) (ok := ok) (s := ⟨t, two x (.fin op r)⟩) (i := true) rfl
  simp only [set_true] at this
  exact h.cons this nofun

theorem start_in {E : Env K} (hE : E.OK) (k : K) : E.M.remap (E.M.map (E.h k)) < E.M.total := by
  obtain ⟨n, hw⟩ := hE.wf
  cases hc : E.M.cp with
  | true => exact hw.remap_lt_cp hc _
  | false =>
    have := hw.map_lt (hE.hash k)
    rw [Mapper.remap_lin hc, hw.total_eq, hc]
    rw [hw.addr_eq] at this
    simp; omega

theorem load_live {E : Env K} (hE : E.OK) {k : K} {v : Nat} {t : Tbl K Nat}
    (h : t (E.M.remap (E.M.map (E.h k))) = Cell.liveCell k v) :
    step E (.update k (incFn 1)) (.load (E.M.map (E.h k)) 0) t =
      (t, .cont (.act (E.M.map (E.h k)) 0 (Cell.liveCell k v))) := by
  simp [step, start_in hE k, h, afterLoad, Cell.liveCell, Cell.isEmpty, Cell.hasKey]

theorem act_live {E : Env K} (hE : E.OK) (hm : E.m = true) {k : K} {v : Nat} {t : Tbl K Nat}
    (h : t (E.M.remap (E.M.map (E.h k))) = Cell.liveCell k v) :
    step E (.update k (incFn 1)) (.act (E.M.map (E.h k)) 0 (Cell.liveCell k v)) t =
      (t.set (E.M.remap (E.M.map (E.h k))) (Cell.liveCell k (v + 1)),
        .done ⟨some .SUCCESS_UP, some (E.M.remap (E.M.map (E.h k)), Cell.liveCell k (v + 1))⟩) := by
  simp [step, start_in hE k, h, actStep, atomicUpdate, hm, Cell.liveCell, Cell.setMapped, Cell.mapped, incFn]

theorem act_late {E : Env K} (hE : E.OK) (hm : E.m = true) {k : K} {v : Nat} {t : Tbl K Nat}
    (h : t (E.M.remap (E.M.map (E.h k))) = Cell.liveCell k (v + 1)) :
    step E (.update k (incFn 1)) (.act (E.M.map (E.h k)) 0 (Cell.liveCell k v)) t =
      (t, .cont (.load (E.M.map (E.h k)) 0)) := by
  have e : t.set (E.M.remap (E.M.map (E.h k))) (t (E.M.remap (E.M.map (E.h k)))) = t := Tbl.set_self ..
  simp [step, start_in hE k, actStep, atomicUpdate, hm, h, Cell.liveCell]
  rw [h] at e
  exact e

theorem caught_next {E : Env K} (hE : E.OK) (hm : E.m = true) {k : K} {v : Nat} {tr : List (Move Bool K Nat)}
    {t : Tbl K Nat} {s : CSt Bool K Nat} (h : Trace E (incs k) tr s) (hc : Caught E k v t s) :
    ∃ tr' t' s', Trace E (incs k) tr' s' ∧ Caught E k (v + 1) t' s' ∧ mine false tr' = mine false tr + 2 ∧
      others false tr' = others false tr + 1 ∧ tr'.length = tr.length + 6 := by
  obtain ⟨rfl, c1, c2⟩ := hc
  have hset : (t.set (E.M.remap (E.M.map (E.h k))) (Cell.liveCell k (v + 1)))
      (E.M.remap (E.M.map (E.h k))) = Cell.liveCell k (v + 1) := by simp [Tbl.set]
  have t1 := tr_cont' h (load_live hE c1) nofun
  have t2 := tr_call t1 (op := .update k (incFn 1)) (.inr rfl)
  have t3 := tr_cont t2 (load_live hE c1) nofun
  have t4 := tr_done t3 (act_live hE hm c1)
  have t6 := tr_cont' (tr_ret t4) (act_late hE hm hset) nofun
  refine ⟨_, _, _, t6, ⟨rfl, hset, fun p hp => ?_⟩, ?_, ?_, rfl⟩
  · simp only [Tbl.set, if_neg hp]
    exact c2 p hp
  · simp [mine, isCall]
  · simp [others, isCall, isWrite, ReturnCode.successful]
    rfl

theorem caught_first {E : Env K} (hE : E.OK) (k : K) :
    ∃ tr t s, Trace E (incs k) tr s ∧ Caught E k 0 t s ∧ mine false tr = 0 ∧ others false tr = 0 ∧ tr.length = 5 := by
  have hlt := start_in hE k
  have hE0 : (emptyTbl : Tbl K Nat) (E.M.remap (E.M.map (E.h k))) = ⟨false, .empty⟩ := rfl
  have hfar : tooFar E (E.M.remap (E.M.map (E.h k))) = false := by
    obtain ⟨n, hw⟩ := hE.wf
    unfold tooFar
    cases hc : E.M.cp with
    | true => rfl
    | false =>
      have := hw.map_lt (hE.hash k)
      rw [Mapper.remap_lin hc]; simp; omega
  have s1 : step E (.insert k 0) (.load (E.M.map (E.h k)) 0) (emptyTbl : Tbl K Nat) =
      (emptyTbl, .cont (.act (E.M.map (E.h k)) 0 ⟨false, .empty⟩)) := by
    simp [step, hlt, hE0, afterLoad, Cell.isEmpty, hfar]
  have s2 : step E (.insert k 0) (.act (E.M.map (E.h k)) 0 ⟨false, .empty⟩) (emptyTbl : Tbl K Nat) =
      ((emptyTbl : Tbl K Nat).set (E.M.remap (E.M.map (E.h k))) (Cell.liveCell k 0),
        .done ⟨some .SUCCESS_IN, some (E.M.remap (E.M.map (E.h k)), ⟨false, .empty⟩)⟩) := by
    simp [step, hlt, hE0, actStep, casStep]
  have t0 : Trace E (incs k) [] (⟨emptyTbl, two .idle .idle⟩ : CSt Bool K Nat) := by
    have : (⟨emptyTbl, two .idle .idle⟩ : CSt Bool K Nat) = CSt.init := by
      unfold CSt.init; congr; funext b; cases b <;> rfl
    rw [this]; exact .nil
  have t1 := tr_call t0 (op := .insert k 0) (.inl rfl)
  have t2 := tr_cont t1 s1 nofun
  have t4 := tr_ret (tr_done t2 s2)
  have hc := CStep.call (E := E) (ok := incs k)
    (s := ⟨(emptyTbl : Tbl K Nat).set (E.M.remap (E.M.map (E.h k))) (Cell.liveCell k 0), two .idle .idle⟩)
    (i := false) (op := .update k (incFn 1)) rfl (.inr rfl)
  simp only [set_false] at hc
  have t5 := t4.cons (i := false) hc nofun
  refine ⟨_, _, _, t5, ⟨rfl, by simp [Tbl.set], fun p hp => ?_⟩, ?_, ?_, rfl⟩
  · simp only [Tbl.set, if_neg hp]
    rfl
  · simp [mine, isCall]
  · simp [others, isCall]

theorem caught_all {E : Env K} (hE : E.OK) (hm : E.m = true) (k : K) (n : Nat) :
    ∃ tr t s, Trace E (incs k) tr s ∧ Caught E k n t s ∧ mine false tr = 2 * n ∧ others false tr = n ∧
      tr.length = 6 * n + 5 := by
  induction n with
  | zero => exact caught_first hE k
  | succ n ih =>
    obtain ⟨tr, t, s, h1, h2, h3, h4, h5⟩ := ih
    obtain ⟨tr', t', s', g1, g2, g3, g4, g5⟩ := caught_next hE hm h1 h2
    exact ⟨tr', t', s', g1, g2, by omega, by omega, by omega⟩

theorem caught_room {E : Env K} (hE : E.OK) {k : K} {n : Nat} {t : Tbl K Nat} {s : CSt Bool K Nat}
    (h : Caught E k n t s) : Room E t := by
  intro hc
  obtain ⟨-, -, hrest⟩ := h
  obtain ⟨j, hw⟩ := hE.wf
  have hp : 2 ^ 9 ≤ 2 ^ j := Nat.pow_le_pow_right (by omega) hw.1
  have ht : E.M.total = 2 ^ j := by rw [hw.total_eq, hc]; rfl
  by_cases h0 : E.M.remap (E.M.map (E.h k)) = 0
  · exact ⟨1, by omega, hrest 1 (by omega)⟩
  · exact ⟨0, by omega, hrest 0 (by omega)⟩

/-- **C73, limit of the property: updates are not wait-free.**  On a markable table, for every `n` one thread can be
kept in one and the same `update` for `2 * n` steps by `n` successful updates of another thread, although the table
holds a single element. -/
theorem C73_update_starves {E : Env K} (hE : E.OK) (hm : E.m = true) (k : K) (n : Nat) :
    ∃ (tr : List (Move Bool K Nat)) (s : CSt Bool K Nat) (pc : PC K Nat), Trace E (incs k) tr s ∧ Room E s.tbl ∧
      s.thr false = .busy (.update k (incFn 1)) pc ∧ mine false tr = 2 * n ∧ others false tr = n := by
  obtain ⟨tr, t, s, h1, h2, h3, h4, -⟩ := caught_all hE hm k n
  have hr := caught_room hE h2
  obtain ⟨rfl, -, -⟩ := h2
  exact ⟨tr, _, _, h1, hr, rfl, h3, h4⟩

end

/-! ## The hypotheses are met -/

/-- A circular and a linear table: two threads increment the same element; one of them is in the middle of its call
after 200 steps and 100 successful calls of the other.  All bounds apply. -/
theorem C73_not_vacuous (cp : Bool) : ∃ (tr : List (Move Bool Nat Nat)) (s : CSt Bool Nat Nat) (pc : PC Nat Nat),
    Trace (exEnv false cp true) (incs 7) tr s ∧ Room (exEnv false cp true) s.tbl ∧
      s.thr false = .busy (.update 7 (incFn 1)) pc ∧ mine false tr = 200 ∧
      mine false tr ≤ (exEnv false cp true).M.total + 2 * others false tr + 1 ∧
      tr.length ≤ count isCall tr * ((exEnv false cp true).M.total + 2 * count isCall tr + 3) ∧
      (∃ e s', Trace (exEnv false cp true) (incs 7) ((false, e) :: tr) s') := by
  obtain ⟨tr, s, pc, h1, h2, h3, h4, h5⟩ := C73_update_starves (exEnv_ok false cp true) rfl 7 100
  have hb : s.thr false ≠ .idle := by rw [h3]; nofun
  refine ⟨tr, s, pc, h1, h2, h3, h4, C73_lock_free (exEnv_ok _ _ _) h1 h2 hb,
    C73_total_work (exEnv_ok _ _ _) h1 h2, C73_never_blocked (exEnv_ok _ _ _) ?_ h1 hb⟩
  rintro op (rfl | rfl) <;> simp [Op.isSafe]

/-- A lookup in the middle of its call, and a run that is long enough for calls to have returned. -/
theorem C73_more_not_vacuous (cp : Bool) :
    (∃ (tr : List (Move Bool Nat Nat)) (s : CSt Bool Nat Nat) (pc : PC Nat Nat),
      Trace (exEnv false cp true) (fun _ => True) tr s ∧ Room (exEnv false cp true) s.tbl ∧
      s.thr true = .busy (.find 7) pc ∧ mine true tr ≤ (exEnv false cp true).M.total) ∧
    ∃ (tr : List (Move Bool Nat Nat)) (s : CSt Bool Nat Nat), Trace (exEnv false cp true) (incs 7) tr s ∧
      Room (exEnv false cp true) s.tbl ∧ 3 < count isRet tr := by
  have hok : ∀ {tr : List (Move Bool Nat Nat)} {s : CSt Bool Nat Nat}, Trace (exEnv false cp true) (incs 7) tr s →
      Trace (exEnv false cp true) (fun _ => True) tr s := by
    intro tr s h
    induction h with
    | nil => exact .nil
    | cons h hs hi ih =>
      refine ih.cons ?_ hi
      cases hs with
      | call h _ => exact .call h trivial
      | cont h hs => exact .cont h hs
      | done h hs => exact .done h hs
      | ret h => exact .ret h
  constructor
  · obtain ⟨tr, t, s, h1, h2, h3, h4, -⟩ := caught_all (exEnv_ok false cp true) rfl 7 100
    have hr := caught_room (exEnv_ok _ _ _) h2
    obtain ⟨rfl, -, -⟩ := h2
    have h5 := tr_call (hok h1) (op := .find 7) trivial
    exact ⟨_, _, _, h5, hr, rfl,
      C73_lookup_wait_free (exEnv_ok _ _ _) h5 hr (op := .find 7) (.inl ⟨7, rfl⟩) (.inl ⟨_, rfl⟩)⟩
  · obtain ⟨tr, t, s, h1, h2, h3, h4, h5⟩ := caught_all (exEnv_ok false cp true) rfl 7 2000
    have hr := caught_room (exEnv_ok _ _ _) h2
    obtain ⟨rfl, -, -⟩ := h2
    refine ⟨tr, _, h1, hr, C73_calls_return (exEnv_ok _ _ _) h1 hr (L := [false, true]) (by decide) ?_ ?_⟩
    · rintro ⟨b, e⟩ -; cases b <;> simp
    · obtain ⟨n, hw⟩ := (exEnv_ok false cp true).wf
      have : (exEnv false cp true).M.total ≤ 1536 := by
        cases cp <;> decide +kernel
      simp only [List.length_cons, List.length_nil]
      omega

end Progress
end Growt
