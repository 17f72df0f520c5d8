import Verif.SeqTrace

/-!
# Properties of a bounded table used by one thread (C01, C09, C11, C12, C13, C52)
-/

set_option linter.unusedSectionVars false

namespace Growt
section
variable {K V : Type} [DecidableEq K] [DecidableEq V] [Inhabited V]

/-- **C01.**  Every finite sequence of calls on a newly constructed bounded table ends without
leaving the allocation, and its results are those of an ideal map starting empty (insertions of
absent keys may be refused as full); the table finally stores exactly that map.  With linear
probing there is no restriction; with circular probing the number of insertion calls must be
smaller than the number of slots. -/
theorem C01_bounded_table_is_map {E : Env K} (hE : E.OK) (ops : List (Op K V))
    (hfew : E.M.cp = true → insertCalls ops < E.M.total) :
    ∃ l t' d', runOps E ops emptyTbl = some (l, t') ∧ l.map Prod.fst = ops ∧
      Explained E.m (fun _ => none) l d' ∧ Stores E t' d' := by
  obtain ⟨l, t', d', h1, h2, h3, h4, -⟩ := runOps_good hE ops emptyTbl (fun _ => none)
    (Inv.emptyTbl E) (fun _ => rfl) (Stores.emptyTbl E)
    (by intro hc; rw [occupied_empty]; simpa using hfew hc)
  exact ⟨l, t', d', h1, h2, h3, h4⟩

/-- **C01 without restriction on the number of calls**: in every mode, whatever calls have returned on
a newly constructed table, their results are those of an ideal map, and no further call leaves the
allocation, however long it runs. -/
theorem C01_every_returned_call {E : Env K} (hE : E.OK) {l : List (Op K V × Ret K V)} {t : Tbl K V}
    (h : Returned E emptyTbl l t) :
    (∃ d, Explained E.m (fun _ => none) l d ∧ Stores E t d) ∧
    ∀ op fuel, run E op fuel (start E op) t ≠ .oob := by
  obtain ⟨d, h1, h2, h3, -⟩ := h.good hE (fun _ => none) (Inv.emptyTbl E) (fun _ => rfl)
    (Stores.emptyTbl E)
  refine ⟨⟨d, h1, h2⟩, fun op fuel => ?_⟩
  rcases run_any (op := op) hE h3 fuel _ 0 (Passed.start _ _ _) with h0 | ⟨a, b, h0, -⟩ <;>
    rw [start, h0] <;> simp

/-- **C12.**  With circular probing every operation ends (within `total + 2` slot accesses) as long
as one slot is empty - and so it does, unconditionally, with linear probing. -/
theorem C12_terminates_with_room {E : Env K} (hE : E.OK) {t : Tbl K V} (hI : Inv E t)
    (hroom : E.M.cp = true → ∃ p, p < E.M.total ∧ (t p).c = .empty) (op : Op K V) :
    ∃ t' r, run E op (E.M.total + 2) (start E op) t = .done t' r := by
  obtain ⟨t', r, h, -⟩ := runStart_good (op := op) hE hI hroom
  exact ⟨t', r, h⟩

/-- **C12, limit of the property**: when every slot is occupied, a search for an absent key never
ends (with circular probing). -/
theorem C12_full_table_diverges {E : Env K} (hE : E.OK) (hc : E.M.cp = true) {t : Tbl K V}
    (hfull : ∀ p, p < E.M.total → (t p).c ≠ .empty) {k : K}
    (habs : ∀ p v, p < E.M.total → (t p).c ≠ .live k v) :
    ∀ fuel pc, pc = start E (Op.find k) ∨ (∃ i a, pc = .load i a) →
      run E (Op.find k : Op K V) fuel pc t = .timeout := by
  obtain ⟨n, hw⟩ := hE.wf
  intro fuel
  induction fuel with
  | zero => intro pc _; rfl
  | succ fuel ih =>
    intro pc hpc
    have : ∃ i a, pc = .load i a := by
      rcases hpc with h | h
      · exact ⟨_, _, h⟩
      · exact h
    obtain ⟨i, a, rfl⟩ := this
    have hlt := hw.remap_lt_cp hc i
    have h1 : (t (E.M.remap i)).isEmpty = false := by
      cases h : (t (E.M.remap i)).isEmpty
      · rfl
      · exact absurd (Cell.isEmpty_iff.1 h) (hfull _ hlt)
    have h2 : (t (E.M.remap i)).hasKey k = false := by
      cases h : (t (E.M.remap i)).hasKey k
      · rfl
      · obtain ⟨v, hv⟩ := Cell.hasKey_iff.1 h
        exact absurd hv (habs _ v hlt)
    simp only [run, step, hlt, if_true, afterLoad, h1, h2, Bool.false_eq_true, if_false]
    exact ih _ (.inr ⟨_, _, rfl⟩)

/-- **C13.**  A bounded table refuses an insertion only with linear probing and only if all of the
302 slots from `addressable - 1` to `addressable + 300` are occupied; the refused call has no
effect and its key is absent. -/
theorem C13_full_only_when_crowded {E : Env K} (hE : E.OK) {t t' : Tbl K V} (hI : Inv E t)
    (hroom : HasRoom E t) {op : Op K V} {r : Ret K V}
    (hrun : run E op (E.M.total + 2) (start E op) t = .done t' r)
    (hr : r.code = some .UNSUCCESS_FULL) :
    t' = t ∧ (∀ d : Dict K V, Stores E t d → d op.key = none) ∧ E.M.cp = false ∧
      ∀ p, E.M.addr - 1 ≤ p → p ≤ E.M.addr + 300 → (t p).c ≠ .empty := by
  obtain ⟨t1, r1, hrun1, -, pc, hpc, hsafe, hstep⟩ := runStart_good (op := op) hE hI hroom
  rw [enough, hrun] at hrun1
  injection hrun1 with e1 e2
  subst e1; subst e2
  exact step_full hE hI hpc hstep hr

/-- **C09 (violated by the code).**  After every successful `insert` the returned iterator does
point to the slot of the new element, but the copy it carries (and shows) is the empty slot that
was there before, so dereferencing it never shows the inserted value. -/
theorem C09_insert_iterator_shows_empty_slot {E : Env K} (hE : E.OK) {t t' : Tbl K V}
    (hI : Inv E t) (hroom : HasRoom E t) {k : K} {d : V} {r : Ret K V}
    (hrun : run E (.insert k d) (E.M.total + 2) (start E (.insert k d)) t = .done t' r)
    (hok : r.ok (.insert k d) = true) :
    r.shown = none ∧ ∃ p c, r.it = some (p, c) ∧ c.c = .empty ∧ t' p = ⟨false, .live k d⟩ := by
  obtain ⟨t1, r1, hrun1, -, pc, hpc, hsafe, hstep⟩ := runStart_good (op := .insert k d) hE hI hroom
  rw [enough, hrun] at hrun1
  injection hrun1 with e1 e2
  subst e1; subst e2
  cases pc with
  | load i att =>
    exfalso
    revert hstep
    simp only [step]
    split
    · intro hs
      have ho := congrArg Prod.snd hs
      revert ho
      simp only [afterLoad, retEnd]
      (repeat' split) <;> intro ho <;> cases ho <;>
        simp [Ret.ok, ReturnCode.successful, ReturnCode.toNat] at hok
    · intro hs; cases congrArg Prod.snd hs
  | act i att curr =>
    have hc := hpc.2.1.2.1
    simp only [step] at hstep
    split at hstep
    · simp only [actStep, casStep] at hstep
      split at hstep
      · cases hstep
        refine ⟨by simp [Ret.shown, Cell.val?, hc], _, _, rfl, hc, by simp [Tbl.set, Cell.liveCell]⟩
      · cases hstep
    · cases hstep

/-- **C09 holds for `insert_or_update`** (partial: the property asks it of every inserting call):
after `insert_or_update` reported an insertion its iterator shows the inserted value. -/
theorem C09_insert_or_update_iterator_partial {E : Env K} (hE : E.OK) {t t' : Tbl K V}
    (hI : Inv E t) (hn : NoMarks t) (hroom : HasRoom E t) {k : K} {d : V} {f : UpdFn V}
    {r : Ret K V} {dict : Dict K V} (hs : Stores E t dict)
    (hrun : run E (.insertOrUpdate k d f) (E.M.total + 2) (start E (.insertOrUpdate k d f)) t =
      .done t' r)
    (hok : r.ok (.insertOrUpdate k d f) = true) :
    r.shown = some d ∧ dict k = none ∧ Stores E t' (dict.put k d) := by
  obtain ⟨t1, r1, hrun1, -, pc, hpc, hsafe, hstep⟩ :=
    runStart_good (op := .insertOrUpdate k d f) hE hI hroom
  rw [enough, hrun] at hrun1
  injection hrun1 with e1 e2
  subst e1; subst e2
  have hg := step_good hE hI hpc hsafe
  rw [hstep] at hg
  obtain ⟨-, -, hd⟩ := hg
  cases hd with
  | invalid hr' ht hm => obtain ⟨p, _, hp⟩ := hm; rw [hn p] at hp; cases hp
  | refused c hc hr' ht habs => rw [hr'] at hok; simp [Ret.ok, Op.mayRefuse] at hok hc; simp [hok] at hc
  | effect h =>
    obtain ⟨h1, h2, h3⟩ := h dict hs
    simp only [reduceCtorEq, exists_false, false_and, false_or] at h3
    rw [hok] at h2
    cases hd : dict k with
    | none =>
      simp only [Op.toSpec, SOp.sem, hd] at h1 h2 h3
      exact ⟨h3, rfl, h1⟩
    | some w => simp [Op.toSpec, SOp.sem, hd] at h2

/-- Two runs end in the same way: both with the same table and return code (and the same visible
value, if `P`), or both out of bounds, or both not yet. (specification, no code) -/
inductive SameEnd (P : Prop) : RunRes K V → RunRes K V → Prop where
  | timeout : SameEnd P .timeout .timeout
  | oob : SameEnd P .oob .oob
  | done (t : Tbl K V) (r1 r2 : Ret K V) (hc : r1.code = r2.code) (hs : P → r1.shown = r2.shown) :
      SameEnd P (.done t r1) (.done t r2)

theorem unsafe_act_same {E : Env K} {t : Tbl K V} {k : K} {f : UpdFn V} {p : Nat}
    (hf : ∀ w, (f.eff E.m w).1 = f.upd w) (hk : (t p).hasKey k = true) :
    (atomicUpdate E.m k (t p) (t p) f).2.2 = true ∧
    (atomicUpdate E.m k (t p) (t p) f).1 = (nonAtomicUpdate k (t p) f).1 ∧
    ((∀ w, (f.eff E.m w).2 = f.ret w) →
      (atomicUpdate E.m k (t p) (t p) f).2.1.val? = (nonAtomicUpdate k (t p) f).2.val?) := by
  obtain ⟨w, hw⟩ := Cell.hasKey_iff.1 hk
  have hfw := hf w
  unfold atomicUpdate nonAtomicUpdate
  cases hm : E.m with
  | true =>
    refine ⟨by simp, by simp, fun h => ?_⟩
    have := h w
    simp [UpdFn.eff] at this
    simp [Cell.setMapped, Cell.mapped, hw, Cell.val?, Cell.liveCell, this]
  | false =>
    cases ha : f.atomic with
    | some g =>
      simp only [UpdFn.eff, hm, ha, Bool.false_eq_true, if_false] at hfw
      refine ⟨by simp, by simp [Cell.mapped, hw, hfw], fun h => ?_⟩
      have := h w
      simp only [UpdFn.eff, ha, Bool.false_eq_true, if_false] at this
      simp [Cell.mapped, hw, Cell.val?, Cell.liveCell, this]
    | none =>
      refine ⟨by simp, by simp, fun h => ?_⟩
      have := h w
      simp only [UpdFn.eff, ha, Bool.false_eq_true, if_false] at this
      simp [Cell.mapped, hw, Cell.val?, Cell.liveCell, this]

/-- **C52.**  Without concurrency `update_unsafe` behaves exactly like `update`, on every table
(whatever its contents and geometry): same final slots, same return code - provided the functor's
atomic variant (if any) has the same effect as the functor - and the same visible value when the
functor returns what the atomic path shows. -/
theorem C52_update_unsafe_like_update (E : Env K) (t : Tbl K V) (k : K) (f : UpdFn V)
    (hf : ∀ w, (f.eff E.m w).1 = f.upd w) (fuel i att : Nat) :
    SameEnd (∀ w, (f.eff E.m w).2 = f.ret w)
      (run E (.update k f) fuel (.load i att) t) (run E (.updateUnsafe k f) fuel (.load i att) t) := by
  induction fuel generalizing i with
  | zero => exact .timeout
  | succ n ih =>
    by_cases hlt : E.M.remap i < E.M.total
    · cases hm : (t (E.M.remap i)).marked <;> cases he : (t (E.M.remap i)).isEmpty <;>
        cases hk : (t (E.M.remap i)).hasKey k <;>
        simp only [run, step, hlt, if_true, if_false, afterLoad, hm, he, hk, retEnd,
          Bool.false_eq_true] <;>
        first
        | exact ih _
        | exact .done _ _ _ rfl (fun _ => rfl)
        | skip
      cases n with
      | zero => exact .timeout
      | succ n =>
        obtain ⟨h1, h2, h3⟩ := unsafe_act_same hf hk
        simp only [run, step, hlt, if_true, actStep, h1, h2]
        exact .done _ _ _ rfl (fun h => by simpa [Ret.shown] using h3 h)
    · simp only [run, step, hlt, if_false]
      exact .oob

/-- **C52**, the same for `insert_or_update_unsafe` and `insert_or_update`. -/
theorem C52_insert_or_update_unsafe_like_insert_or_update (E : Env K) (t : Tbl K V) (k : K)
    (v : V) (f : UpdFn V) (hf : ∀ w, (f.eff E.m w).1 = f.upd w) (fuel i att : Nat) :
    SameEnd (∀ w, (f.eff E.m w).2 = f.ret w)
      (run E (.insertOrUpdate k v f) fuel (.load i att) t)
      (run E (.insertOrUpdateUnsafe k v f) fuel (.load i att) t) := by
  induction fuel generalizing i with
  | zero => exact .timeout
  | succ n ih =>
    by_cases hlt : E.M.remap i < E.M.total
    · cases hm : (t (E.M.remap i)).marked <;> cases he : (t (E.M.remap i)).isEmpty <;>
        cases hk : (t (E.M.remap i)).hasKey k <;> cases htf : tooFar E (E.M.remap i) <;>
        simp only [run, step, hlt, if_true, if_false, afterLoad, hm, he, hk, retEnd,
          Bool.false_eq_true, htf] <;>
        first
        | exact ih _
        | exact .done _ _ _ rfl (fun _ => rfl)
        | skip
      all_goals
        cases n with
        | zero => exact .timeout
        | succ n =>
          first
          | (obtain ⟨h1, h2, h3⟩ := unsafe_act_same hf hk
             simp only [run, step, hlt, if_true, actStep, he, Bool.false_eq_true, if_false, h1, h2]
             exact .done _ _ _ rfl (fun h => by simpa [Ret.shown] using h3 h))
          | (simp only [run, step, hlt, if_true, actStep, he, casStep]
             exact .done _ _ _ rfl (fun _ => rfl))
    · simp only [run, step, hlt, if_false]
      exact .oob

/-! ## The hypotheses are satisfiable -/

/-- A default table (linear mapping and probing) with 512 addressable slots. (example, no code) -/
def exEnv (cm cp m : Bool) : Env Nat where
  M := Mapper.mk' cm cp (2 ^ 9) 0
  h := fun k => k * 36028797018963968 % 2 ^ 64   -- key k has home slot k (linear mapping)
  m := m

theorem exEnv_ok (cm cp m : Bool) : (exEnv cm cp m).OK :=
  ⟨⟨9, Mapper.wf_mk' (by omega) (by omega)⟩, fun _ => Nat.mod_lt _ (by decide)⟩

/-- The increment functor of `example/update_fcts.hpp:16-26` (adding `n`): `operator()` returns the
new value, `atomic` returns the value before (`fetch_add`). -/
def incFn (n : Nat) : UpdFn Nat := ⟨(· + n), (· + n), some fun w => (w + n, w)⟩

/-- C01: a run with colliding keys, updates and erasures. -/
example : ∃ l t' d', runOps (exEnv false false true)
    [.insert 3 30, .insert 515 40, .update 3 (incFn 5), .erase 3, .insert 3 31, .find 515]
    emptyTbl = some (l, t') ∧ l.map Prod.fst = [.insert 3 30, .insert 515 40, .update 3 (incFn 5),
      .erase 3, .insert 3 31, .find 515] ∧
    Explained true (fun _ => none) l d' ∧ Stores (exEnv false false true) t' d' :=
  C01_bounded_table_is_map (exEnv_ok _ _ _) _ (by simp [exEnv])

/-- C01, second part: a call that returned. -/
example : ∃ t r, Returned (exEnv true true false) (emptyTbl : Tbl Nat Nat) [(.insert 3 30, r)] t := by
  obtain ⟨t', r, h⟩ := C12_terminates_with_room (exEnv_ok true true false) (Inv.emptyTbl _)
    (fun _ => ⟨0, by simp [exEnv, Mapper.mk', Mapper.total], rfl⟩) (.insert 3 30 : Op Nat Nat)
  exact ⟨t', r, .call _ h (.nil _)⟩

/-- C12: an empty circular table has room. -/
example : ∃ t' r, run (exEnv true true false) (Op.find 7 : Op Nat Nat)
    ((exEnv true true false).M.total + 2) (start (exEnv true true false) (.find 7)) emptyTbl =
      .done t' r :=
  C12_terminates_with_room (exEnv_ok _ _ _) (Inv.emptyTbl _)
    (fun _ => ⟨0, by simp [exEnv, Mapper.mk', Mapper.total], rfl⟩) _

/-- C12, limit: a table all of whose slots hold other keys. -/
example : run (exEnv true true false) (Op.find 7 : Op Nat Nat) 100000
    (start (exEnv true true false) (.find 7)) (fun p => ⟨false, .live (p + 8) 0⟩) = .timeout :=
  C12_full_table_diverges (exEnv_ok _ _ _) rfl (by simp) (by simp) _ _ (.inl rfl)

theorem exEnv_lin_eq (m : Bool) : exEnv false false m =
    ⟨⟨false, false, 1536, 55, 0⟩, fun k => k * 36028797018963968 % 2 ^ 64, m⟩ := by
  have : logLoop 512 = 9 := logLoop_two_pow 9
  simp [exEnv, Mapper.mk', computeRightShift, this, lpBuffer]

/-- C13: a table in which the last 302 admissible slots are occupied refuses the key 511. -/
example : (match run (exEnv false false false) (Op.insert 511 0 : Op Nat Nat)
      ((exEnv false false false).M.total + 2) (start (exEnv false false false) (.insert 511 0))
      (fun p => if 511 ≤ p ∧ p ≤ 812 then ⟨false, .deleted 0⟩ else ⟨false, .empty⟩) with
      | .done _ r => decide (r.code = some .UNSUCCESS_FULL)
      | _ => false) = true := by
  rw [exEnv_lin_eq]
  decide +kernel

/-- C09: an insertion into the empty table succeeds, and so does an insert_or_update. -/
example : (match run (exEnv false false false) (Op.insert 5 50 : Op Nat Nat)
      ((exEnv false false false).M.total + 2) (start (exEnv false false false) (.insert 5 50))
      emptyTbl with
      | .done _ r => r.ok (.insert 5 50 : Op Nat Nat)
      | _ => false) = true ∧
    (match run (exEnv false false false) (Op.insertOrUpdate 5 50 (incFn 1) : Op Nat Nat)
      ((exEnv false false false).M.total + 2)
      (start (exEnv false false false) (.insertOrUpdate 5 50 (incFn 1))) emptyTbl with
      | .done _ r => r.ok (.insertOrUpdate 5 50 (incFn 1) : Op Nat Nat)
      | _ => false) = true := by
  rw [exEnv_lin_eq]
  decide +kernel

/-- C52: the increment functor has an atomic member with the same effect on the element. -/
example (m : Bool) : ∀ w, ((incFn 3).eff m w).1 = (incFn 3).upd w := by
  intro w; cases m <;> rfl

end
end Growt
