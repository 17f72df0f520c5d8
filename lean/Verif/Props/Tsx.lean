import Verif.TsxInv

/-!
# C61: the table with hardware transactions is linearizable
-/

set_option linter.unusedSectionVars false

namespace Growt.Tsx

variable {T K V : Type} [DecidableEq T] [DecidableEq K] [DecidableEq V] [Inhabited V]

/-- Was the call executed by a transaction that committed?  The code of its result says so: bit 10
(`returnelement.hpp:41-49`). (specification) -/
def Ret.committed (r : Ret K V) : Bool :=
  match r.code with
  | some c => c.toNat / 2 ^ 10 % 2 == 1
  | none => false

/-- What a call means on an ideal map.  An update shows the new value if it was executed with compare-and-swap, and
what the functor returned if its transaction committed (`tsx_circular.hpp:470-474, 503-506`). (specification) -/
def Call.meaning (tx : Bool) : Call K V → SOp K V
  | .find k => .find k
  | .insert k d => .insert k d
  | .update k f => .modify k fun w => (f.upd w, if tx then f.ret w else f.upd w)
  | .insertOrUpdate k d f => .insertOrModify k d fun w => (f.upd w, if tx then f.ret w else f.upd w)
  | .erase k => .erase k

/-- The meanings of a call, whether or not its transaction commits. (specification, no code) -/
def Call.meanings : Call K V → List (SOp K V)
  | .find k => [.find k]
  | .insert k d => [.insert k d]
  | .update k f => [.modify k fun w => (f.upd w, f.upd w), .modify k fun w => (f.upd w, f.ret w)]
  | .insertOrUpdate k d f =>
    [.insertOrModify k d fun w => (f.upd w, f.upd w), .insertOrModify k d fun w => (f.upd w, f.ret w)]
  | .erase k => [.erase k]

omit [Inhabited V] in
theorem Call.meaning_mem (op : Call K V) (tx : Bool) : op.meaning tx ∈ op.meanings := by
  cases op <;> cases tx <;> simp [Call.meaning, Call.meanings]

/-- The sequential object: an ideal map that starts empty; no call is ever refused.  The result and the new contents
are determined by the contents and by whether the transaction committed. (specification, no code) -/
def idealObj : Obj (Call K V) (Ret K V) (Dict K V) where
  init := fun _ => none
  legal d op r d' := d' = ((op.meaning r.committed).sem d).1 ∧ r.ok op = ((op.meaning r.committed).sem d).2.ok ∧
    r.shown = ((op.meaning r.committed).sem d).2.shown

omit [Inhabited V] in
theorem legal_any {d d' : Dict K V} {op : Call K V} {r : Ret K V} (h : idealObj.legal d op r d') :
    ∃ o ∈ op.meanings, d' = (o.sem d).1 ∧ r.ok op = (o.sem d).2.ok ∧ r.shown = (o.sem d).2.shown :=
  ⟨_, op.meaning_mem _, h⟩

/-- A transaction that commits gives a code with bit 10. -/
theorem body_committed {Q : Tab K} {op : Call K V} {t t' : Tbl K V} {r : Ret K V} (n : Nat) :
    ∀ i, body Q op n i t = some (t', r) → r.committed = true := by
  induction n with
  | zero => intro i h; simp [body] at h
  | succ n ih =>
    intro i h
    cases op <;> simp only [body] at h
    case find => cases h
    case erase => cases h
    all_goals
      split at h
      · cases h; rfl
      · split at h
        · cases h; rfl
        · split at h
          · cases h; rfl
          · exact ih _ h

/-- The versions with compare-and-swap give other codes. -/
theorem step_committed {Q : Tab K} {op : Call K V} {pc : PC K V} {t t' : Tbl K V} {r : Ret K V}
    (h : step Q op pc t = (t', .done r)) : r.committed = false := by
  have hc : ∀ {i p : Nat} {curr new : Cell K V} {r0 : Ret K V} {x : Tbl K V × Out K V}, cas t i p curr new r0 = x →
      r0.committed = false → x = (t', .done r) → r.committed = false := by
    intro i p curr new r0 x h1 h2 h3
    subst h1
    unfold cas at h3
    split at h3
    · cases h3; exact h2
    · cases h3
  cases pc with
  | begin => simp [step] at h
  | load i =>
    simp only [step, Prod.mk.injEq] at h
    obtain ⟨-, h⟩ := h
    cases op <;> simp only [afterLoad] at h <;> (repeat' split at h) <;> (first | (cases h; rfl) | cases h)
  | act i curr =>
    cases op <;> simp only [step, change] at h
    case find => simp at h
    case insert => exact hc rfl rfl h
    case erase => exact hc rfl rfl h
    case update =>
      rw [Prod.mk.injEq] at h
      obtain ⟨-, h⟩ := h
      split at h
      · cases h; rfl
      · cases h
    case insertOrUpdate =>
      split at h
      · rw [Prod.mk.injEq] at h
        obtain ⟨-, h⟩ := h
        split at h
        · cases h; rfl
        · cases h
      · exact hc rfl rfl h

theorem Effect.legal {Q : Tab K} {op : Call K V} {o : Op K V} {t t' : Tbl K V} {r : Ret K V}
    (ho : o = if r.committed then op.toTx else op.toOp)
    (h : Effect Q op o t t' r) {d : Dict K V} (hd : Stores Q.env t d) :
    ∃ d', Stores Q.env t' d' ∧ idealObj.legal d op r d' := by
  obtain ⟨h1, h2, h3⟩ := h d hd
  have e1 : ∀ f : UpdFn V, f.eff true = fun w => (f.upd w, f.upd w) := fun f => funext fun w => by simp [UpdFn.eff]
  have e2 : ∀ f : UpdFn V, f.effUnsafe = fun w => (f.upd w, f.ret w) := fun f => rfl
  have e : o.toSpec true = op.meaning r.committed := by
    subst ho
    cases r.committed <;> cases op <;> simp [Call.meaning, Call.toOp, Call.toTx, Op.toSpec, e1, e2]
  rw [e] at h1 h2 h3
  exact ⟨_, h1, rfl, h2, h3⟩

/-- What a thread is doing, for the specification. (specification, no code) -/
def Thr.phase : Thr K V → Phase (Call K V) (Ret K V)
  | .idle => .idle
  | .busy op _ => .called op
  | .fin op r => .effected op r

theorem Step.wellFormed {Q : Tab K} {s s' : St T K V} {e : TEv T K V} (hs : Step Q s (some e) s') :
    WellFormed (fun i => (s.thr i).phase) [e] (fun i => (s'.thr i).phase) := by
  cases hs with
  | @call i op h =>
    exact .call (by simp [h, Thr.phase]) (by simp [Thr.phase, setAt])
      (fun j hj => by simp [setAt_other hj]) (.nil _)
  | @commit i op n t' r h hs =>
    exact .lin (by simp [h, Thr.phase]) (by simp [Thr.phase, setAt])
      (fun j hj => by simp [setAt_other hj]) (.nil _)
  | @done i op pc t' r h hs =>
    exact .lin (by simp [h, Thr.phase]) (by simp [Thr.phase, setAt])
      (fun j hj => by simp [setAt_other hj]) (.nil _)
  | @ret i op r h =>
    exact .ret (by simp [h, Thr.phase]) (by simp [Thr.phase, setAt])
      (fun j hj => by simp [setAt_other hj]) (.nil _)

theorem Step.silent {Q : Tab K} (hQ : Q.OK) {s s' : St T K V} (I : SInv Q s) (hs : Step Q s none s') :
    s'.tbl = s.tbl ∧ ∀ i, (s'.thr i).phase = (s.thr i).phase := by
  cases hs with
  | @cont j op pc pc' t' h hs =>
    have hi := I.thr j
    rw [h] at hi
    obtain ⟨-, -, -, g4⟩ := step_good' hQ I.inv I.nomarks hi
    rw [hs] at g4
    refine ⟨g4.1, fun i => ?_⟩
    by_cases hj : i = j
    · subst hj; simp [h, Thr.phase, setAt]
    · simp [setAt_other hj]

theorem Step.lin_legal {Q : Tab K} (hQ : Q.OK) {s s' : St T K V} (I : SInv Q s) {i : T} {op : Call K V}
    {r : Ret K V} (hs : Step Q s (some (.lin i op r)) s') {d : Dict K V} (hd : Stores Q.env s.tbl d) :
    ∃ d', Stores Q.env s'.tbl d' ∧ idealObj.legal d op r d' := by
  cases hs with
  | @commit _ _ n t' _ h hb =>
    have hp : Passed Q.env s.tbl op.key (Q.home op.key) := by rw [Q.home_eq]; exact Passed.start _ _ _
    obtain ⟨-, -, -, b4⟩ := body_good hQ I.inv I.nomarks n _ hp hb
    exact b4.legal (by rw [body_committed n _ hb]; rfl) hd
  | @done _ _ pc t' _ h hs =>
    have hi := I.thr i
    rw [h] at hi
    obtain ⟨-, -, -, g4⟩ := step_good' hQ I.inv I.nomarks hi
    rw [hs] at g4
    exact Effect.legal (by rw [step_committed hs]; rfl) g4 hd

theorem exec_explained {Q : Tab K} (hQ : Q.OK) {l : List (TEv T K V)} {s : St T K V}
    (h : Exec (Step Q) St.init l s) :
    WellFormed (fun _ => .idle) l (fun i => (s.thr i).phase) ∧
    ∃ d, Legal idealObj (fun _ => none) (effects l) d ∧ Stores Q.env s.tbl d := by
  induction h with
  | init => exact ⟨.nil _, _, .nil _, Stores.emptyTbl _⟩
  | @silent l s s' h hs ih =>
    obtain ⟨hw, d, hl, hd⟩ := ih
    obtain ⟨h1, h2⟩ := hs.silent hQ (SInv.reach hQ h)
    refine ⟨?_, d, hl, by rw [h1]; exact hd⟩
    rw [show (fun i => (s'.thr i).phase) = fun i => (s.thr i).phase from funext h2]
    exact hw
  | @vis l s s' e h hs ih =>
    obtain ⟨hw, d, hl, hd⟩ := ih
    have I := SInv.reach hQ h
    refine ⟨hw.append hs.wellFormed, ?_⟩
    rw [effects_append]
    cases e with
    | lin i op r =>
      obtain ⟨d', hd', hleg⟩ := hs.lin_legal hQ I hd
      exact ⟨d', hl.append (.cons hleg (.nil _)), hd'⟩
    | call i op => cases hs; exact ⟨d, by simpa [effects] using hl, hd⟩
    | ret i op r => cases hs; exact ⟨d, by simpa [effects] using hl, hd⟩

/-- **C61.**  Any number of threads, each call being executed by a transaction that commits or, after an abort at any
time, with compare-and-swap, in any interleaving (no migration): every history is linearizable with respect to an
ideal map, including the value that the iterator of an insertion shows. -/
theorem C61_linearizable {Q : Tab K} (hQ : Q.OK) {l : List (TEv T K V)} {s : St T K V}
    (h : Exec (Step Q) St.init l s) : Linearizable idealObj (visible l) := by
  obtain ⟨hw, d, hl, -⟩ := exec_explained hQ h
  exact ⟨l, _, d, rfl, hw, hl⟩

/-- **C61, contents.**  At every time the table holds exactly the elements of the ideal map after the effects so far. -/
theorem C61_contents {Q : Tab K} (hQ : Q.OK) {l : List (TEv T K V)} {s : St T K V}
    (h : Exec (Step Q) St.init l s) :
    ∃ d, Legal idealObj (fun _ => none) (effects l) d ∧
      ∀ k v, d k = some v ↔ ∃ p, p < 2 ^ Q.k ∧ (s.tbl p).c = .live k v := by
  obtain ⟨-, d, hl, hd⟩ := exec_explained hQ h
  refine ⟨d, hl, fun k v => ?_⟩
  have := hd k v
  rwa [Q.total_eq] at this

/-- **C61, bounds.**  No access is outside of the allocation. -/
theorem C61_in_bounds (Q : Tab K) (i : Nat) : Q.pos i < 2 ^ Q.k := Q.pos_lt i

/-- **Limit.**  A full table is never reported as full: no transaction of a call with an absent key ends, and the
versions without transaction probe for ever. -/
theorem C61_full_table_never_ends {Q : Tab K} {op : Call K V} {t : Tbl K V} (hm : NoMarks t)
    (hf : ∀ p, p < 2 ^ Q.k → (t p).c ≠ .empty ∧ ∀ v, (t p).c ≠ .live op.key v) (i : Nat) :
    (∀ n, body Q op n i t = none) ∧ step Q op (.load i) t = (t, .cont (.load (i + 1))) := by
  have hk : ∀ i, (t (Q.pos i)).marked = false ∧ (t (Q.pos i)).isEmpty = false ∧
      (t (Q.pos i)).hasKey op.key = false := by
    intro i
    obtain ⟨h1, h2⟩ := hf _ (Q.pos_lt i)
    refine ⟨hm _, ?_, ?_⟩
    · cases hb : (t (Q.pos i)).isEmpty with
      | false => rfl
      | true => exact absurd (Cell.isEmpty_iff.1 hb) h1
    · cases hb : (t (Q.pos i)).hasKey op.key with
      | false => rfl
      | true => obtain ⟨v, hv⟩ := Cell.hasKey_iff.1 hb; exact absurd hv (h2 v)
  constructor
  · intro n
    induction n generalizing i with
    | zero => rfl
    | succ n ih =>
      obtain ⟨h1, h2, h3⟩ := hk i
      cases op <;> simp only [Call.key] at h3 <;> simp [body, h1, h2, h3, ih]
  · obtain ⟨h1, h2, h3⟩ := hk i
    cases op <;> simp only [Call.key] at h3 <;> simp [step, afterLoad, h1, h2, h3]

/-! ## The hypotheses can be met -/

/-- 4096 slots, hash = key. (example, no code) -/
def exQ : Tab Nat := ⟨12, fun x => x % 2 ^ 64⟩

theorem exQ_ok : exQ.OK := ⟨by decide, by decide, fun x => Nat.mod_lt _ (by decide)⟩

/-- An insertion whose transaction commits, while the insertion of the same key by another thread, whose transaction
was aborted, is before its compare-and-swap; this then fails, and the other value is found. -/
example : ∃ l, ∃ s : St Bool Nat Nat, Exec (Step exQ) St.init l s ∧
    effects l = [(.insert 7 70, ⟨some .TSX_SUCCESS_IN, some (0, 7, 70)⟩),
      (.insert 7 71, ⟨some .UNSUCCESS_ALREADY_USED, some (0, 7, 70)⟩)] := by
  have hh : exQ.home 7 = 0 := by
    have : computeRightShift (2 ^ 12) = 52 := by decide +kernel
    simp only [Tab.home, exQ, this]; decide
  have hp : exQ.pos 0 = 0 := by simp [Tab.pos]
  let o1 : Call Nat Nat := .insert 7 70
  let o2 : Call Nat Nat := .insert 7 71
  let r1 : Ret Nat Nat := ⟨some .TSX_SUCCESS_IN, some (0, 7, 70)⟩
  let r2 : Ret Nat Nat := ⟨some .UNSUCCESS_ALREADY_USED, some (0, 7, 70)⟩
  let t0 : Tbl Nat Nat := emptyTbl
  let t1 : Tbl Nat Nat := t0.set 0 (Cell.liveCell 7 70)
  let f0 : Bool → Thr Nat Nat := fun _ => .idle
  have e1 : Exec (Step exQ) (St.init : St Bool Nat Nat) ([] ++ [.call true o2])
      ⟨t0, setAt f0 true (.busy o2 .begin)⟩ := .vis .init (.call rfl)
  have e2 := e1.silent (s' := ⟨t0, setAt (setAt f0 true (.busy o2 .begin)) true (.busy o2 (.load 0))⟩)
    (.cont (pc := .begin) (by simp [setAt]) (by simp [step, Call.key, o2, hh]))
  have e3 := e2.silent (s' := ⟨t0, setAt (setAt (setAt f0 true (.busy o2 .begin)) true (.busy o2 (.load 0))) true
    (.busy o2 (.act 0 Cell.emptyCell))⟩)
    (.cont (pc := .load 0) (by simp [setAt]) (by
      simp [step, afterLoad, o2, hp, t0, emptyTbl, Cell.emptyCell, Cell.hasKey, Cell.isEmpty]))
  have e4 := e3.vis (Step.call (i := false) (op := o1) (by simp [setAt, f0]))
  have e5 := e4.vis (Step.commit (i := false) (op := o1) (n := 1) (t' := t1) (r := r1) (by simp [setAt, start, o1, Call.transactional])
    (by simp [body, o1, Call.key, hh, hp, t0, emptyTbl, Cell.emptyCell, Cell.hasKey, Cell.isEmpty, t1, r1]))
  have e6 := e5.silent (.cont (i := true) (op := o2) (pc := .act 0 Cell.emptyCell) (pc' := .load 0) (t' := t1) (by simp [setAt]) (by
    simp [step, change, cas, o2, hp, t1, Tbl.set, Cell.liveCell, Cell.emptyCell]))
  have e7 := e6.vis (Step.done (i := true) (op := o2) (pc := .load 0) (t' := t1) (r := r2) (by simp [setAt]) (by
    simp [step, afterLoad, o2, hp, t1, Tbl.set, Cell.liveCell, Cell.hasKey, Cell.mapped, r2]))
  exact ⟨_, _, e7, rfl⟩

/-- `C61_full_table_never_ends` applies: a full table and an absent key. -/
example (n : Nat) : body exQ (.insert 5000 (1 : Nat)) n 0 (fun p => ⟨false, .live p 0⟩) = none :=
  (C61_full_table_never_ends (fun _ => rfl)
    (fun p hp => ⟨by simp, fun v h => by simp [Call.key] at h; have : p < 4096 := hp; omega⟩) 0).1 n

end Growt.Tsx
