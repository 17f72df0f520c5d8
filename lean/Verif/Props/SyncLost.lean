import Verif.Props.SyncLin
import Verif.Props.AsyncRun

/-!
# C30: a moved-from handle lets an insertion get lost

The destructor of a moved-from handle clears the flags that protect the operations of the new handle
(C28).  Here an element that is inserted with success through the new handle is lost.
-/

set_option linter.unusedSectionVars false

namespace Growt
namespace Sync
section
variable {T A K V : Type} [DecidableEq T] [DecidableEq A] [DecidableEq K] [DecidableEq V] [Inhabited V]

/-- The steps of `DStepW`, and in addition those of the protocol in which a moved-from handle is kept and
later destroyed (`estrat_sync.hpp:237-263`, `migration_table.hpp:495-538`; see `Step.move`). -/
def DStepM (u : Bool) (ok : Op K V → Prop) (s : DSt T A K V) (e : Option (Ev T (Op K V) (SRes V)))
    (s' : DSt T A K V) : Prop :=
  DStepW u ok s e s' ∨ (e = none ∧ ∃ p', Step true s.p .tau p' ∧ s' = { s with p := p' })

theorem exec_glue {S L : Type} {R R' : S → Option L → S → Prop} (hR : ∀ s e s', R' s e s' → R s e s')
    {s0 s s' : S} {l l' : List L} (h : Exec R s0 l s) (h' : Exec R' s l' s') : Exec R s0 (l ++ l') s' := by
  induction h' with
  | init => simpa using h
  | silent _ hs ih => exact ih.silent (hR _ _ _ hs)
  | vis _ hs ih => rw [← List.append_assoc]; exact ih.vis (hR _ _ _ hs)

/-- Copying empty slots that are not markable. -/
theorem empties_run' {G : MEnv K} {k b st : Nat} (hm : G.src.m = false)
    (hr : ∀ i, G.src.M.remap i = i) (hT : blockEnd (2 ^ k) b ≤ G.src.M.total) :
    ∀ n i (m : MMem K V), i + n < blockEnd (2 ^ k) b →
    (∀ q, m.src q = Cell.emptyCell) →
    Runs G k b m (.load st false i) m (.load st false (i + n)) := by
  intro n
  induction n with
  | zero => intro i m _ _; exact .refl _ _
  | succ n ih =>
    intro i m hi he
    have hlt : i < G.src.M.total := by omega
    refine .step rfl (m' := m) (pc' := .mark st false i Cell.emptyCell)
      (by simp only [jobStep, hr]; rw [if_pos hlt, he]) ?_
    refine .step rfl (m' := m) (pc' := .load st false (i + 1)) ?_ ?_
    · have hset : m.src.set i (m.src i) = m.src := by
        funext q; simp only [Tbl.set]; split
        · rename_i h; rw [h]
        · rfl
      simp only [jobStep, hr, atomicMark, hm]
      rw [if_pos hlt]
      have e : (Cell.emptyCell : Cell K V).isEmpty = true := rfl
      simp only [Bool.false_eq_true, if_false, if_true, hset, process, e, loopHead]
      rw [if_pos ⟨trivial, by omega⟩]
    · rw [show i + (n + 1) = i + 1 + n by omega]
      exact ih (i + 1) m (by omega) he

/-- A thread alone at a block; with the contents of the tables. -/
theorem solo_blockM {u : Bool} {ok : Op K V → Prop} {s0 : DSt T A K V} {t : T} {h : Hd} {c : Cont A}
    {a b : A} {v n k : Nat} {o o' : Obj A} {G : MEnv K} (hab : a ≠ b) (hA : G.src.M.addr = 2 ^ k)
    {l : List (Ev T (Op K V) (SRes V))} {m m' : MMem K V} {pc pc' : JobPC K V}
    (hr : Runs G k (n * blockSize) m pc m' pc') :
    ∀ s : DSt T A K V, Exec (DStepW u ok) s0 l s → s.small → s.p.pc t = .mg5 h c a v b n →
    s.p.heap a = some o → o.ver = v → s.p.heap b = some o' → o'.ver = v + 1 →
    G = ⟨s.env a, s.env b, u⟩ → s.jobs (n * blockSize) = some pc →
    m = ⟨published (s.mem a), s.mem b, s.torn⟩ →
    ∃ (mem : A → MTbl K V) (torn : Bool) (jobs : Nat → Option (JobPC K V)),
      Exec (DStepW u ok) s0 l { s with mem := mem, torn := torn, jobs := jobs } ∧
      jobs (n * blockSize) = some pc' ∧ m' = ⟨published (mem a), mem b, torn⟩ := by
  induction hr with
  | refl m pc => intro s hX _ _ _ _ _ _ _ hj hm; exact ⟨s.mem, s.torn, s.jobs, hX, hj, hm⟩
  | @step m m1 m2 pc pc1 pc2 he hs _ ih =>
    intro s hX hsm hp ho hv ho' hv' hG hj hm
    subst hG hm
    have h1 := hX.silent ⟨.work (Step.mgWork hp ho hv ho' hv') (by rw [hp]; rfl) hj he
      (by rw [hA]; exact hs), DSt.small.within hsm⟩
    have e : published (Sync.upd (Sync.upd s.mem a (store (s.mem a) m1.src)) b m1.tgt a) = m1.src := by
      simp [Sync.upd, hab, published_store]
    have := ih _ h1 hsm hp ho hv ho' hv' rfl (upd1_self ..) (by
      show m1 = MMem.mk (published (Sync.upd (Sync.upd s.mem a (store (s.mem a) m1.src)) b m1.tgt a))
        (Sync.upd (Sync.upd s.mem a (store (s.mem a) m1.src)) b m1.tgt b) m1.torn
      rw [e]; simp [Sync.upd])
    exact this

end

section
variable {s0 : DSt Nat Nat Nat Nat} {l : List (Ev Nat (Op Nat Nat) (SRes Nat))}

attribute [local irreducible] blockEnd

/-- The migration of an empty table, up to the end: the new table is empty. -/
theorem job_empty : ∃ tgt : MTbl Nat Nat,
    Runs ⟨exE, exE2, false⟩ 9 0 ⟨fun _ => Cell.emptyCell, freshTarget exE2, false⟩
      (jobStart ⟨exE, exE2, false⟩ 0 (blockEnd (2 ^ 9) 0)) ⟨fun _ => Cell.emptyCell, tgt, false⟩ (.fin 0 512) ∧
    published tgt = fun _ => Cell.emptyCell := by
  obtain ⟨f1, f2, f3, f4, f5, f6, f7, f8, -⟩ := Async.exM2_facts
  have r1 : ∀ i, exE.M.remap i = i := fun _ => rfl
  have e0 : (jobStart ⟨exE, exE2, false⟩ 0 (blockEnd (2 ^ 9) 0) : JobPC Nat Nat) =
      .fill 0 (List.range' 0 1024) false 0 := by
    rw [f6, ← f7]; rfl
  have f2' : exE2.M.total = 2048 := f2
  have f5' : exE.M.total = 1536 := f5
  have f8' : initSlot exE2.M 512 = [1024, 1025] := f8
  rw [e0]
  refine ⟨fun q => if q ∈ [1024, 1025] then some Cell.emptyCell else
    (fun q => if q ∈ List.range' 0 1024 then some Cell.emptyCell else freshTarget exE2 q) q, ?_, ?_⟩
  · refine (fill_runs (G := ⟨exE, exE2, false⟩) _ _ (fun q hq => ?_)).trans ?_
    · show q < exE2.M.total
      rw [List.mem_range'_1] at hq
      omega
    refine (empties_run' (G := ⟨exE, exE2, false⟩) rfl r1 (by rw [f6]; show 512 ≤ exE.M.total; omega) 511 0 _
      (by omega) (fun q => rfl)).trans ?_
    have hset : Tbl.set (fun _ => Cell.emptyCell : Tbl Nat Nat) 511 Cell.emptyCell = fun _ => Cell.emptyCell := by
      funext q; simp only [Tbl.set]; split <;> rfl
    have hset' : Tbl.set (fun _ => Cell.emptyCell : Tbl Nat Nat) 512 Cell.emptyCell = fun _ => Cell.emptyCell := by
      funext q; simp only [Tbl.set]; split <;> rfl
    generalize hg : (fun q => if q ∈ List.range' 0 1024 then some Cell.emptyCell else
      freshTarget exE2 q : MTbl Nat Nat) = g1
    refine .step rfl (m' := ⟨fun _ => Cell.emptyCell, g1, false⟩) (pc' := .mark 0 false 511 Cell.emptyCell) rfl ?_
    refine .step rfl (m' := ⟨fun _ => Cell.emptyCell, g1, false⟩) (pc' := .fill 0 [1024, 1025] true 512) ?_ ?_
    · simp only [jobStep, r1, atomicMark]
      rw [if_pos (by omega)]
      have e : (Cell.emptyCell : Cell Nat Nat).isEmpty = true := rfl
      simp only [exE, Bool.false_eq_true, if_false, if_true, process, e, loopHead, hset]
      rw [if_neg (by omega)]
      exact congrArg (fun qs => ((⟨fun _ => Cell.emptyCell, g1, false⟩ : MMem Nat Nat),
        JobOut.cont (JobPC.fill 0 qs true 512))) f8'
    refine (fill_runs (G := ⟨exE, exE2, false⟩) _ _ (fun q hq => ?_)).trans ?_
    · show q < exE2.M.total
      simp at hq; omega
    refine .step rfl (m' := ⟨fun _ => Cell.emptyCell, fun q => if q ∈ [1024, 1025] then some Cell.emptyCell else g1 q, false⟩)
      (pc' := .mark 0 true 512 Cell.emptyCell) rfl ?_
    refine .one rfl ?_
    simp only [jobStep, r1, atomicMark]
    rw [if_pos (by omega)]
    have e : (Cell.emptyCell : Cell Nat Nat).isEmpty = true := rfl
    simp only [exE, Bool.false_eq_true, if_false, if_true, process, e, hset']
    rfl
  · funext q
    simp only [published, freshTarget]
    (repeat' split) <;> rfl

/-- The protocol after handle 0 was moved from thread 0 to thread 2. (example, no code) -/
def moved : St Nat Nat :=
  ((calm 0 (-1) (upd (fun _ => none) 0 (some ⟨0, none, 0, 1⟩))).at 0 (.idle ⟨0, true⟩)).at 2 (.idle ⟨0, false⟩)

/-- The history. (example, no code) -/
def lostHist : List (Ev Nat (Op Nat Nat) (SRes Nat)) :=
  [.call 2 (.insert 7 5), .ret 2 (.insert 7 5) ⟨true, none⟩, .call 2 (.find 7), .ret 2 (.find 7) ⟨false, none⟩]

theorem lostHist_not_linearizable : ¬ Linearizable (growObj false) lostHist := by
  apply not_linearizable
  refine NoLin.solo (fun _ => rfl) (fun d1 h1 => ?_)
  refine NoLin.solo (fun _ => rfl) (fun d2 h2 => ?_)
  rcases h1 with ⟨h1, -⟩ | ⟨⟨_, _, _, _, e, -⟩, -⟩
  · rcases h2 with ⟨-, h2, -⟩ | ⟨⟨_, _, _, _, e, -⟩, -⟩
    · subst h1
      exact absurd h2 (by decide)
    · cases e
  · cases e

theorem start0_empty : published (start0.mem 0) = fun _ => Cell.emptyCell := by
  funext q
  simp only [start0, DSt.init, published]
  (repeat' split) <;> simp_all

theorem load7 : step exE (.insert 7 5 : Op Nat Nat) (start exE (.insert 7 5 : Op Nat Nat)) (published (start0.mem 0)) =
    (fun _ => Cell.emptyCell, .cont (.act 7 0 Cell.emptyCell)) := by
  have e1 : start exE (.insert 7 5 : Op Nat Nat) = .load 7 0 := by
    show Growt.PC.load _ _ = _
    exact congrArg (fun i => Growt.PC.load i 0) (by decide : exE.M.map (exE.h 7) = 7)
  have e2 : exE.M.remap 7 = 7 := rfl
  have e3 : 7 < exE.M.total := by decide
  rw [e1]
  have e4 : tooFar exE 7 = false := by decide
  simp only [step, e2, if_pos e3, afterLoad, start0_empty, e4]
  rfl

/-- The protocol while thread 1 is at the only block: thread 2 is in an operation on the old table, its
flag is not set. (example, no code) -/
def lostAt : St Nat Nat :=
  { atBlock with
    pc := upd (upd (upd (fun _ => .out) 2 (.op ⟨0, false⟩ 0 0)) 0 .out) 1
      (.mg5 ⟨1, false⟩ (.grow 0 0 1) 0 0 1 0) }

/-- Thread 2 begins an insertion; thread 0 destroys the moved-from handle; thread 1 begins to grow the table. -/
theorem lost_a : ∃ s : DSt Nat Nat Nat Nat,
    Exec (DStepW false exOk) { start0 with p := moved } [.call 2 (.insert 7 5)] s ∧
    s.p = lostAt ∧
    s.env = Sync.upd (fun _ : Nat => exE) 1 exE2 ∧ s.thr 2 = .busy (.insert 7 5) (.act 7 0 Cell.emptyCell) ∧
    s.jobs 0 = some (jobStart ⟨exE, exE2, false⟩ 0 (blockEnd (2 ^ 9) 0)) ∧
    published (s.mem 0) = (fun _ => Cell.emptyCell) ∧ s.mem 1 = freshTarget exE2 ∧ s.torn = false := by
  have hsm : ∀ p mem torn jobs thr, DSt.small (T := Nat) (V := Nat)
      ⟨p, fun _ : Nat => exE, mem, torn, jobs, thr⟩ := fun _ _ _ _ _ _ => exE_small
  have hsm2 : ∀ p mem torn jobs thr, DSt.small (T := Nat) (V := Nat)
      ⟨p, Sync.upd (fun _ : Nat => exE) 1 exE2, mem, torn, jobs, thr⟩ := by
    intro p mem torn jobs thr a
    simp only [Sync.upd]
    split
    · exact ⟨exE2_facts.1, by rw [exE2_facts.2.1]; decide⟩
    · exact exE_small
  have hX : Exec (DStepW false exOk) { start0 with p := moved } [] { start0 with p := moved } := .init
  have b1 := hX.vis ⟨.call (t := 2) (h := ⟨0, false⟩) (op := .insert 7 5) rfl rfl ⟨trivial, nofun, nofun⟩,
    (hsm _ _ _ _ _).within⟩
  have b2 := quietX b1 (hsm _ _ _ _ _) (Step.call (t := 2) rfl)
  have b3 := quietX b2 (hsm _ _ _ _ _) (Step.gtLoad (t := 2) rfl rfl)
  have b4 := quietX b3 (hsm _ _ _ _ _) (Step.gtStore (t := 2) rfl)
  have b5 := b4.silent ⟨.enter (op := .insert 7 5) (Step.gtSame (t := 2) rfl rfl rfl) rfl, (hsm _ _ _ _ _).within⟩
  have b6 := b5.silent ⟨.op (g := fun _ => Cell.emptyCell) (pc' := .act 7 0 Cell.emptyCell)
    (Step.opStep (t := 2) rfl rfl rfl) (setAt_same (setAt start0.thr 2 (.pend (.insert 7 5))) 2 _) load7, (hsm _ _ _ _ _).within⟩
  have a2 := quietX b6 (hsm _ _ _ _ _) (Step.call (t := 0) rfl)
  have a3 := quietX a2 (hsm _ _ _ _ _) (Step.gtLoad (t := 0) rfl rfl)
  have a4 := quietX a3 (hsm _ _ _ _ _) (Step.gtStore (t := 0) rfl)
  have a5 := a4.silent ⟨.visit (Step.gtSame (t := 0) rfl rfl rfl) nofun, (hsm _ _ _ _ _).within⟩
  have a6 := a5.silent ⟨.exit (Step.opEnd (t := 0) rfl .plain) (.inl rfl) nofun, (hsm _ _ _ _ _).within⟩
  have h6 := quietX a6 (hsm _ _ _ _ _) (Step.call (t := 1) rfl)
  have h7 := quietX h6 (hsm _ _ _ _ _) (Step.gtLoad (t := 1) rfl rfl)
  have h8 := quietX h7 (hsm _ _ _ _ _) (Step.gtStore (t := 1) rfl)
  have h9 := h8.silent ⟨.visit (Step.gtSame (t := 1) rfl rfl rfl) nofun, (hsm _ _ _ _ _).within⟩
  have h10 := h9.silent ⟨.exit (Step.opEnd (t := 1) rfl .grow) (.inl rfl) nofun, (hsm _ _ _ _ _).within⟩
  have h11 := quietX h10 (hsm _ _ _ _ _) (Step.grEpoch (t := 1) rfl)
  have h12 := quietX h11 (hsm _ _ _ _ _) (Step.grCas (t := 1) rfl (show (-1 : Int) < 0 by decide) rfl)
  have h13 := quietX h12 (hsm _ _ _ _ _) (Step.grLoad (t := 1) rfl rfl rfl)
  have h14 := quietX h13 (hsm _ _ _ _ _) (Step.grMark (t := 1) rfl rfl)
  have h18 := h14.silent ⟨.make (b := 1) 300 0 (Step.grMake (t := 1) (b := 1) 1 rfl rfl rfl) rfl
    exE2_facts.2.2.1.symm, (hsm2 _ _ _ _ _).within⟩
  have h19 := quietX h18 (hsm2 _ _ _ _ _) (Step.grOps (t := 1) rfl)
  have h20 := quietX h19 (hsm2 _ _ _ _ _) (Step.grOpsNext (t := 1) rfl (show 0 < 2 by decide)
    (show (none : Option Nat) ≠ some 0 by decide))
  have h21 := quietX h20 (hsm2 _ _ _ _ _) (Step.grOpsNext (t := 1) rfl (show 1 < 2 by decide)
    (show (none : Option Nat) ≠ some 0 by decide))
  have h22 := quietX h21 (hsm2 _ _ _ _ _) (Step.grOpsEnd (t := 1) rfl (show ¬ 2 < 2 by decide))
  have h23 := quietX h22 (hsm2 _ _ _ _ _) (Step.grNext (t := 1) rfl rfl)
  have h24 := quietX h23 (hsm2 _ _ _ _ _) (Step.mgLoad (t := 1) rfl rfl rfl)
  have h25 := quietX h24 (hsm2 _ _ _ _ _) (Step.mgStore (t := 1) rfl)
  have h26 := quietX h25 (hsm2 _ _ _ _ _) (Step.mgNext (t := 1) rfl rfl rfl rfl)
  have h27 := h26.silent ⟨.claim (Step.mgClaim (t := 1) rfl rfl rfl (show 0 < 1 by decide)) rfl,
    (hsm2 _ _ _ _ _).within⟩
  have hpe : ∀ q : St Nat Nat, q.table = .mark 0 → q.epoch = 0 → (∀ x, q.heap x = lostAt.heap x) →
      q.used = lostAt.used → (∀ i, q.ops i = none) → q.mig = lostAt.mig → q.last = 2 →
      (∀ t, q.pc t = lostAt.pc t) → q.phase = .migrating 0 0 1 → q = lostAt := by
    intro q q1 q2 q3 q4 q5 q6 q7 q8 q9
    obtain ⟨a1, a2, a3, a4, a5, a6, a7, a8, a9⟩ := q
    simp only at q1 q2 q3 q4 q5 q6 q7 q8 q9
    subst q1 q2 q4 q6 q7 q9
    rw [funext q3, funext q5, funext q8]
    rfl
  refine ⟨_, h27, hpe _ rfl rfl (fun x => ?_) rfl (fun i => ?_) rfl rfl (fun t => ?_) rfl, rfl, rfl, ?_, ?_, rfl, rfl⟩
  · match x with
    | 0 => rfl
    | 1 => rfl
    | _ + 2 => rfl
  · match i with
    | 0 => rfl
    | 1 => rfl
    | _ + 2 => rfl
  · match t with
    | 0 => rfl
    | 1 => rfl
    | 2 => rfl
    | _ + 3 => rfl
  · show upd1 (fun _ => none) (0 * blockSize) (some (jobStart ⟨exE, exE2, false⟩ (0 * blockSize)
      (blockEnd exE.M.addr (0 * blockSize)))) 0 = _
    rw [Nat.zero_mul, upd1_self, exE2_facts.2.2.2]
  · funext q
    show published (Sync.upd (Sync.upd start0.mem 0 (store (start0.mem 0) (fun _ => Cell.emptyCell))) 1 (freshTarget exE2) 0) q = _
    rw [show Sync.upd (Sync.upd start0.mem 0 (store (start0.mem 0) (fun _ => Cell.emptyCell))) 1 (freshTarget exE2) 0 =
      store (start0.mem 0) (fun _ => Cell.emptyCell) from rfl, published_store]

theorem act7 {t : Tbl Nat Nat} (ht : t = fun _ => Cell.emptyCell) :
    ∃ g r, step exE (.insert 7 5 : Op Nat Nat) (.act 7 0 Cell.emptyCell) t = (g, .done r) ∧
      answer (.insert 7 5 : Op Nat Nat) r = some ⟨true, none⟩ := by
  have e2 : exE.M.remap 7 = 7 := rfl
  have e3 : 7 < exE.M.total := by decide
  subst ht
  simp only [step, e2, if_pos e3]
  exact ⟨_, _, rfl, rfl⟩

theorem find7 {t : Tbl Nat Nat} (ht : t = fun _ => Cell.emptyCell) :
    ∃ g r, run exE2 (.find 7 : Op Nat Nat) 1 (start exE2 (.find 7 : Op Nat Nat)) t = .done g r ∧
      answer (.find 7 : Op Nat Nat) r = some ⟨false, none⟩ := by
  have e1 : start exE2 (.find 7 : Op Nat Nat) = .load 14 0 := by
    show Growt.PC.load _ _ = _
    exact congrArg (fun i => Growt.PC.load i 0) (by
      rw [show exE2.M = Async.exM2.M from rfl, Async.exM2_M]; decide : exE2.M.map (exE2.h 7) = 14)
  have e2 : exE2.M.remap 14 = 14 := rfl
  have e3 : 14 < exE2.M.total := by decide
  subst ht
  refine ⟨fun _ => Cell.emptyCell, ⟨none, none⟩, ?_, rfl⟩
  rw [e1]
  simp only [run, step, e2, if_pos e3]
  rfl

/-- Thread 1 migrates the empty table and publishes the new one; then thread 2 inserts its element into
the old table, and looks it up in the new one. -/
theorem lost_b {s : DSt Nat Nat Nat Nat} (hX : Exec (DStepW false exOk) s0 l s) (hp : s.p = lostAt)
    (henv : s.env = Sync.upd (fun _ : Nat => exE) 1 exE2)
    (ht : s.thr 2 = .busy (.insert 7 5) (.act 7 0 Cell.emptyCell))
    (hj : s.jobs 0 = some (jobStart ⟨exE, exE2, false⟩ 0 (blockEnd (2 ^ 9) 0)))
    (hm0 : published (s.mem 0) = fun _ => Cell.emptyCell) (hm1 : s.mem 1 = freshTarget exE2)
    (hto : s.torn = false) :
    ∃ s', Exec (DStepW false exOk) s0 (l ++ [.lin 2 (.insert 7 5) ⟨true, none⟩] ++
      [.ret 2 (.insert 7 5) ⟨true, none⟩] ++ [.call 2 (.find 7)] ++ [.lin 2 (.find 7) ⟨false, none⟩] ++
      [.ret 2 (.find 7) ⟨false, none⟩]) s' := by
  have hsm2 : ∀ p mem torn jobs thr, DSt.small (T := Nat) (V := Nat)
      ⟨p, Sync.upd (fun _ : Nat => exE) 1 exE2, mem, torn, jobs, thr⟩ := by
    intro p mem torn jobs thr a
    simp only [Sync.upd]
    split
    · exact ⟨exE2_facts.1, by rw [exE2_facts.2.1]; decide⟩
    · exact exE_small
  obtain ⟨p, env, mem, torn, jobs, thr⟩ := s
  simp only at hp henv ht hj hm0 hm1 hto
  subst hp henv hto
  obtain ⟨tgt, hr, htgt⟩ := job_empty
  obtain ⟨mem', torn, jobs', g1, hj', hm'⟩ := solo_blockM (k := 9) (G := ⟨exE, exE2, false⟩)
    (t := 1) (n := 0) (h := ⟨1, false⟩)
    (c := .grow 0 0 1) (a := 0) (b := 1) (v := 0) (by decide)
    exE2_facts.2.2.2 (by rw [Nat.zero_mul]; exact hr) _ hX (hsm2 _ _ _ _ _)
    rfl rfl rfl rfl rfl rfl (by rw [Nat.zero_mul]; exact hj) (by rw [hm0]; exact congrArg (fun x => MMem.mk _ x false) hm1.symm)
  simp only [MMem.mk.injEq] at hm'
  obtain ⟨e0, e1, -⟩ := hm'
  have g2 := g1.silent ⟨.done (k := 0) (Step.mgDone (t := 1) rfl) rfl hj' rfl, (hsm2 _ _ _ _ _).within⟩
  have g3 := g2.silent ⟨.leave (Step.mgLeave (t := 1) rfl rfl rfl (show ¬ 1 < 1 by decide)),
    (hsm2 _ _ _ _ _).within⟩
  have g4 := quietX g3 (hsm2 _ _ _ _ _) (Step.mgEnd (t := 1) rfl rfl rfl)
  have g5 := quietX g4 (hsm2 _ _ _ _ _) (Step.grNull (t := 1) rfl)
  have g6 := quietX g5 (hsm2 _ _ _ _ _) (Step.grMig (t := 1) rfl)
  have g7 := quietX g6 (hsm2 _ _ _ _ _) (Step.grMigNext (t := 1) rfl (show 0 < 2 by decide) rfl)
  have g8 := quietX g7 (hsm2 _ _ _ _ _) (Step.grMigNext (t := 1) rfl (show 1 < 2 by decide) rfl)
  have g9 := quietX g8 (hsm2 _ _ _ _ _) (Step.grMigEnd (t := 1) rfl (show ¬ 2 < 2 by decide))
  have g10 := g9.silent ⟨.publish (Step.grPublish (t := 1) rfl), (hsm2 _ _ _ _ _).within⟩
  obtain ⟨g, r, hs, hx⟩ := act7 e0.symm
  have g11 := g10.vis ⟨.opLin (t := 2) (a := 0) (Step.opStep (t := 2) rfl rfl rfl) ht hs hx, (hsm2 _ _ _ _ _).within⟩
  have g12 := g11.silent ⟨.exit (Step.opEnd (t := 2) rfl .plain) (.inr ⟨.insert 7 5, _, setAt_same thr 2 _⟩)
    (by decide), (hsm2 _ _ _ _ _).within⟩
  have g13 := g12.vis ⟨.ret (t := 2) (h := ⟨0, false⟩) rfl (setAt_same thr 2 _), (hsm2 _ _ _ _ _).within⟩
  have g14 := g13.vis ⟨.call (t := 2) (h := ⟨0, false⟩) (op := .find 7) rfl (setAt_same (setAt thr 2 (.fin (.insert 7 5) ⟨true, none⟩)) 2 _) ⟨trivial, nofun, nofun⟩,
    (hsm2 _ _ _ _ _).within⟩
  have g15 := quietX g14 (hsm2 _ _ _ _ _) (Step.call (t := 2) rfl)
  have g16 := quietX g15 (hsm2 _ _ _ _ _) (Step.gtLoad (t := 2) rfl rfl)
  have g17 := quietX g16 (hsm2 _ _ _ _ _) (Step.gtStore (t := 2) rfl)
  have g18 := g17.silent ⟨.enter (op := .find 7) (Step.gtSame (t := 2) rfl rfl rfl) (setAt_same (setAt (setAt thr 2 (.fin (.insert 7 5) ⟨true, none⟩)) 2 .idle) 2 _),
    (hsm2 _ _ _ _ _).within⟩
  obtain ⟨g', r', hr', hx'⟩ := find7 (t := published (mem' 1)) (by rw [← e1]; exact htgt)
  obtain ⟨mem'', g19, -⟩ := solo_run (t := 2) (a := 1) (g := g') (r := r') 1 _ _ _ g18 (hsm2 _ _ _ _ _) rfl rfl rfl
    (setAt_same (setAt (setAt (setAt thr 2 (.fin (.insert 7 5) ⟨true, none⟩)) 2 .idle) 2 (.pend (.find 7))) 2 _) hr'
  have g20 := (g19 _ hx').silent ⟨.exit (Step.opEnd (t := 2) rfl .plain) (.inr ⟨.find 7, _, setAt_same (setAt (setAt (setAt (setAt thr 2 (.fin (.insert 7 5) ⟨true, none⟩)) 2 .idle) 2 (.pend (.find 7))) 2 (.busy (.find 7) (start exE2 (.find 7)))) 2 _⟩)
    (by decide), (hsm2 _ _ _ _ _).within⟩
  have g21 := g20.vis ⟨.ret (t := 2) (h := ⟨0, false⟩) rfl (setAt_same (setAt (setAt (setAt (setAt thr 2 (.fin (.insert 7 5) ⟨true, none⟩)) 2 .idle) 2 (.pend (.find 7))) 2 (.busy (.find 7) (start exE2 (.find 7)))) 2 _), (hsm2 _ _ _ _ _).within⟩
  exact ⟨_, g21⟩

/-- **C30 is violated** when a moved-from handle is destroyed while the handle it was moved to is used: an
element is inserted with success, and the same thread does not find it afterwards.

Thread 0 moves its handle to thread 2.  Thread 2 sets the flag of that handle and begins `insert(7, 5)`.
Thread 0 destroys the moved-from handle, whose destructor flushes the counters and so clears the flag of
the handle (`migration_table.hpp:522-538`, `estrat_sync.hpp:265-299`).  Thread 1 grows the table, waits
for nobody, and publishes the new table.  Thread 2 now writes its element into the old table. -/
theorem C30_moved_handle_loses_element :
    ∃ (l : List (Ev Nat (Op Nat Nat) (SRes Nat))) (s : DSt Nat Nat Nat Nat),
      Exec (DStepM false exOk) (DSt.init exE 0) l s ∧ visible l = lostHist ∧
      ¬ Linearizable (growObj exE.m) (visible l) := by
  have hR : ∀ (s : DSt Nat Nat Nat Nat) e s', DStepW false exOk s e s' → DStepM false exOk s e s' :=
    fun _ _ _ h => .inl h
  obtain ⟨s, h1, q1, q2, q3, q4, q5, q6, q7⟩ := lost_a
  obtain ⟨s', h2⟩ := lost_b h1 q1 q2 q3 q4 q5 q6 q7
  have h0 : Exec (DStepM false exOk) start0 ([] ++ []) _ := exec_glue hR .init two_handlesX
  have h0' := h0.silent (.inr ⟨rfl, _, Step.move (shells := true) (t := 0) (t' := 2) (h := ⟨0, false⟩) rfl rfl rfl, rfl⟩)
  have h3 := exec_glue hR h0' h2
  have hv : visible ([.call 2 (.insert 7 5)] ++ [.lin 2 (.insert 7 5) ⟨true, none⟩] ++
      [.ret 2 (.insert 7 5) ⟨true, none⟩] ++ [.call 2 (.find 7)] ++ [.lin 2 (.find 7) ⟨false, none⟩] ++
      [.ret 2 (.find 7) ⟨false, none⟩] : List (Ev Nat (Op Nat Nat) (SRes Nat))) = lostHist := rfl
  exact ⟨_, s', h3, hv, hv ▸ lostHist_not_linearizable⟩

end
end Sync
end Growt
