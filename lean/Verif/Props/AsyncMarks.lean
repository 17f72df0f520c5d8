import Verif.AsyncMarks
import Verif.Props.AsyncRun
import Verif.Props.Async

/-!
# Asynchronous growth: the executions of the whole table are executions of the protocol

The theorems on C25 and C27 are about the executions of the protocol (`Async.Reach`), in which a call that
was refused because of a mark is assumed to find a successor of its table (`Step.exitHelp`).  Here it is
proved that, with the contents of the tables, this assumption always holds: no mark, torn or not, is set
in a table without a successor.
-/

set_option linter.unusedSectionVars false

namespace Growt
namespace Async
section
variable {T A K V : Type} [DecidableEq T] [DecidableEq A] [DecidableEq K] [DecidableEq V] [Inhabited V]

/-- A step after which all tables fit into memory. (specification, no code) -/
def DStepF (u : Bool) (ok : Op K V → Prop) (s : DSt T A K V) (e : Option (Ev T (Op K V) (SRes V)))
    (s' : DSt T A K V) : Prop := DStep u ok s e s' ∧ s'.Fits

theorem dexec_winv {u : Bool} {ok : Op K V → Prop} {E : Env K} (hE : E.OK) (hm : E.m = true)
    (hf : E.M.addr < 2 ^ 63) {a : A} {l : List (Ev T (Op K V) (SRes V))} {s : DSt T A K V}
    (h : Exec (DStepF u ok) (DSt.init E a) l s) : WInv u s ∧ s.Fits :=
  h.invariant (P := fun s => WInv u s ∧ s.Fits) ⟨WInv.init hE hm a, fun _ _ _ => hf⟩
    (fun _ _ _ hI hs => ⟨hI.1.next hs.1 hI.2, hs.2⟩)

/-- **C25.**  In every execution of the growing table with asynchronous exclusion - any number of handles
and migrating threads, any operations, also with torn marks - a call that is refused because of a mark
finds the successor of its table. -/
theorem C25_help_has_successor {u : Bool} {ok : Op K V → Prop} {E : Env K} (hE : E.OK) (hm : E.m = true)
    (hf : E.M.addr < 2 ^ 63) {a : A} {l : List (Ev T (Op K V) (SRes V))} {s : DSt T A K V}
    (h : Exec (DStepF u ok) (DSt.init E a) l s) {t : T} {op : Op K V} (ht : s.thr t = .again op .help) :
    ∃ hd o, s.p.pc t = .use hd ∧ s.p.heap hd.tab = some o ∧ o.next ≠ none := by
  have hc := (dexec_winv hE hm hf h).1.call t
  rw [ht] at hc
  obtain ⟨hd, h1, h2⟩ := hc
  obtain ⟨o, h3, h4⟩ := h2 rfl
  exact ⟨hd, o, h1, h3, h4⟩

/-- **C25.**  A mark, torn or not, is set only in a table that has a successor. -/
theorem C25_marks_have_successor {u : Bool} {ok : Op K V → Prop} {E : Env K} (hE : E.OK) (hm : E.m = true)
    (hf : E.M.addr < 2 ^ 63) {a : A} {l : List (Ev T (Op K V) (SRes V))} {s : DSt T A K V}
    (h : Exec (DStepF u ok) (DSt.init E a) l s) {b : A} {o : Obj A} (ho : s.p.heap b = some o) {q : Nat}
    {c : Cell K V} (hq : s.mem b q = some c) (hc : c.marked = true) : o.next ≠ none := by
  intro hn
  have := (((dexec_winv hE hm hf h).1.tabs b o ho).calm hn).2 q
  unfold published at this
  rw [hq] at this
  rw [Option.getD_some, hc] at this
  cases this

/-- **C25.**  So such a call can always go on; `rls_table`, `grow` and `help_grow` are never stuck. -/
theorem C25_refused_call_continues {u : Bool} {ok : Op K V → Prop} {E : Env K} (hE : E.OK) (hm : E.m = true)
    (hf : E.M.addr < 2 ^ 63) {a : A} {l : List (Ev T (Op K V) (SRes V))} {s : DSt T A K V}
    (h : Exec (DStepF u ok) (DSt.init E a) l s) {t : T} {op : Op K V} {x : Exit} (ht : s.thr t = .again op x) :
    ∃ s', DStepF u ok s none s' ∧ s'.thr t = .pend op := by
  obtain ⟨hI, hF⟩ := dexec_winv hE hm hf h
  have hc := hI.call t
  rw [ht] at hc
  obtain ⟨hd, h1, h2⟩ := hc
  cases x with
  | done => exact ⟨_, ⟨.exitAgain (Step.exitDone h1) ht, hF⟩, setAt_same ..⟩
  | grow => exact ⟨_, ⟨.exitAgain (Step.exitGrow h1) ht, hF⟩, setAt_same ..⟩
  | help =>
    obtain ⟨o, h3, h4⟩ := h2 rfl
    exact ⟨_, ⟨.exitAgain (Step.exitHelp h1 h3 h4) ht, hF⟩, setAt_same ..⟩

/-- The steps of the whole table are steps of the protocol, or do not concern it. -/
theorem dstep_prot {u : Bool} {ok : Op K V → Prop} {s s' : DSt T A K V} {e : Option (Ev T (Op K V) (SRes V))}
    (h : DStep u ok s e s') : s'.p = s.p ∨ ∃ l, Step s.p l s'.p := by
  cases h with
  | call | ret => exact .inl rfl
  | quiet hs | enter hs | visit hs | op hs | opDone hs | opAgain hs | exitAgain hs | exit hs | make _ _ hs
  | attach hs | claim hs | leave hs | work hs | done hs | publish hs | switch hs | retire hs | free hs =>
    exact .inr ⟨_, hs⟩

/-- **C25, C27.**  Every execution of the growing table, with the contents of its tables and with all
operations, is an execution of the protocol; so what is proved of all executions of the protocol
(`C25_published_complete`, ..., `C27_reclaimed_once`) holds of the table. -/
theorem C25_executions_follow_protocol {u : Bool} {ok : Op K V → Prop} {E : Env K} {a : A}
    {l : List (Ev T (Op K V) (SRes V))} {s : DSt T A K V} (h : Exec (DStep u ok) (DSt.init E a) l s) :
    ∃ ls, Reach a (Sync.blocksOf E.M) ls s.p := by
  refine h.invariant (P := fun s => ∃ ls, Reach a (Sync.blocksOf E.M) ls s.p) ⟨[], .init⟩ ?_
  rintro s e s' ⟨ls, hr⟩ hs
  rcases dstep_prot hs with e | ⟨l, hl⟩
  · rw [e]; exact ⟨ls, hr⟩
  · exact ⟨_, hr.step hl⟩

/-- **C27.**  In every execution of the growing table, a thread that is about to access the slots of a
table - for an operation, or to migrate a block - accesses a table that has not been reclaimed. -/
theorem C27_slots_not_reclaimed {u : Bool} {ok : Op K V → Prop} {E : Env K} {a : A}
    {l : List (Ev T (Op K V) (SRes V))} {s : DSt T A K V} (h : Exec (DStep u ok) (DSt.init E a) l s) (t : T) :
    (∀ hd, s.p.pc t = .use hd → ∃ o, s.p.heap hd.tab = some o) ∧
    (∀ w c n k, s.p.pc t = .mg5 w c n k → (∃ o, s.p.heap c = some o) ∧ ∃ o, s.p.heap n = some o) := by
  obtain ⟨ls, hr⟩ := C25_executions_follow_protocol h
  refine ⟨fun hd hp => C27_no_access_after_reclamation hr t _ ?_, fun w c n k hp =>
    ⟨C27_no_access_after_reclamation hr t _ ?_, C27_no_access_after_reclamation hr t _ ?_⟩⟩ <;>
  · rw [hp]; simp [St.touches]

end

/-- **C25, not vacuous**: an execution in which a mark is torn and, after that, a call is refused because of
another mark, while the table is being migrated. -/
theorem C25_help_not_vacuous : ∃ (l : List (Ev Nat (Op Nat Nat) (SRes Nat))) (s : DSt Nat Nat Nat Nat),
    Exec (DStepF false (fun op => op.isSafe)) (DSt.init exM 0) l s ∧ s.torn = true ∧
    s.thr 0 = .again (.erase 511) .help ∧ s.p.glob = 0 ∧ exM.M.addr < 2 ^ 63 ∧ exM.m = true := by
  obtain ⟨s, h, hA, hH, hj⟩ := part_a false false (ok := fun op => op.isSafe) (fun _ _ => trivial)
  obtain ⟨s, h, hA, hH, hm, hj⟩ := part_b h hA hH hj
  obtain ⟨s, h, hA, hH, hm, hj⟩ := blockX h hA (m := ⟨src0, freshTarget exM2, false⟩) hH hm hj
    ((job_to_tail false).trans (.one rfl (job_load false))) (fun _ => rfl)
  obtain ⟨s', h, hA, hH, hj', hm'⟩ := insertX h hA hH
  obtain ⟨s, h, hA, hH, hm, hj⟩ := blockX h hA (m := ⟨src2, tgt1, false⟩) hH (by rw [hm']; exact hm)
    (by rw [hj']; exact hj) job_torn nofun
  obtain ⟨s, h, hA, hH, hj, hm⟩ := enterX h hA hH exEnv2_small nofun (op := .erase 511) trivial
  obtain ⟨p, env, mem, torn, jobs, thr⟩ := s
  obtain ⟨a1, a2, a3, a4, a5, a6, a7⟩ := hA
  obtain ⟨b1, b2, b3, b4, b5⟩ := hH
  simp only at a1 a2 a3 a4 a5 a6 a7 b1 b2 b3 b4 b5
  subst b1 b5
  have hst : step exM (.erase 511) (.load 511 0) src2 = (src2, .done ⟨some .UNSUCCESS_INVALID, none⟩) := rfl
  have h' := h.silent ⟨.opAgain (t := 0) (x := .help) (Step.op (h := ⟨0, 0⟩) a4 a6) b2
    (by rw [b4]; exact hst) rfl, exEnv2_small, nofun⟩
  exact ⟨_, _, h'.mono (fun _ _ _ hs => ⟨hs.1, fun a _ _ => Nat.lt_trans (hs.2.1 a).2 (by decide)⟩), rfl,
    setAt_same thr 0 _, a1, by decide, rfl⟩

end Async
end Growt
