import Verif.Range
import Verif.Props.Sync

/-!
# C55: the range iterators of growing tables

An iterator that `range` of a handle returns points into a table that still exists whenever it is used.
-/

set_option linter.unusedSectionVars false

namespace Growt
namespace Sync

/-! ## The synchronised protocol -/

section
variable {T A : Type} [DecidableEq T] [DecidableEq A]

/-- Runs in which no growth step ends. (specification, no code) -/
inductive Unpublished : RSt T A → RSt T A → Prop where
  | refl {x : RSt T A} : Unpublished x x
  | step {x y z : RSt T A} {l : Option (Lbl T A)} (h : Unpublished x y) (hs : RStep y l z)
      (hl : ∀ t a b, l ≠ some (.publish t a b)) : Unpublished x z

/-- Only a part: the table of the iterator exists until the next growth step ends. -/
theorem C55_sync_until_growth_partial {a : A} {n : Nat} {x y : RSt T A} (hr : RReach a n x) {t : T} {h : Hd}
    {b : A} {v : Nat} (hp : x.s.pc t = .op h b v)
    (hu : Unpublished ⟨x.s, upd x.it t (some (b, v))⟩ y) :
    ∃ o, y.s.heap b = some o ∧ o.ver = v := by
  have key : RReach a n y ∧ y.s.curTab = some b ∧ (v : Int) = y.s.cap := by
    generalize hx : (⟨x.s, upd x.it t (some (b, v))⟩ : RSt T A) = x' at hu
    revert hx
    induction hu with
    | refl =>
      intro hx
      subst hx
      exact ⟨hr.step (.range hp), hr.inv.op_curTab hp⟩
    | step h hs hl ih =>
      intro hx
      obtain ⟨h1, h2, h3⟩ := ih hx
      refine ⟨h1.step hs, ?_⟩
      cases hs with
      | range _ => exact ⟨h2, h3⟩
      | @run l s' hs =>
        have hl' : l.publishes = false := by
          cases l <;> first | rfl | exact absurd rfl (hl _ _ _)
        obtain ⟨h4, h5⟩ := curTab_step h1.inv hs hl'
        exact ⟨h4.trans h2, h3.trans h5.symm⟩
  obtain ⟨h1, h2, h3⟩ := key
  obtain ⟨c, o, h4, h5, h6⟩ := h1.inv.curTab
  rw [h2] at h4
  cases h4
  exact ⟨o, h5, by omega⟩

end

section
variable {T A : Type} [DecidableEq T] [DecidableEq A]

theorem Reach.ranges {a : A} {n : Nat} {s : St T A} (h : Reach false a n s) :
    RReach a n ⟨s, fun _ => none⟩ := by
  induction h with
  | init => exact .init
  | step _ hs ih => exact ih.step (.run hs)

theorem Unpublished.taken {a : A} {n : Nat} {x : RSt T A} (_ : RReach a n x) (t : T) (p : A × Nat) :
    Unpublished ⟨x.s, upd x.it t (some p)⟩ ⟨x.s, upd x.it t (some p)⟩ := .refl

theorem Unpublished.reach {a : A} {n : Nat} {x y : RSt T A} (h : Unpublished x y) (hr : RReach a n x) :
    RReach a n y := by
  induction h with
  | refl => exact hr
  | step _ hs _ ih => exact ih.step hs

end

/-- Thread 0 has taken a range iterator and released the table; thread 1 has migrated everything, but the
new table is not published. -/
theorem C55_not_vacuous_sync : ∃ x y : RSt Nat Nat, RReach 0 1 x ∧ x.s.pc 0 = .op ⟨0, false⟩ 0 0 ∧
    Unpublished ⟨x.s, upd x.it 0 (some (0, 0))⟩ y ∧ y.it 0 = some (0, 0) ∧
    y.s.pc 0 = .idle ⟨0, false⟩ ∧ y.s.pc 1 = .gr13 ⟨1, false⟩ 0 0 1 := by
  obtain ⟨s, h5, hs⟩ := two_handles false
  subst hs
  have h6 := h5.step (Step.call (t := 0) rfl)
  have h7 := h6.step (Step.gtLoad (t := 0) rfl rfl)
  have h8 := h7.step (Step.gtStore (t := 0) rfl)
  have h9 := (h8.step (Step.gtSame (t := 0) rfl rfl rfl)).ranges
  have u0 := Unpublished.taken h9 0 (0, 0)
  have u1 := u0.step (RStep.run (Step.opEnd (t := 0) rfl .plain)) nofun
  have u2 := u1.step (RStep.run (Step.call (t := 1) rfl)) nofun
  have u3 := u2.step (RStep.run (Step.gtLoad (t := 1) rfl rfl)) nofun
  have u4 := u3.step (RStep.run (Step.gtStore (t := 1) rfl)) nofun
  have u5 := u4.step (RStep.run (Step.gtSame (t := 1) rfl rfl rfl)) nofun
  have u6 := u5.step (RStep.run (Step.opEnd (t := 1) rfl .grow)) nofun
  have u7 := u6.step (RStep.run (Step.grEpoch (t := 1) rfl)) nofun
  have u8 := u7.step (RStep.run (Step.grCas (t := 1) rfl (by decide) rfl)) nofun
  have u9 := u8.step (RStep.run (Step.grLoad (t := 1) rfl rfl rfl)) nofun
  have u10 := u9.step (RStep.run (Step.grMark (t := 1) rfl rfl)) nofun
  have u11 := u10.step (RStep.run (Step.grMake (t := 1) (b := 1) 1 rfl rfl rfl)) nofun
  have u12 := u11.step (RStep.run (Step.grOps (t := 1) rfl)) nofun
  have u13 := u12.step (RStep.run (Step.grOpsNext (t := 1) rfl (by decide) (by decide))) nofun
  have u14 := u13.step (RStep.run (Step.grOpsNext (t := 1) rfl (by decide) (by decide))) nofun
  have u15 := u14.step (RStep.run (Step.grOpsEnd (t := 1) rfl (by decide))) nofun
  have u16 := u15.step (RStep.run (Step.grNext (t := 1) rfl rfl)) nofun
  have u17 := u16.step (RStep.run (Step.mgLoad (t := 1) rfl rfl rfl)) nofun
  have u18 := u17.step (RStep.run (Step.mgStore (t := 1) rfl)) nofun
  have u19 := u18.step (RStep.run (Step.mgNext (t := 1) rfl rfl rfl rfl)) nofun
  have u20 := u19.step (RStep.run (Step.mgClaim (t := 1) rfl rfl rfl (by decide))) nofun
  have u21 := u20.step (RStep.run (Step.mgDone (t := 1) rfl)) nofun
  have u22 := u21.step (RStep.run (Step.mgLeave (t := 1) rfl rfl rfl (by decide))) nofun
  have u23 := u22.step (RStep.run (Step.mgEnd (t := 1) rfl rfl rfl)) nofun
  have u24 := u23.step (RStep.run (Step.grNull (t := 1) rfl)) nofun
  have u25 := u24.step (RStep.run (Step.grMig (t := 1) rfl)) nofun
  have u26 := u25.step (RStep.run (Step.grMigNext (t := 1) rfl (by decide) rfl)) nofun
  have u27 := u26.step (RStep.run (Step.grMigNext (t := 1) rfl (by decide) rfl)) nofun
  have u28 := u27.step (RStep.run (Step.grMigEnd (t := 1) rfl (by decide))) nofun
  exact ⟨_, _, h9, rfl, u28, rfl, rfl, rfl⟩

/-- The claim is false: thread 0 takes a range iterator, thread 1 grows the table and deletes it. -/
theorem C55_sync_range_of_deleted_table : ∃ x : RSt Nat Nat, RReach 0 1 x ∧
    x.it 0 = some (0, 0) ∧ x.s.pc 0 = .idle ⟨0, false⟩ ∧ x.s.heap 0 = none := by
  obtain ⟨x, y, h1, h2, h3, h4, h5, h6⟩ := C55_not_vacuous_sync
  have r1 := h3.reach (h1.step (.range h2))
  have r2 := r1.step (.run (Step.grPublish (t := 1) h6))
  have r3 := r2.step (.run (Step.grDelete (t := 1) (h := ⟨1, false⟩) (a := 0) (v := 0) rfl))
  exact ⟨_, r3, h4, h5, rfl⟩

end Sync

namespace Async

/-! ## The asynchronous protocol -/

section
variable {T A : Type} [DecidableEq T] [DecidableEq A]

/-- Only a part: the table of the iterator exists until the handle loads another one (at the beginning of a
later call). -/
theorem C55_async_until_next_table_partial {a : A} {n : Nat} {x : RSt T A} (hr : RReach a n x) {t : T} {b : A}
    {v : Nat} (_hi : x.it t = some (b, v))
    (hp : x.s.pc t = .use ⟨b, v⟩ ∨ x.s.pc t = .idle ⟨b, v⟩ ∨ x.s.pc t = .gone ⟨b, v⟩) :
    ∃ o, x.s.heap b = some o ∧ o.ver = v := by
  have ht := hr.inv.t t
  rcases hp with h | h | h <;> rw [h] at ht
  all_goals
    obtain ⟨o, h1, h2, -⟩ := ht
    exact ⟨o, h1.1, h2⟩

end

/-- The table of the iterator is retired, and still exists. -/
theorem C55_not_vacuous_async : ∃ x : RSt Bool Nat, RReach 0 1 x ∧ x.it false = some (0, 0) ∧
    x.s.pc false = .idle ⟨0, 0⟩ ∧ x.s.glob = 1 ∧ ∃ o, x.s.heap 0 = some o ∧ o.retired = true := by
  have r0 : RReach (T := Bool) (0 : Nat) 1 _ := RReach.init
  have r1 := r0.step (RStep.run (Step.create (t := false) rfl))
  have r2 := r1.step (RStep.run (Step.prot (t := false) rfl rfl))
  have r3 := r2.step (RStep.run (Step.ldDone (t := false) rfl rfl rfl (by decide)))
  have r4 := r3.step (RStep.run (Step.gtOk (t := false) rfl (Nat.le_refl 0)))
  have r5 := r4.step (RStep.range (t := false) rfl rfl)
  have r6 := r5.step (RStep.run (Step.exitDone (t := false) rfl))
  have r7 := r6.step (RStep.run (Step.create (t := true) rfl))
  have r8 := r7.step (RStep.run (Step.prot (t := true) rfl rfl))
  have r9 := r8.step (RStep.run (Step.ldDone (t := true) rfl rfl rfl (by decide)))
  have r10 := r9.step (RStep.run (Step.gtOk (t := true) rfl (Nat.le_refl 0)))
  have r11 := r10.step (RStep.run (Step.exitGrow (t := true) rfl))
  have r12 := r11.step (RStep.run (Step.grMake (t := true) (b := 1) 1 rfl rfl rfl))
  have r13 := r12.step (RStep.run (Step.grCas (t := true) rfl rfl rfl rfl))
  have r14 := r13.step (RStep.run (Step.mgIn (t := true) rfl))
  have r15 := r14.step (RStep.run (Step.mgProt (t := true) rfl rfl))
  have r16 := r15.step (RStep.run (Step.mgSome (t := true) rfl rfl (by intro h; cases h)))
  have r17 := r16.step (RStep.run (Step.mgNext (t := true) rfl rfl rfl rfl))
  have r18 := r17.step (RStep.run (Step.claim (t := true) rfl rfl (Nat.lt_succ_self 0)))
  have r19 := r18.step (RStep.run (Step.done (t := true) rfl rfl))
  have r20 := r19.step (RStep.run (Step.leave (t := true) rfl rfl (Nat.le_refl 1)))
  have r21 := r20.step (RStep.run (Step.mgOut (t := true) rfl))
  have r22 := r21.step (RStep.run (Step.mgUn (t := true) rfl rfl))
  have r23 := r22.step (RStep.run (Step.mgUn2 (t := true) rfl))
  have r24 := r23.step (RStep.run (Step.egGo (t := true) rfl rfl))
  have r25 := r24.step (RStep.run (Step.egNext (t := true) rfl rfl))
  have r26 := r25.step (RStep.run (Step.egCas (t := true) rfl rfl))
  have r27 := r26.step (RStep.run (Step.egEpoch (t := true) rfl rfl))
  have r28 := r27.step (RStep.run (Step.egRetire (t := true) rfl rfl))
  exact ⟨_, r28, rfl, rfl, rfl, _, rfl, rfl⟩

/-- The claim is false: the owner of a range iterator calls another function of the same handle; the handle
changes to the new table, and the old one is destroyed. -/
theorem C55_async_range_of_deleted_table : ∃ x : RSt Bool Nat, RReach 0 1 x ∧ x.it false = some (0, 0) ∧
    x.s.pc false = .idle ⟨1, 1⟩ ∧ x.s.heap 0 = none := by
  have r0 : RReach (T := Bool) (0 : Nat) 1 _ := RReach.init
  have r1 := r0.step (RStep.run (Step.create (t := false) rfl))
  have r2 := r1.step (RStep.run (Step.prot (t := false) rfl rfl))
  have r3 := r2.step (RStep.run (Step.ldDone (t := false) rfl rfl rfl (by decide)))
  have r4 := r3.step (RStep.run (Step.gtOk (t := false) rfl (Nat.le_refl 0)))
  have r5 := r4.step (RStep.range (t := false) rfl rfl)
  have r6 := r5.step (RStep.run (Step.exitDone (t := false) rfl))
  have r7 := r6.step (RStep.run (Step.create (t := true) rfl))
  have r8 := r7.step (RStep.run (Step.prot (t := true) rfl rfl))
  have r9 := r8.step (RStep.run (Step.ldDone (t := true) rfl rfl rfl (by decide)))
  have r10 := r9.step (RStep.run (Step.gtOk (t := true) rfl (Nat.le_refl 0)))
  have r11 := r10.step (RStep.run (Step.exitGrow (t := true) rfl))
  have r12 := r11.step (RStep.run (Step.grMake (t := true) (b := 1) 1 rfl rfl rfl))
  have r13 := r12.step (RStep.run (Step.grCas (t := true) rfl rfl rfl rfl))
  have r14 := r13.step (RStep.run (Step.mgIn (t := true) rfl))
  have r15 := r14.step (RStep.run (Step.mgProt (t := true) rfl rfl))
  have r16 := r15.step (RStep.run (Step.mgSome (t := true) rfl rfl (by intro h; cases h)))
  have r17 := r16.step (RStep.run (Step.mgNext (t := true) rfl rfl rfl rfl))
  have r18 := r17.step (RStep.run (Step.claim (t := true) rfl rfl (Nat.lt_succ_self 0)))
  have r19 := r18.step (RStep.run (Step.done (t := true) rfl rfl))
  have r20 := r19.step (RStep.run (Step.leave (t := true) rfl rfl (Nat.le_refl 1)))
  have r21 := r20.step (RStep.run (Step.mgOut (t := true) rfl))
  have r22 := r21.step (RStep.run (Step.mgUn (t := true) rfl rfl))
  have r23 := r22.step (RStep.run (Step.mgUn2 (t := true) rfl))
  have r24 := r23.step (RStep.run (Step.egGo (t := true) rfl rfl))
  have r25 := r24.step (RStep.run (Step.egNext (t := true) rfl rfl))
  have r26 := r25.step (RStep.run (Step.egCas (t := true) rfl rfl))
  have r27 := r26.step (RStep.run (Step.egEpoch (t := true) rfl rfl))
  have r28 := r27.step (RStep.run (Step.egRetire (t := true) rfl rfl))
  have r29 := r28.step (RStep.run (Step.unprot (t := true) rfl))
  have r30 := r29.step (RStep.run (Step.prot (t := true) rfl rfl))
  have r31 := r30.step (RStep.run (Step.ldDone (t := true) rfl rfl rfl (by decide)))
  have r32 := r31.step (RStep.run (Step.gtOld (t := false) rfl (by decide)))
  have r33 := r32.step (RStep.run (Step.unprot (t := false) rfl))
  have r34 := r33.step (RStep.run (Step.prot (t := false) rfl rfl))
  have r35 := r34.step (RStep.run (Step.ldUse (t := false) rfl rfl rfl))
  have r36 := r35.step (RStep.run (Step.exitDone (t := false) rfl))
  have r37 := r36.step (RStep.run (Step.free (a := 0) rfl rfl (by decide)))
  exact ⟨_, r37, rfl, rfl, rfl⟩

end Async
end Growt
