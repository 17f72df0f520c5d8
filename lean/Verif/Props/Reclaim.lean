import Verif.Reclaim
import Verif.Props.Sync

/-!
# C56: replaced tables are reclaimed

When a growth step is over, the memory of the replaced table (and of new tables that were not used) is given
back: between operations only the current table exists, or (asynchronous protocol) every other table may be
destroyed by the reclamation library.
-/

set_option linter.unusedSectionVars false

namespace Growt
namespace Sync

/-! ## The synchronised protocol -/

section
variable {T A : Type} [DecidableEq T] [DecidableEq A]

/-- Whenever no thread is in an operation, exactly one table exists. -/
theorem C56_sync_one_table {a : A} {n : Nat} {s : St T A} (hr : Reach false a n s)
    (hq : ∀ t, s.pc t = .out ∨ ∃ h, s.pc t = .idle h) :
    ∃ b o, s.table = .clear b ∧ s.heap b = some o ∧ ∀ c oc, s.heap c = some oc → c = b := by
  have k := hr.kept
  have hph : s.phase = .quiet := by
    cases hp : s.phase <;> first
      | rfl
      | (obtain ⟨t, ht⟩ := k.busy (by rw [hp]; nofun)
         rcases hq t with h | ⟨h', h⟩ <;> rw [h] at ht <;> cases ht)
  have hg := hr.inv.glob
  unfold Glob at hg
  rw [hph] at hg
  obtain ⟨b, o, h1, h2, -⟩ := hg
  refine ⟨b, o, h1, h2, fun c oc hc => ?_⟩
  rcases k.tabs c oc hc with h | h | ⟨t, ht⟩
  · simp only [St.curTab, hph, h1] at h
    cases h
    rfl
  · rw [hph] at h; cases h
  · rcases hq t with h | ⟨h', h⟩ <;> rw [h] at ht <;> cases ht

/-- At any time at most two tables exist that no thread is about to delete. -/
theorem C56_sync_two_tables {a : A} {n : Nat} {s : St T A} (hr : Reach false a n s) :
    ∃ b c, ∀ x o, s.heap x = some o → x = b ∨ x = c ∨ ∃ t h v, s.pc t = .gr14 h x v := by
  have k := hr.kept
  obtain ⟨b, ob, h1, h2, -⟩ := hr.inv.curTab
  refine ⟨b, s.phase.new.getD b, fun x o hx => ?_⟩
  rcases k.tabs x o hx with h | h | ⟨t, ht⟩
  · rw [h1] at h; cases h; exact .inl rfl
  · rw [h]; exact .inr (.inl rfl)
  · refine .inr (.inr ⟨t, ?_⟩)
    cases hp : s.pc t <;> rw [hp] at ht <;> cases ht
    exact ⟨_, _, rfl⟩

end

/-- A table that has grown once, between operations. -/
theorem C56_not_vacuous_sync : ∃ s : St Nat Nat, Reach false 0 1 s ∧
    (∀ t, s.pc t = .out ∨ ∃ h, s.pc t = .idle h) ∧ s.table = .clear 1 := by
  obtain ⟨s, h5, hs⟩ := two_handles false
  subst hs
  have h6 := h5.step (Step.call (t := 1) rfl)
  have h7 := h6.step (Step.gtLoad (t := 1) rfl rfl)
  have h8 := h7.step (Step.gtStore (t := 1) rfl)
  have h9 := h8.step (Step.gtSame (t := 1) rfl rfl rfl)
  have h10 := h9.step (Step.opEnd (t := 1) rfl .grow)
  have h11 := h10.step (Step.grEpoch (t := 1) rfl)
  have h12 := h11.step (Step.grCas (t := 1) rfl (by decide) rfl)
  have h13 := h12.step (Step.grLoad (t := 1) rfl rfl rfl)
  have h14 := h13.step (Step.grMark (t := 1) rfl rfl)
  have h15 := h14.step (Step.grMake (t := 1) (b := 1) 1 rfl rfl rfl)
  have h16 := h15.step (Step.grOps (t := 1) rfl)
  have h17 := h16.step (Step.grOpsNext (t := 1) rfl (by decide) (by decide))
  have h18 := h17.step (Step.grOpsNext (t := 1) rfl (by decide) (by decide))
  have h19 := h18.step (Step.grOpsEnd (t := 1) rfl (by decide))
  have h20 := h19.step (Step.grNext (t := 1) rfl rfl)
  have h21 := h20.step (Step.mgLoad (t := 1) rfl rfl rfl)
  have h22 := h21.step (Step.mgStore (t := 1) rfl)
  have h23 := h22.step (Step.mgNext (t := 1) rfl rfl rfl rfl)
  have h24 := h23.step (Step.mgClaim (t := 1) rfl rfl rfl (by decide))
  have h25 := h24.step (Step.mgDone (t := 1) rfl)
  have h26 := h25.step (Step.mgLeave (t := 1) rfl rfl rfl (by decide))
  have h27 := h26.step (Step.mgEnd (t := 1) rfl rfl rfl)
  have h28 := h27.step (Step.grNull (t := 1) rfl)
  have h29 := h28.step (Step.grMig (t := 1) rfl)
  have h30 := h29.step (Step.grMigNext (t := 1) rfl (by decide) rfl)
  have h31 := h30.step (Step.grMigNext (t := 1) rfl (by decide) rfl)
  have h32 := h31.step (Step.grMigEnd (t := 1) rfl (by decide))
  have h33 := h32.step (Step.grPublish (t := 1) rfl)
  have h34 := h33.step (Step.grDelete (t := 1) rfl)
  refine ⟨_, h34, fun t => ?_, rfl⟩
  match t with
  | 0 => exact .inr ⟨_, rfl⟩
  | 1 => exact .inr ⟨_, rfl⟩
  | _ + 2 => exact .inl rfl

end Sync

namespace Async

/-! ## The asynchronous protocol -/

section
variable {T A : Type} [DecidableEq T] [DecidableEq A]

/-- Only a part: if no thread is in an operation, every handle has seen the current epoch, and no handle has been
destroyed, then every table but the current one may be destroyed. -/
theorem C56_async_reclaimable_partial {a : A} {n : Nat} {l : List (Lab T A)} {s : St T A} (hr : Reach a n l s)
    (hq : ∀ t, s.pc t = .fresh ∨ s.pc t = .pool ∨ ∃ h, s.pc t = .idle h ∧ h.ep = s.epoch) {b : A} {o : Obj A}
    (hb : s.heap b = some o) (hne : b ≠ s.glob) :
    ∃ s', Step s (.free b) s' ∧ s'.heap b = none ∧ ∀ c, c ≠ b → s'.heap c = s.heap c := by
  have k := hr.kept
  have i := Inv.reach hr
  have none : ∀ t, (s.pc t).own = none ∧ (s.pc t).growing = none := by
    intro t
    rcases hq t with h | h | ⟨h', h, -⟩ <;> rw [h] <;> exact ⟨rfl, rfl⟩
  have hret : o.retired = true := by
    rcases k b o hb with h | h | ⟨t, h⟩ | ⟨t, h⟩ | ⟨t, h', og, h, -⟩
    · exact absurd h hne
    · exact h
    · rw [(none t).1] at h; cases h
    · rw [(none t).1] at h; cases h
    · rw [(none t).2] at h; cases h
  have hpub : Pub s b o := by
    refine ⟨hb, ?_⟩
    cases hp : o.priv
    · rfl
    · have := i.g.priv b o hb hp
      rw [hret] at this; cases this
  refine ⟨_, Step.free hb hret ?_, upd_same _ _ _, fun c hc => upd_ne _ _ hc⟩
  intro t ht
  rcases hq t with h | h | ⟨h', h, he⟩
  · rw [h] at ht; cases ht
  · rw [h] at ht; cases ht
  · rw [h] at ht
    have hb' : b = h'.tab := by simpa [PC.prot] using ht
    have hi := i.t t
    rw [h] at hi
    obtain ⟨o', h1, h2, -⟩ := hi
    rw [← hb'] at h1
    have := hb.symm.trans h1.1
    cases this
    have := i.g.retired b o hpub hret
    omega

/-- The claim is false: the table of a handle that has been destroyed exists for ever. -/
theorem C56_async_destroyed_handle {a : A} {n : Nat} {l : List (Lab T A)} {s s' : St T A} (hr : Reach a n l s)
    {t : T} {h : Hd A} (hp : s.pc t = .gone h) (hs : Steps s s') :
    ∃ o, s'.heap h.tab = some o ∧ o.ver = h.ep := by
  have key : (∃ l, Reach a n l s') ∧ s'.pc t = .gone h := by
    induction hs with
    | refl => exact ⟨⟨l, hr⟩, hp⟩
    | @step s1 s2 e _ hs ih =>
      obtain ⟨⟨l', h1⟩, h2⟩ := ih
      refine ⟨⟨_, h1.step hs⟩, ?_⟩
      have other : ∀ {t' : T} {p q : PC A}, s1.pc t' = q → q ≠ .gone h → upd s1.pc t' p t = .gone h := by
        intro t' p q h3 h4
        rw [upd_ne]
        · exact h2
        · intro e
          subst e
          exact h4 (h3.symm.trans h2)
      cases hs
      all_goals first
        | exact h2
        | (rename_i hp; exact other hp nofun)
        | (rename_i hp _; exact other hp nofun)
        | (rename_i hp _ _; exact other hp nofun)
        | (rename_i hp _ _ _; exact other hp nofun)
  obtain ⟨⟨l', h1⟩, h2⟩ := key
  have ht := (Inv.reach h1).t t
  rw [h2] at ht
  obtain ⟨o, h3, h4, -⟩ := ht
  exact ⟨o, h3.1, h4⟩

end

/-- Two handles that have seen the new table; the old one is retired. -/
theorem C56_not_vacuous_async : ∃ l, ∃ s : St Bool Nat, Reach 0 1 l s ∧ s.glob = 1 ∧
    (∀ t, s.pc t = .fresh ∨ s.pc t = .pool ∨ ∃ h, s.pc t = .idle h ∧ h.ep = s.epoch) ∧
    ∃ o, s.heap 0 = some o := by
  have r0 : Reach (T := Bool) (0 : Nat) 1 _ _ := Reach.init
  have r1 := r0.step (Step.create (t := false) rfl)
  have r2 := r1.step (Step.prot (t := false) rfl rfl)
  have r3 := r2.step (Step.ldDone (t := false) rfl rfl rfl (by decide))
  have r4 := r3.step (Step.gtOk (t := false) rfl (Nat.le_refl 0))
  have r5 := r4.step (Step.exitDone (t := false) rfl)
  have r6 := r5.step (Step.create (t := true) rfl)
  have r7 := r6.step (Step.prot (t := true) rfl rfl)
  have r8 := r7.step (Step.ldDone (t := true) rfl rfl rfl (by decide))
  have r9 := r8.step (Step.gtOk (t := true) rfl (Nat.le_refl 0))
  have r10 := r9.step (Step.exitGrow (t := true) rfl)
  have r11 := r10.step (Step.grMake (t := true) (b := 1) 1 rfl rfl rfl)
  have r12 := r11.step (Step.grCas (t := true) rfl rfl rfl rfl)
  have r13 := r12.step (Step.mgIn (t := true) rfl)
  have r14 := r13.step (Step.mgProt (t := true) rfl rfl)
  have r15 := r14.step (Step.mgSome (t := true) rfl rfl (by intro h; cases h))
  have r16 := r15.step (Step.mgNext (t := true) rfl rfl rfl rfl)
  have r17 := r16.step (Step.claim (t := true) rfl rfl (Nat.lt_succ_self 0))
  have r18 := r17.step (Step.done (t := true) rfl rfl)
  have r19 := r18.step (Step.leave (t := true) rfl rfl (Nat.le_refl 1))
  have r20 := r19.step (Step.mgOut (t := true) rfl)
  have r21 := r20.step (Step.mgUn (t := true) rfl rfl)
  have r22 := r21.step (Step.mgUn2 (t := true) rfl)
  have r23 := r22.step (Step.egGo (t := true) rfl rfl)
  have r24 := r23.step (Step.egNext (t := true) rfl rfl)
  have r25 := r24.step (Step.egCas (t := true) rfl rfl)
  have r26 := r25.step (Step.egEpoch (t := true) rfl rfl)
  have r27 := r26.step (Step.egRetire (t := true) rfl rfl)
  have r28 := r27.step (Step.unprot (t := true) rfl)
  have r29 := r28.step (Step.prot (t := true) rfl rfl)
  have r30 := r29.step (Step.ldDone (t := true) rfl rfl rfl (by decide))
  have r31 := r30.step (Step.gtOld (t := false) rfl (by decide))
  have r32 := r31.step (Step.unprot (t := false) rfl)
  have r33 := r32.step (Step.prot (t := false) rfl rfl)
  have r34 := r33.step (Step.ldUse (t := false) rfl rfl rfl)
  have r35 := r34.step (Step.exitDone (t := false) rfl)
  refine ⟨_, _, r35, rfl, fun t => ?_, _, rfl⟩
  cases t
  · exact .inr (.inr ⟨_, rfl, rfl⟩)
  · exact .inr (.inr ⟨_, rfl, rfl⟩)

/-- A replaced table that no living handle uses and that will never be destroyed: one of two handles is destroyed
before it has seen the new table. -/
theorem C56_async_table_leaks : ∃ l, ∃ s : St Bool Nat, Reach 0 1 l s ∧ s.glob = 1 ∧ s.pc false = .gone ⟨0, 0⟩ ∧
    s.pc true = .idle ⟨1, 1⟩ ∧ ∀ s', Steps s s' → ∃ o, s'.heap 0 = some o ∧ o.ver = 0 := by
  have r0 : Reach (T := Bool) (0 : Nat) 1 _ _ := Reach.init
  have r1 := r0.step (Step.create (t := false) rfl)
  have r2 := r1.step (Step.prot (t := false) rfl rfl)
  have r3 := r2.step (Step.ldDone (t := false) rfl rfl rfl (by decide))
  have r4 := r3.step (Step.gtOk (t := false) rfl (Nat.le_refl 0))
  have r5 := r4.step (Step.exitDone (t := false) rfl)
  have r6 := r5.step (Step.create (t := true) rfl)
  have r7 := r6.step (Step.prot (t := true) rfl rfl)
  have r8 := r7.step (Step.ldDone (t := true) rfl rfl rfl (by decide))
  have r9 := r8.step (Step.gtOk (t := true) rfl (Nat.le_refl 0))
  have r10 := r9.step (Step.exitGrow (t := true) rfl)
  have r11 := r10.step (Step.grMake (t := true) (b := 1) 1 rfl rfl rfl)
  have r12 := r11.step (Step.grCas (t := true) rfl rfl rfl rfl)
  have r13 := r12.step (Step.mgIn (t := true) rfl)
  have r14 := r13.step (Step.mgProt (t := true) rfl rfl)
  have r15 := r14.step (Step.mgSome (t := true) rfl rfl (by intro h; cases h))
  have r16 := r15.step (Step.mgNext (t := true) rfl rfl rfl rfl)
  have r17 := r16.step (Step.claim (t := true) rfl rfl (Nat.lt_succ_self 0))
  have r18 := r17.step (Step.done (t := true) rfl rfl)
  have r19 := r18.step (Step.leave (t := true) rfl rfl (Nat.le_refl 1))
  have r20 := r19.step (Step.mgOut (t := true) rfl)
  have r21 := r20.step (Step.mgUn (t := true) rfl rfl)
  have r22 := r21.step (Step.mgUn2 (t := true) rfl)
  have r23 := r22.step (Step.egGo (t := true) rfl rfl)
  have r24 := r23.step (Step.egNext (t := true) rfl rfl)
  have r25 := r24.step (Step.egCas (t := true) rfl rfl)
  have r26 := r25.step (Step.egEpoch (t := true) rfl rfl)
  have r27 := r26.step (Step.egRetire (t := true) rfl rfl)
  have r28 := r27.step (Step.unprot (t := true) rfl)
  have r29 := r28.step (Step.prot (t := true) rfl rfl)
  have r30 := r29.step (Step.ldDone (t := true) rfl rfl rfl (by decide))
  have r31 := r30.step (Step.destroy (t := false) rfl)
  exact ⟨_, _, r31, rfl, rfl, rfl, fun s' h => C56_async_destroyed_handle r31 (t := false) rfl h⟩

end Async
end Growt
