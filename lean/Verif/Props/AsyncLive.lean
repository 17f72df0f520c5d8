import Verif.AsyncLive
import Verif.Reclaim
import Verif.Props.Async

/-!
# C75: a growth step of the asynchronous table cannot deadlock

`∀ L : List A, ∃ b, b ∉ L`: there is always a free address for the new table (the allocation in
`estrat_async.hpp:222-224` does not fail).
-/

set_option linter.unusedSectionVars false

namespace Growt
namespace Async
section
variable {T A : Type} [DecidableEq T] [DecidableEq A]

theorem Run.steps {P : T → Prop} {s s' : St T A} (h : Run P s s') : Steps s s' := by
  have key : ∀ s0, Steps s0 s → Steps s0 s' := by
    induction h with
    | refl => exact fun _ h => h
    | step u hu hb hs hm ho _ ih => exact fun s0 h0 => ih s0 (h0.step hs)
  exact key s .refl

/-- Whatever has happened, every thread that is inside an operation (or creates its handle, or helps from
the pool) can come to rest, with the help of those threads only that migrate or have just exchanged the current
table; unless it waits for an epoch that is over.

Missing: in that case it never comes to rest, see C26. -/
theorem C75_no_deadlock_partial (hA : ∀ L : List A, ∃ b, b ∉ L) {a : A} {n : Nat} {l : List (Lab T A)} {s : St T A}
    (h : Reach a n l s) {t : T} (hb : (s.pc t).busy = true) :
    (∃ s', Run (· = t) s s' ∧ (s'.pc t).rests = true) ↔ ¬ s.overtaken t := by
  constructor
  · rintro ⟨s', hr, hs⟩ ⟨c, v, x, o, hp, ho, hv⟩
    rw [(stuck h hp ho hv hr.steps).1] at hs
    cases hs
  · exact ends hA ⟨l, h⟩ t (.inl hb)

/-- If no thread waits for an epoch that is over, all threads can come to rest.  Then no growth step is
pending: nobody is counted as a helper, the epoch is that of the current table, which has no successor, and every
other table has been retired. -/
theorem C75_quiescence_partial (hA : ∀ L : List A, ∃ b, b ∉ L) {a : A} {n : Nat} {l : List (Lab T A)} {s : St T A}
    (h : Reach a n l s) (ho : ∀ t, ¬ s.overtaken t) :
    ∃ l' s', Run (fun _ => True) s s' ∧ Reach a n l' s' ∧ (∀ t, (s'.pc t).busy = false) ∧ s'.nHelper = 0 ∧
      (∃ o, s'.heap s'.glob = some o ∧ o.ver = s'.epoch ∧ o.next = none) ∧
      ∀ x o, s'.heap x = some o → x ≠ s'.glob → o.retired = true := by
  obtain ⟨s', hr, hb⟩ := quiesce hA ⟨l, h⟩ ho
  obtain ⟨l', h'⟩ := hr.reach ⟨l, h⟩
  have i := Inv.reach h'
  have hz : s'.nHelper = 0 := by
    obtain ⟨L, -, h2, h3⟩ := i.helpers
    cases L with
    | nil => exact h3.symm
    | cons u L =>
      have hu := (h2 u).1 (List.mem_cons_self ..)
      have := hb u
      cases hp : s'.pc u <;> rw [hp] at hu this <;> first | (cases hu; done) | (cases this; done)
  have hgc : s'.glob = s'.cur := by
    refine Decidable.byContradiction fun hne => ?_
    obtain ⟨u, hd, hp⟩ := i.pub hne
    have := hb u
    rw [hp] at this; cases this
  have hret : ∀ x o, s'.heap x = some o → x ≠ s'.glob → o.retired = true := by
    intro x o hx hne
    have ownless : ∀ t y, (s'.pc t).own ≠ some y := by
      intro t y hy
      have := hb t
      cases hp : s'.pc t <;> rw [hp] at hy this <;> first | (cases hy; done) | (cases this; done)
    rcases h'.kept x o hx with h1 | h1 | ⟨t, h1⟩ | ⟨t, h1⟩ | ⟨t, hd, og, h1, -⟩
    · exact absurd h1 hne
    · exact h1
    · exact absurd h1 (ownless _ _)
    · exact absurd h1 (ownless _ _)
    · have := hb t
      cases hp : s'.pc t <;> rw [hp] at h1 this <;> first | (cases h1; done) | (cases this; done)
  obtain ⟨o, h1, h2⟩ := i.g.glob
  have hv : o.ver = s'.epoch := by
    rw [h2]; unfold St.vg; rw [if_pos hgc]
  refine ⟨l', s', hr, h', hb, hz, ⟨o, h1.1, hv, ?_⟩, hret⟩
  cases hn : o.next with
  | none => rfl
  | some b =>
    obtain ⟨ob, p1, p2⟩ := i.g.succ o b h1.1 hn
    have hne : b ≠ s'.glob := by
      rintro rfl
      have := p1.1.symm.trans h1.1
      cases this
      omega
    have := i.g.retired b ob p1 (hret b ob p1.1 hne)
    have := vg_bounds s'
    omega

/-- A helper delays the growth step: while a thread stays inside a block of the current table, that table stays
the current one. -/
theorem C75_helper_delays {a : A} {n : Nat} {l : List (Lab T A)} {s s' : St T A} (h : Reach a n l s) {u : T}
    {w : Option (Hd A)} {y : A} {k : Nat} (hp : s.pc u = .mg5 w s.glob y k) (ho : Others u s s') :
    s'.glob = s.glob :=
  (held ⟨l, h⟩ hp ho).1

/-- `Run`, extended at its end. -/
theorem Run.then {P : T → Prop} {s s1 s' : St T A} {e : Lab T A} (h : Run P s s1) (u : T) (hu : P u)
    (hs : Step s1 e s') (hb : (s1.pc u).busy = true) (hm : s'.pc u ≠ s1.pc u)
    (ho : ∀ x, x ≠ u → s'.pc x = s1.pc x) : Run P s s' :=
  h.trans (.step u (.inl hu) hb hs hm ho (.refl _))

theorem Reach.stay {a : A} {n : Nat} {l : List (Lab T A)} {s : St T A} (_ : Reach a n l s) (P : T → Prop) :
    Run P s s := .refl s

/-- An operation does not: one thread is inside an operation on the first table and does not move; another one
grows the table, publishes the second one and comes to rest. -/
theorem C75_operation_does_not_delay : ∃ l, ∃ s s' : St Bool Nat, Reach 0 1 l s ∧ s.glob = 0 ∧
    s.pc false = .use ⟨0, 0⟩ ∧ s.pc true = .gr1 ⟨0, 0⟩ ∧ Run (· = true) s s' ∧ s'.pc false = .use ⟨0, 0⟩ ∧
    s'.glob = 1 ∧ (s'.pc true).rests = true := by
  have r0 : Reach (T := Bool) (0 : Nat) 1 _ _ := Reach.init
  have r1 := r0.step (Step.create (t := true) rfl)
  have r2 := r1.step (Step.prot (t := true) rfl rfl)
  have r3 := r2.step (Step.ldDone (t := true) rfl rfl rfl (by decide))
  have f1 := r3.step (Step.create (t := false) rfl)
  have f2 := f1.step (Step.prot (t := false) rfl rfl)
  have f3 := f2.step (Step.ldDone (t := false) rfl rfl rfl (by decide))
  have f4 := f3.step (Step.gtOk (t := false) rfl (Nat.le_refl 0))
  have g1 := f4.step (Step.gtOk (t := true) rfl (Nat.le_refl 0))
  have g2 := g1.step (Step.exitGrow (t := true) rfl)
  have q0 := g2.stay (· = true)
  have q1 := q0.then true rfl (Step.grMake (t := true) (b := 1) 1 rfl rfl rfl) rfl (by nofun)
    (fun x hx => by cases x <;> first | rfl | exact absurd rfl hx)
  have q2 := q1.then true rfl (Step.grCas (t := true) rfl rfl rfl rfl) rfl (by nofun)
    (fun x hx => by cases x <;> first | rfl | exact absurd rfl hx)
  have q3 := q2.then true rfl (Step.mgIn (t := true) rfl) rfl (by nofun)
    (fun x hx => by cases x <;> first | rfl | exact absurd rfl hx)
  have q4 := q3.then true rfl (Step.mgProt (t := true) rfl rfl) rfl (by nofun)
    (fun x hx => by cases x <;> first | rfl | exact absurd rfl hx)
  have q5 := q4.then true rfl (Step.mgSome (t := true) rfl rfl (by intro h; cases h)) rfl (by nofun)
    (fun x hx => by cases x <;> first | rfl | exact absurd rfl hx)
  have q6 := q5.then true rfl (Step.mgNext (t := true) rfl rfl rfl rfl) rfl (by nofun)
    (fun x hx => by cases x <;> first | rfl | exact absurd rfl hx)
  have q7 := q6.then true rfl (Step.claim (t := true) rfl rfl (Nat.lt_succ_self 0)) rfl (by nofun)
    (fun x hx => by cases x <;> first | rfl | exact absurd rfl hx)
  have q8 := q7.then true rfl (Step.done (t := true) rfl rfl) rfl (by nofun)
    (fun x hx => by cases x <;> first | rfl | exact absurd rfl hx)
  have q9 := q8.then true rfl (Step.leave (t := true) rfl rfl (Nat.le_refl 1)) rfl (by nofun)
    (fun x hx => by cases x <;> first | rfl | exact absurd rfl hx)
  have q10 := q9.then true rfl (Step.mgOut (t := true) rfl) rfl (by nofun)
    (fun x hx => by cases x <;> first | rfl | exact absurd rfl hx)
  have q11 := q10.then true rfl (Step.mgUn (t := true) rfl rfl) rfl (by nofun)
    (fun x hx => by cases x <;> first | rfl | exact absurd rfl hx)
  have q12 := q11.then true rfl (Step.mgUn2 (t := true) rfl) rfl (by nofun)
    (fun x hx => by cases x <;> first | rfl | exact absurd rfl hx)
  have q13 := q12.then true rfl (Step.egGo (t := true) rfl rfl) rfl (by nofun)
    (fun x hx => by cases x <;> first | rfl | exact absurd rfl hx)
  have q14 := q13.then true rfl (Step.egNext (t := true) rfl rfl) rfl (by nofun)
    (fun x hx => by cases x <;> first | rfl | exact absurd rfl hx)
  have q15 := q14.then true rfl (Step.egCas (t := true) rfl rfl) rfl (by nofun)
    (fun x hx => by cases x <;> first | rfl | exact absurd rfl hx)
  have q16 := q15.then true rfl (Step.egEpoch (t := true) rfl rfl) rfl (by nofun)
    (fun x hx => by cases x <;> first | rfl | exact absurd rfl hx)
  have q17 := q16.then true rfl (Step.egRetire (t := true) rfl rfl) rfl (by nofun)
    (fun x hx => by cases x <;> first | rfl | exact absurd rfl hx)
  have q18 := q17.then true rfl (Step.unprot (t := true) rfl) rfl (by nofun)
    (fun x hx => by cases x <;> first | rfl | exact absurd rfl hx)
  have q19 := q18.then true rfl (Step.prot (t := true) rfl rfl) rfl (by nofun)
    (fun x hx => by cases x <;> first | rfl | exact absurd rfl hx)
  have q20 := q19.then true rfl (Step.ldDone (t := true) rfl rfl rfl (by decide)) rfl (by nofun)
    (fun x hx => by cases x <;> first | rfl | exact absurd rfl hx)
  exact ⟨_, _, _, g2, rfl, rfl, rfl, q20, rfl, rfl, rfl⟩

/-- The hypotheses are met just before a publication, while another thread creates its handle: nobody has been
overtaken yet, and the publishing thread could finish (which would overtake the other one). -/
theorem C75_not_vacuous : ∃ l, ∃ s : St Bool Nat, Reach 0 1 l s ∧ (s.pc true).busy = true ∧
    (s.pc false).busy = true ∧ (∀ t, ¬ s.overtaken t) ∧ (∃ o, s.heap s.glob = some o ∧ o.next = some 1) := by
  obtain ⟨l, s, hr, hg, he, hn, hc, hp, hq, ⟨o, ho, hv, hb, hx⟩, -⟩ := ex_ready
  refine ⟨l, s, hr, by rw [hp]; rfl, by rw [hq]; rfl, ?_, o, by rw [hg]; exact ho, hx⟩
  rintro t ⟨c, v, x, o', h1, h2, h3⟩
  rw [he] at h3
  exact Nat.not_lt_zero _ h3

/-- And a thread that copies a block of the current table while another one is inside an operation. -/
theorem C75_delays_not_vacuous : ∃ l, ∃ s : St Bool Nat, Reach 0 1 l s ∧
    s.pc true = .mg5 (some ⟨0, 0⟩) s.glob 1 0 ∧ s.pc false = .use ⟨0, 0⟩ := by
  have r0 : Reach (T := Bool) (0 : Nat) 1 _ _ := Reach.init
  have r1 := r0.step (Step.create (t := true) rfl)
  have r2 := r1.step (Step.prot (t := true) rfl rfl)
  have r3 := r2.step (Step.ldDone (t := true) rfl rfl rfl (by decide))
  have f1 := r3.step (Step.create (t := false) rfl)
  have f2 := f1.step (Step.prot (t := false) rfl rfl)
  have f3 := f2.step (Step.ldDone (t := false) rfl rfl rfl (by decide))
  have f4 := f3.step (Step.gtOk (t := false) rfl (Nat.le_refl 0))
  have r4 := f4.step (Step.gtOk (t := true) rfl (Nat.le_refl 0))
  have r5 := r4.step (Step.exitGrow (t := true) rfl)
  have r6 := r5.step (Step.grMake (t := true) (b := 1) 1 rfl rfl rfl)
  have r7 := r6.step (Step.grCas (t := true) rfl rfl rfl rfl)
  have r8 := r7.step (Step.mgIn (t := true) rfl)
  have r9 := r8.step (Step.mgProt (t := true) rfl rfl)
  have r10 := r9.step (Step.mgSome (t := true) rfl rfl (by intro h; cases h))
  have r11 := r10.step (Step.mgNext (t := true) rfl rfl rfl rfl)
  have r12 := r11.step (Step.claim (t := true) rfl rfl (Nat.lt_succ_self 0))
  exact ⟨_, _, r12, rfl, rfl⟩

end
end Async
end Growt
