import Verif.AsyncStep

/-!
# Asynchronous growth: publication, versions, waiting and memory

`Async.Reach a n l s`: the steps with labels `l` lead from a new table at address `a` with `n` blocks to
`s`, for any number of threads and any interleaving.
-/

set_option linter.unusedSectionVars false

namespace Growt
namespace Async

section
variable {T A : Type} [DecidableEq T] [DecidableEq A]

/-- How many successor tables have been attached. (specification, no code) -/
def attached (l : List (Lab T A)) : Nat :=
  l.countP (fun e => match e with | .attach _ _ _ => true | _ => false)

/-- How often the current table has been replaced. (specification, no code) -/
def replaced (l : List (Lab T A)) : Nat :=
  l.countP (fun e => match e with | .publish _ _ _ => true | _ => false)

/-! ## An execution

Thread `true` creates a handle, fills the table, grows it alone; thread `false` protects the old table
just before the new one is published. -/

/-- The state just before the publication. -/
theorem ex_ready : ∃ l, ∃ s : St Bool Nat, Reach 0 1 l s ∧ s.glob = 0 ∧ s.epoch = 0 ∧ s.nHelper = 0 ∧ s.cur = 0 ∧
    s.pc true = .eg3 ⟨0, 0⟩ (some 1) ∧ s.pc false = .ldW .init 0 0 ∧
    (∃ o, s.heap 0 = some o ∧ o.ver = 0 ∧ o.blocks = 1 ∧ o.next = some 1) ∧
    ∃ o, s.heap 1 = some o ∧ o.ver = 1 := by
  have r0 : Reach (T := Bool) (0 : Nat) 1 _ _ := Reach.init
  have r1 := r0.step (Step.create (t := true) rfl)
  have r2 := r1.step (Step.prot (t := true) rfl rfl)
  have r3 := r2.step (Step.ldDone (t := true) rfl rfl rfl (by decide))
  have r4 := r3.step (Step.gtOk (t := true) rfl (Nat.le_refl 0))
  have r5 := r4.step (Step.exitGrow (t := true) rfl)
  have r6 := r5.step (Step.grMake (t := true) (b := 1) 1 rfl rfl rfl)
  have r7 := r6.step (Step.grCas (t := true) rfl rfl rfl rfl)
  have r8 := r7.step (Step.mgIn (t := true) rfl)
  have r9 := r8.step (Step.mgProt (t := true) rfl rfl)
  have r10 := r9.step (Step.mgSome (t := true) rfl rfl (by intro h; cases h))
  have r11 := r10.step (Step.mgNext (t := true) rfl rfl rfl rfl)
  have r12 := r11.step (Step.claim (t := true) rfl rfl (Nat.lt_succ_self 0))
  have r13 := r12.step (Step.done (t := true) rfl rfl)
  have r14 := r13.step (Step.leave (t := true) rfl rfl (Nat.le_refl 1))
  have r15 := r14.step (Step.mgOut (t := true) rfl)
  have r16 := r15.step (Step.mgUn (t := true) rfl rfl)
  have r17 := r16.step (Step.mgUn2 (t := true) rfl)
  have r18 := r17.step (Step.egGo (t := true) rfl rfl)
  have r19 := r18.step (Step.egNext (t := true) rfl rfl)
  have r20 := r19.step (Step.create (t := false) rfl)
  have r21 := r20.step (Step.prot (t := false) rfl rfl)
  exact ⟨_, _, r21, rfl, rfl, rfl, rfl, rfl, rfl, ⟨_, rfl, rfl, rfl, rfl⟩, ⟨_, rfl, rfl⟩⟩

/-! ## C25 -/

/-- The current table is replaced only when every block of it has been migrated completely, by its
attached successor, whose version is the next one. -/
theorem C25_published_complete {a : A} {n : Nat} {l : List (Lab T A)} {s s' : St T A} {e : Lab T A}
    (h : Reach a n l s) (hs : Step s e s') (hch : s'.glob ≠ s.glob) :
    ∃ o ob, s.heap s.glob = some o ∧ s.heap s'.glob = some ob ∧ o.next = some s'.glob ∧
      ob.ver = o.ver + 1 ∧ ∀ k, k < o.blocks → o.fin k = true := by
  have i := Inv.reach h
  cases hs <;> first | exact absurd rfl hch | skip
  rename_i t hd n hp hg
  have ht := i.t t
  rw [hp] at ht
  obtain ⟨o, on, ho, hov, _, _, _, hnx, _, hfin, hn, hnv, _⟩ := publish_at i.g ht hg
  exact ⟨o, on, by rw [hg]; exact ho.1, hn.1, hnx, by omega, hfin⟩

/-- A block counts as migrated only when the thread that took it has finished it. -/
theorem C25_block_finished_by_its_owner {s s' : St T A} {e : Lab T A} (hs : Step s e s') {x : A}
    {o o' : Obj A} {k : Nat} (ho : s.heap x = some o) (ho' : s'.heap x = some o') (h0 : o.fin k = false)
    (h1 : o'.fin k = true) : ∃ t u c, s.pc t = .mg5 u x c k ∧ e = .done t x c := by
  have same : ∀ {p : Obj A}, s.heap x = some p → p.fin k = true → False := by
    intro p hp hk
    rw [ho] at hp; cases hp
    rw [h0] at hk; cases hk
  cases hs <;> first | exact (same ho' h1).elim | skip
  case grMake =>
    rename_i t hd b oh n hp hoh hb
    simp only [] at ho'
    by_cases e : x = b
    · subst e; rw [ho] at hb; cases hb
    · rw [upd_ne _ _ e] at ho'; exact (same ho' h1).elim
  case grCas =>
    rename_i t hd b oh ob hp hoh hn hb
    simp only [] at ho'
    by_cases e1 : x = hd.tab
    · subst e1; rw [upd_same] at ho'; cases ho'; exact (same hoh h1).elim
    · rw [upd_ne _ _ e1] at ho'
      by_cases e2 : x = b
      · subst e2; rw [upd_same] at ho'; cases ho'; exact (same hb h1).elim
      · rw [upd_ne _ _ e2] at ho'; exact (same ho' h1).elim
  case grDel =>
    rename_i t hd b hp
    simp only [] at ho'
    by_cases e : x = b
    · subst e; rw [upd_same] at ho'; cases ho'
    · rw [upd_ne _ _ e] at ho'; exact (same ho' h1).elim
  case claim =>
    rename_i t u c n oc hp hoc hk
    simp only [] at ho'
    by_cases e : x = c
    · subst e; rw [upd_same] at ho'; cases ho'; exact (same hoc h1).elim
    · rw [upd_ne _ _ e] at ho'; exact (same ho' h1).elim
  case leave =>
    rename_i t u c n oc hp hoc hk
    simp only [] at ho'
    by_cases e : x = c
    · subst e; rw [upd_same] at ho'; cases ho'; exact (same hoc h1).elim
    · rw [upd_ne _ _ e] at ho'; exact (same ho' h1).elim
  case done =>
    rename_i t u c n j oc hp hoc
    simp only [] at ho'
    by_cases e : x = c
    · subst e
      rw [upd_same] at ho'; cases ho'
      by_cases ek : k = j
      · subst ek; exact ⟨t, u, n, hp, rfl⟩
      · simp only [] at h1; rw [upd_ne _ _ ek] at h1; exact (same hoc h1).elim
    · rw [upd_ne _ _ e] at ho'; exact (same ho' h1).elim
  case egRetire =>
    rename_i t hd oc hp hoc
    simp only [] at ho'
    by_cases e : x = hd.tab
    · subst e; rw [upd_same] at ho'; cases ho'; exact (same hoc h1).elim
    · rw [upd_ne _ _ e] at ho'; exact (same ho' h1).elim
  case free =>
    rename_i b ob hob hr hn
    simp only [] at ho'
    by_cases e : x = b
    · subst e; rw [upd_same] at ho'; cases ho'
    · rw [upd_ne _ _ e] at ho'; exact (same ho' h1).elim

/-- `next_table` is never changed after it was set. -/
theorem C25_successor_fixed {s s' : St T A} {e : Lab T A} (hs : Step s e s') {x b : A} {o o' : Obj A}
    (ho : s.heap x = some o) (ho' : s'.heap x = some o') (hn : o.next = some b) : o'.next = some b :=
  (step_ole hs ho ho').next b hn

/-- 1 if the current table has a successor. (specification, no code) -/
def St.growing (s : St T A) : Nat := match s.next s.glob with | none => 0 | some _ => 1

theorem growing_of {s : St T A} {o : Obj A} (h : s.heap s.glob = some o) :
    s.growing = match o.next with | none => 0 | some _ => 1 := by
  unfold St.growing St.next
  rw [h]; rfl

/-- A step that is neither an attachment nor a publication does not start or end a growth. -/
theorem quiet_counts {s s' : St T A} {e : Lab T A} (i : Inv s) (hs : Step s e s')
    (h1 : ∀ t x y, e ≠ .attach t x y) (h2 : ∀ t x y, e ≠ .publish t x y) :
    s'.vg = s.vg ∧ s'.growing = s.growing := by
  have i' := i.step hs
  have other : ∀ (x : A) (v : Option (Obj A)) (pc : T → PC A), x ≠ s.glob →
      ({ s with heap := upd s.heap x v, pc := pc } : St T A).vg = s.vg ∧
      ({ s with heap := upd s.heap x v, pc := pc } : St T A).growing = s.growing := by
    intro x v pc hx
    refine ⟨rfl, ?_⟩
    unfold St.growing St.next
    simp only []
    rw [upd_ne _ _ (Ne.symm hx)]
  have set : ∀ (x : A) (o o' : Obj A) (pc : T → PC A), s.heap x = some o → o'.next = o.next →
      ({ s with heap := upd s.heap x (some o'), pc := pc } : St T A).vg = s.vg ∧
      ({ s with heap := upd s.heap x (some o'), pc := pc } : St T A).growing = s.growing := by
    intro x o o' pc ho hn
    by_cases e : x = s.glob
    · subst e
      refine ⟨rfl, ?_⟩
      rw [growing_of ho, growing_of (s := { s with heap := upd s.heap s.glob (some o'), pc := pc }) (upd_same _ _ _), hn]
    · exact other x _ pc e
  cases hs <;> first | exact ⟨rfl, rfl⟩ | skip
  case grMake =>
    rename_i t hd b oh n hp hoh hb
    refine other b _ _ ?_
    intro e
    obtain ⟨o, ho, _⟩ := i.g.glob
    rw [e, ho.1] at hb; cases hb
  case grCas => exact absurd rfl (h1 _ _ _)
  case grDel =>
    rename_i t hd b hp
    refine other b none _ ?_
    intro e
    obtain ⟨o, ho, _⟩ := i'.g.glob
    have := ho.1
    simp only [] at this
    rw [e, upd_same] at this; cases this
  case claim =>
    rename_i hp hoc hk
    exact set _ _ _ _ hoc rfl
  case leave =>
    rename_i hp hoc hk
    exact set _ _ _ _ hoc rfl
  case done =>
    rename_i hp hoc
    exact set _ _ _ _ hoc rfl
  case egCas => exact absurd rfl (h2 _ _ _)
  case egEpoch =>
    rename_i t hd n o hp ho
    have ht := i.t t
    rw [hp] at ht
    refine ⟨?_, rfl⟩
    have hv := (i.g.globP (by rw [ht.2.1]; exact ho)).2
    have : ({ s with epoch := o.ver, cur := n, pc := upd s.pc t (.eg5 hd) } : St T A).vg = o.ver := by
      unfold St.vg
      simp only []
      rw [if_pos ht.2.1]
    rw [this, hv]
  case egRetire =>
    rename_i hp hoc
    exact set _ _ _ _ hoc rfl
  case free =>
    rename_i b ob hob hr hn
    refine other b none s.pc ?_
    intro e
    obtain ⟨o, ho, _⟩ := i'.g.glob
    have := ho.1
    simp only [] at this
    rw [e, upd_same] at this; cases this

theorem publish_counts {s : St T A} (i : Inv s) {t : T} {h : Hd A} {n : A} (hp : s.pc t = .eg3 h (some n))
    (hg : s.glob = h.tab) :
    ({ s with glob := n, pc := upd s.pc t (.eg4 h n) } : St T A).vg = s.vg + 1 ∧ s.growing = 1 ∧
    ({ s with glob := n, pc := upd s.pc t (.eg4 h n) } : St T A).growing = 0 := by
  have ht := i.t t
  rw [hp] at ht
  obtain ⟨o, on, ho, hov, _, hvg, hgc, hnx, _, _, hn, hnv, hnc⟩ := publish_at i.g ht hg
  refine ⟨?_, ?_, ?_⟩
  · have : ({ s with glob := n, pc := upd s.pc t (.eg4 h n) } : St T A).vg = s.epoch + 1 := by
      unfold St.vg
      simp only []
      rw [if_neg hnc]
    rw [this, hvg]
  · rw [growing_of (by rw [hg]; exact ho.1), hnx]
  · rw [growing_of (s := { s with glob := n, pc := upd s.pc t (.eg4 h n) }) hn.1]
    cases e : on.next with
    | none => rfl
    | some b =>
      have := i.g.next n on hn (by rw [e]; intro h; cases h)
      omega

theorem attach_counts {s : St T A} (i : Inv s) {t : T} {h : Hd A} {b : A} {o ob : Obj A}
    (hp : s.pc t = .gr2 h b) (ho : s.heap h.tab = some o) (hn : o.next = none) (pc : T → PC A) :
    s.vg = o.ver ∧ h.tab = s.glob ∧ s.growing = 0 ∧
    ({ s with
        heap := upd (upd s.heap b (some { ob with priv := false })) h.tab (some { o with next := some b })
        pc := pc } : St T A).growing = 1 := by
  have ht := i.t t
  rw [hp] at ht
  obtain ⟨e1, e2, e3, e4, _⟩ := attach_at i.g ht.1 ho hn
  refine ⟨by omega, e1, by rw [growing_of (by rw [← e1]; exact ho), hn], ?_⟩
  rw [growing_of (o := { o with next := some b })]
  simp only []
  rw [← e1, upd_same]

theorem counts {a : A} {n : Nat} {l : List (Lab T A)} {s : St T A} (h : Reach a n l s) :
    attached l = s.vg + s.growing ∧ replaced l = s.vg := by
  induction h with
  | init =>
    refine ⟨?_, ?_⟩ <;> simp [attached, replaced, St.vg, St.growing, St.next, St.init]
  | @step l s s' e h hs ih =>
    have i := Inv.reach h
    by_cases h1 : ∃ t x y, e = .attach t x y
    · obtain ⟨t, x, y, rfl⟩ := h1
      cases hs with
      | grCas hp ho hn hb =>
        rename_i hd o ob
        obtain ⟨_, _, c3, c4⟩ := attach_counts (ob := ob) i hp ho hn (upd s.pc t (.mg0 (some hd)))
        refine ⟨?_, ?_⟩
        · rw [c4]
          have : attached (l ++ [Lab.attach t hd.tab y]) = attached l + 1 := by
            simp [attached, List.countP_append]
          rw [this, ih.1, c3]; rfl
        · have : replaced (l ++ [Lab.attach t hd.tab y]) = replaced l := by
            simp [replaced, List.countP_append]
          rw [this, ih.2]; rfl
    · by_cases h2 : ∃ t x y, e = .publish t x y
      · obtain ⟨t, x, y, rfl⟩ := h2
        cases hs with
        | egCas hp hg =>
          rename_i hd
          obtain ⟨c1, c2, c3⟩ := publish_counts i hp hg
          refine ⟨?_, ?_⟩
          · rw [c1, c3]
            have : attached (l ++ [Lab.publish t hd.tab y]) = attached l := by
              simp [attached, List.countP_append]
            rw [this, ih.1, c2]
          · rw [c1]
            have : replaced (l ++ [Lab.publish t hd.tab y]) = replaced l + 1 := by
              simp [replaced, List.countP_append]
            rw [this, ih.2]
      · have q := quiet_counts i hs (fun t x y hh => h1 ⟨t, x, y, hh⟩) (fun t x y hh => h2 ⟨t, x, y, hh⟩)
        rw [q.1, q.2]
        have e1 : attached (l ++ [e]) = attached l := by
          cases e <;> first | (exact absurd ⟨_, _, _, rfl⟩ h1) | simp [attached, List.countP_append]
        have e2 : replaced (l ++ [e]) = replaced l := by
          cases e <;> first | (exact absurd ⟨_, _, _, rfl⟩ h2) | simp [replaced, List.countP_append]
        rw [e1, e2]; exact ih

/-- Each version has exactly one successor: the table with version `v` gets its successor in the
attachment number `v` (counted from 0) of the whole execution, and it is replaced in the replacement
number `v`; there is at most one attachment before each replacement. -/
theorem C25_one_successor {a : A} {n : Nat} {l : List (Lab T A)} {s s' : St T A} {t : T} {x y : A}
    (h : Reach a n l s) :
    (Step s (.attach t x y) s' → ∃ o ob, s.heap x = some o ∧ s.heap y = some ob ∧ o.next = none ∧
      ob.ver = o.ver + 1 ∧ attached l = o.ver ∧ s.glob = x) ∧
    (Step s (.publish t x y) s' → ∃ o ob, s.heap x = some o ∧ s.heap y = some ob ∧
      o.next = some y ∧ ob.ver = o.ver + 1 ∧ replaced l = o.ver ∧ attached l = o.ver + 1) := by
  have i := Inv.reach h
  have c := counts h
  refine ⟨fun hs => ?_, fun hs => ?_⟩
  · cases hs with
    | grCas hp ho hn hb =>
      rename_i hd o ob
      obtain ⟨c1, c2, c3, _⟩ := attach_counts (ob := ob) i hp ho hn s.pc
      have ht := i.t t
      rw [hp] at ht
      obtain ⟨⟨o', p1, p2, _⟩, ob', q1, _, q3, _⟩ := ht
      have := ho.symm.trans p1.1
      cases this
      rw [hb] at q1; cases q1
      exact ⟨o, ob, ho, hb, hn, by omega, by omega, c2.symm⟩
  · cases hs with
    | egCas hp hg =>
      rename_i hd
      have ht := i.t t
      rw [hp] at ht
      obtain ⟨o, on, ho, hov, _, hvg, _, hnx, _, _, hn, hnv, _⟩ := publish_at i.g ht hg
      obtain ⟨_, c2, _⟩ := publish_counts i hp hg
      exact ⟨o, on, ho.1, hn.1, hnx, by omega, by omega, by omega⟩

/-- What a handle has seen: the version of its table. (specification, no code) -/
def PC.seen : PC A → Nat
  | .fresh | .pool => 0
  | .idle h | .gone h | .ldU _ h | .use h | .gr1 h | .gr2 h _ | .gr3 h _ => h.ep
  | .ldP _ v | .ldW _ v _ => v
  | .mg0 u | .mg1 u | .mg2 u _ | .mg3 u _ | .mg4 u _ _ | .mg5 u _ _ _ | .mg6 u _ _ | .mg7 u _ _ | .mg7b u _
  | .mg8 u _ | .mg9 u _ => match u with | some h => h.ep | none => 0
  | .eg1 h | .eg2 h | .eg3 h _ | .eg4 h _ | .eg5 h => h.ep

theorem seen_step {s s' : St T A} {e : Lab T A} (i : Inv s) (hs : Step s e s') (t : T) :
    (s.pc t).seen ≤ (s'.pc t).seen := by
  have one : ∀ (x : T) (p : PC A), (s.pc x).seen ≤ p.seen → (s.pc t).seen ≤ (upd s.pc x p t).seen := by
    intro x p h
    by_cases e : t = x
    · subst e; rw [upd_same]; exact h
    · rw [upd_ne _ _ e]; exact Nat.le_refl _
  have aft : ∀ u : Option (Hd A), (PC.mg0 u).seen ≤ (PC.after u).seen := by
    intro u; cases u <;> exact Nat.le_refl _
  cases hs with
  | mgUn2 hp => exact one _ _ (by rw [hp]; exact aft _)
  | mgNoUn hp ho => exact one _ _ (by rw [hp]; exact aft _)
  | ldDone hp ho hv hc =>
    rename_i x c v a o
    refine one _ _ ?_
    have := i.t x
    rw [hp] at this ⊢
    show v ≤ o.ver
    rw [hv]; exact this.1
  | ldUse hp ho hv =>
    rename_i x v a o
    refine one _ _ ?_
    have := i.t x
    rw [hp] at this ⊢
    show v ≤ o.ver
    rw [hv]; exact this.1
  | ldWait | op | work | egWait | free => exact Nat.le_refl _
  | create hp | pool hp | poolGo hp | destroy hp | unprot hp | prot hp | gtOk hp | gtOld hp | exitDone hp
  | exitGrow hp | exitHelp hp | grMake _ hp | grCas hp | grFail hp | grDel hp | mgIn hp | mgProt hp
  | mgNull hp | mgSome hp | mgNext hp | claim hp | leave hp | done hp | mgOut hp | mgUn hp | mgNo hp
  | egGo hp | egNext hp | egCas hp | egFail hp | egEpoch hp | egRetire hp =>
    exact one _ _ (by rw [hp]; exact Nat.le_refl _)

theorem Reach.steps {a : A} {n : Nat} {l : List (Lab T A)} {s s' : St T A} (h : Reach a n l s)
    (hs : Steps s s') : ∃ l', Reach a n l' s' := by
  induction hs with
  | refl => exact ⟨l, h⟩
  | step _ hs ih => obtain ⟨l', h'⟩ := ih; exact ⟨_, h'.step hs⟩

/-- The versions of the tables that a handle operates on never decrease. -/
theorem C25_versions_never_decrease {a : A} {n : Nat} {l : List (Lab T A)} {s s' : St T A} (h : Reach a n l s)
    (hs : Steps s s') {t : T} {h1 h2 : Hd A} {o1 o2 : Obj A} (hp1 : s.pc t = .use h1)
    (ho1 : s.heap h1.tab = some o1) (hp2 : s'.pc t = .use h2) (ho2 : s'.heap h2.tab = some o2) :
    o1.ver ≤ o2.ver := by
  have le : (s.pc t).seen ≤ (s'.pc t).seen := by
    clear hp1 ho1 hp2 ho2
    induction hs with
    | refl => exact Nat.le_refl _
    | step hs' hst ih =>
      obtain ⟨l', hr⟩ := h.steps hs'
      exact Nat.le_trans ih (seen_step (Inv.reach hr) hst t)
  have e1 : o1.ver = h1.ep := by
    have := (Inv.reach h).t t
    rw [hp1] at this
    obtain ⟨o, q1, q2, _⟩ := this
    have := ho1.symm.trans q1.1
    cases this
    exact q2
  have e2 : o2.ver = h2.ep := by
    obtain ⟨l', hr⟩ := h.steps hs
    have := (Inv.reach hr).t t
    rw [hp2] at this
    obtain ⟨o, q1, q2, _⟩ := this
    have := ho2.symm.trans q1.1
    cases this
    exact q2
  rw [hp1, hp2] at le
  rw [e1, e2]; exact le

/-- `end_grow` never exchanges the current table with a null pointer (`estrat_async.hpp:330-332`). -/
theorem C25_no_null_table {a : A} {n : Nat} {l : List (Lab T A)} {s : St T A} (h : Reach a n l s) (t : T)
    (hd : Hd A) : s.pc t ≠ .eg3 hd none := by
  intro hp
  have := (Inv.reach h).t t
  rw [hp] at this
  obtain ⟨_, _, _, _, h4, _, _, h7⟩ := this
  exact h4 h7

/-! ## C27 -/

/-- Every table that a thread's next step accesses exists: no thread, migrating or not, accesses a
table that has been destroyed, and `protect` of the successor finds an existing table. -/
theorem C27_no_access_after_reclamation {a : A} {n : Nat} {l : List (Lab T A)} {s : St T A}
    (h : Reach a n l s) (t : T) (x : A) (hx : x ∈ s.touches (s.pc t)) : ∃ o, s.heap x = some o := by
  have i := Inv.reach h
  have ht := i.t t
  have gl : ∃ o, s.heap s.glob = some o := by obtain ⟨o, h1, _⟩ := i.g.glob; exact ⟨o, h1.1⟩
  cases hp : s.pc t <;> rw [hp] at hx ht <;>
    simp only [St.touches, List.mem_cons, List.not_mem_nil, or_false] at hx
  case ldU => subst hx; obtain ⟨o, h1, _⟩ := ht; exact ⟨o, h1.1⟩
  case ldP => subst hx; exact gl
  case ldW => subst hx; obtain ⟨_, o, h1, _⟩ := ht; exact ⟨o, h1.1⟩
  case use => subst hx; obtain ⟨o, h1, _⟩ := ht; exact ⟨o, h1.1⟩
  case gr1 => subst hx; obtain ⟨o, h1, _⟩ := ht; exact ⟨o, h1.1⟩
  case gr2 => subst hx; obtain ⟨⟨o, h1, _⟩, _⟩ := ht; exact ⟨o, h1.1⟩
  case gr3 => subst hx; obtain ⟨_, o, h1, _⟩ := ht; exact ⟨o, h1⟩
  case mg1 => subst hx; exact gl
  case mg2 => subst hx; obtain ⟨_, o, h1, _⟩ := ht; exact ⟨o, h1.1⟩
  case mg3 u c =>
    obtain ⟨_, o, h1, h2, _, h3⟩ := ht
    rcases hx with hx | hx
    · subst hx; exact ⟨o, h1.1⟩
    · have hn : s.next c = o.next := by unfold St.next; rw [h1.1]; rfl
      rw [hn] at hx
      obtain ⟨on, q, _⟩ := near_next i.g h1 h2 (Option.mem_toList.1 hx)
      exact ⟨on, q⟩
  case mg4 => subst hx; obtain ⟨_, ⟨o, h1, _⟩, _⟩ := ht; exact ⟨o, h1.1⟩
  case mg5 =>
    obtain ⟨_, ⟨o, h1, _⟩, on, h2⟩ := ht
    rcases hx with hx | hx <;> subst hx
    · exact ⟨o, h1.1⟩
    · exact ⟨on, h2.1⟩
  case mg7 =>
    obtain ⟨_, ⟨o, h1⟩, on, h2⟩ := ht
    rcases hx with hx | hx <;> subst hx
    · exact ⟨o, h1.1⟩
    · exact ⟨on, h2.1⟩
  case mg7b => subst hx; obtain ⟨_, o, h1⟩ := ht; exact ⟨o, h1.1⟩
  case mg9 => subst hx; obtain ⟨_, o, h1⟩ := ht; exact ⟨o, h1.1⟩
  case eg2 => subst hx; obtain ⟨o, h1, _⟩ := ht; exact ⟨o, h1.1⟩
  case eg4 =>
    subst hx
    rw [← ht.2.1]; exact gl
  case eg5 => subst hx; obtain ⟨o, h1, _⟩ := ht; exact ⟨o, h1.1⟩

theorem mem_utab_iff {x : A} {u : Option (Hd A)} : x ∈ utab u ↔ ∃ h, u = some h ∧ x = h.tab := by
  cases u with
  | none => simp [utab]
  | some h => simp [utab]

/-- Protected tables exist. -/
theorem TInv.prot {s : St T A} {p : PC A} (ht : TInv s p) {x : A} (hx : x ∈ p.prot) :
    ∃ o, s.heap x = some o := by
  have uN : ∀ {u : Option (Hd A)}, OptH u (HoldN s) → x ∈ utab u → ∃ o, s.heap x = some o := by
    intro u hu hm
    obtain ⟨h, e, rfl⟩ := mem_utab_iff.1 hm
    obtain ⟨o, h1, _⟩ := hu h e
    exact ⟨o, h1.1⟩
  have uX : ∀ {u : Option (Hd A)}, OptH u (HoldX s) → x ∈ utab u → ∃ o, s.heap x = some o :=
    fun hu hm => uN (hu.imp (fun _ h => h.holdN)) hm
  cases p <;> simp only [PC.prot, List.mem_cons, List.not_mem_nil, or_false] at hx
  case idle | gone | ldU | use | gr1 => subst hx; obtain ⟨o, h1, _⟩ := ht; exact ⟨o, h1.1⟩
  case gr2 => subst hx; obtain ⟨⟨o, h1, _⟩, _⟩ := ht; exact ⟨o, h1.1⟩
  case gr3 => subst hx; obtain ⟨⟨o, h1, _⟩, _⟩ := ht; exact ⟨o, h1.1⟩
  case ldW => subst hx; obtain ⟨_, o, h1, _⟩ := ht; exact ⟨o, h1.1⟩
  case mg0 => exact uN ht hx
  case mg1 => exact uN ht hx
  case mg2 =>
    rcases hx with hx | hx
    · subst hx; obtain ⟨_, o, h1, _⟩ := ht; exact ⟨o, h1.1⟩
    · exact uN ht.1 hx
  case mg3 =>
    rcases hx with hx | hx
    · subst hx; obtain ⟨_, o, h1, _⟩ := ht; exact ⟨o, h1.1⟩
    · exact uN ht.1 hx
  case mg4 =>
    rcases hx with hx | hx | hx
    · subst hx; obtain ⟨_, ⟨o, h1, _⟩, _⟩ := ht; exact ⟨o, h1.1⟩
    · subst hx; obtain ⟨_, _, o, h1⟩ := ht; exact ⟨o, h1.1⟩
    · exact uN ht.1 hx
  case mg5 =>
    rcases hx with hx | hx | hx
    · subst hx; obtain ⟨_, ⟨o, h1, _⟩, _⟩ := ht; exact ⟨o, h1.1⟩
    · subst hx; obtain ⟨_, _, o, h1⟩ := ht; exact ⟨o, h1.1⟩
    · exact uN ht.1 hx
  case mg6 =>
    rcases hx with hx | hx | hx
    · subst hx; obtain ⟨_, ⟨o, h1, _⟩, _⟩ := ht; exact ⟨o, h1.1⟩
    · subst hx; obtain ⟨_, _, o, h1⟩ := ht; exact ⟨o, h1.1⟩
    · exact uX ht.1 hx
  case mg7 =>
    rcases hx with hx | hx | hx
    · subst hx; obtain ⟨_, ⟨o, h1⟩, _⟩ := ht; exact ⟨o, h1.1⟩
    · subst hx; obtain ⟨_, _, o, h1⟩ := ht; exact ⟨o, h1.1⟩
    · exact uX ht.1 hx
  case mg7b =>
    rcases hx with hx | hx
    · subst hx; obtain ⟨_, o, h1⟩ := ht; exact ⟨o, h1.1⟩
    · exact uX ht.1 hx
  case mg8 =>
    rcases hx with hx | hx
    · subst hx; obtain ⟨_, o, h1, _⟩ := ht; exact ⟨o, h1.1⟩
    · exact uX ht.1 hx
  case mg9 =>
    rcases hx with hx | hx
    · subst hx; obtain ⟨_, o, h1⟩ := ht; exact ⟨o, h1.1⟩
    · exact uX ht.1 hx
  case eg1 => subst hx; obtain ⟨o, h1, _⟩ := ht; exact ⟨o, h1.1⟩
  case eg2 => subst hx; obtain ⟨o, h1, _⟩ := ht; exact ⟨o, h1.1⟩
  case eg3 => subst hx; obtain ⟨o, h1, _⟩ := ht; exact ⟨o, h1.1⟩
  case eg4 => subst hx; obtain ⟨⟨o, h1, _⟩, _⟩ := ht; exact ⟨o, h1.1⟩
  case eg5 => subst hx; obtain ⟨o, h1, _⟩ := ht; exact ⟨o, h1.1⟩

/-- A table is handed to the reclamation at most once, and only when it is no longer the current one;
only existing tables are destroyed (so none twice), never the current one and none that a thread
protects. -/
theorem C27_reclaimed_once {a : A} {n : Nat} {l : List (Lab T A)} {s s' : St T A} (h : Reach a n l s) :
    (∀ t x, Step s (.retire t x) s' → x ≠ s.glob ∧ ∃ o, s.heap x = some o ∧ o.retired = false) ∧
    (∀ x, Step s (.free x) s' → x ≠ s.glob ∧ (∃ o, s.heap x = some o) ∧ s'.heap x = none ∧
      ∀ t, x ∉ (s.pc t).prot) := by
  have i := Inv.reach h
  refine ⟨fun t x hs => ?_, fun x hs => ?_⟩
  · cases hs with
    | egRetire hp ho =>
      rename_i hd o
      have ht := i.t t
      rw [hp] at ht
      obtain ⟨o', h1, h2, h3, h4⟩ := ht
      refine ⟨?_, o', h1.1, h4⟩
      intro e
      have := (i.g.globP (by rw [← e]; exact h1.1)).2
      have := (vg_bounds s).1
      omega
  · have i' := i.step hs
    cases hs with
    | grDel hp =>
      rename_i t hd
      have ht := i.t t
      rw [hp] at ht
      obtain ⟨_, ob, h1, h2, _⟩ := ht
      have notpub : ∀ o, ¬ Pub s x o := by
        intro o ho
        have := h1.symm.trans ho.1
        cases this
        have := ho.2
        rw [h2] at this; cases this
      refine ⟨?_, ⟨ob, h1⟩, by simp only []; rw [upd_same], ?_⟩
      · intro e
        obtain ⟨o, ho, _⟩ := i.g.glob
        exact notpub o (by rw [e]; exact ho)
      · intro t' hm
        by_cases e : t' = t
        · subst e
          rw [hp] at hm
          obtain ⟨o, ho, _⟩ := ((by have := i.t t'; rw [hp] at this; exact this.1) : HoldN s hd)
          rw [List.mem_singleton.1 hm] at notpub
          exact notpub o ho
        · have hk : x ∈ ((upd s.pc t (PC.mg0 (some hd))) t').prot := by rw [upd_ne _ _ e]; exact hm
          obtain ⟨o, ho⟩ := TInv.prot (i'.t t') hk
          simp only [] at ho
          rw [upd_same] at ho; cases ho
    | free ho hr hn =>
      refine ⟨?_, ⟨_, ho⟩, by simp only []; rw [upd_same], hn⟩
      intro e
      obtain ⟨o, ho', _⟩ := i'.g.glob
      have := ho'.1
      simp only [] at this
      rw [e, upd_same] at this; cases this

/-- The hypotheses are met: a thread stands before the access of the successor table. -/
example : ∃ l, ∃ s : St Bool Nat, Reach 0 1 l s ∧ 1 ∈ s.touches (s.pc true) ∧ s.nHelper = 1 := by
  have r0 : Reach (T := Bool) (0 : Nat) 1 _ _ := Reach.init
  have r1 := r0.step (Step.create (t := true) rfl)
  have r2 := r1.step (Step.prot (t := true) rfl rfl)
  have r3 := r2.step (Step.ldDone (t := true) rfl rfl rfl (by decide))
  have r4 := r3.step (Step.gtOk (t := true) rfl (Nat.le_refl 0))
  have r5 := r4.step (Step.exitGrow (t := true) rfl)
  have r6 := r5.step (Step.grMake (t := true) (b := 1) 1 rfl rfl rfl)
  have r7 := r6.step (Step.grCas (t := true) rfl rfl rfl rfl)
  have r8 := r7.step (Step.mgIn (t := true) rfl)
  have r9 := r8.step (Step.mgProt (t := true) rfl rfl)
  have r10 := r9.step (Step.mgSome (t := true) rfl rfl (by intro h; cases h))
  exact ⟨_, _, r10, List.mem_cons_of_mem _ (List.mem_singleton.2 rfl), rfl⟩

/-- … the current table is replaced in this execution, and the old one is handed to the reclamation … -/
theorem ex_published : ∃ l, ∃ s s1 s2 s3 : St Bool Nat, Reach 0 1 l s ∧ Step s (.publish true 0 1) s1 ∧
    s1.glob ≠ s.glob ∧ Step s1 (.switch true 0 1) s2 ∧ Step s2 (.retire true 0) s3 ∧
    s2.pc false = .ldW .init 0 0 ∧ s2.epoch = 1 ∧ (∃ o, s2.heap 0 = some o ∧ o.ver = 0) := by
  obtain ⟨l, s, hr, hg, he, hn, hc, hp, hq, ⟨o, ho, hv, _⟩, o1, ho1, hv1⟩ := ex_ready
  have st1 := Step.egCas hp hg
  have st2 := Step.egEpoch (s := { s with glob := 1, pc := upd s.pc true (.eg4 ⟨0, 0⟩ 1) }) (o := o1) (t := true)
    (h := ⟨0, 0⟩) (n := 1) (by simp [upd]) ho1
  have st3 := Step.egRetire (s := { s with
      glob := 1
      epoch := o1.ver
      cur := 1
      pc := upd (upd s.pc true (.eg4 ⟨0, 0⟩ 1)) true (.eg5 ⟨0, 0⟩) }) (o := o) (t := true)
    (h := ⟨0, 0⟩) (by simp [upd]) ho
  refine ⟨l, s, _, _, _, hr, st1, (show (1 : Nat) ≠ s.glob by rw [hg]; decide), st2, st3, ?_, hv1, o, ho, hv⟩
  simp only []
  rw [upd_ne _ _ (by decide), upd_ne _ _ (by decide)]
  exact hq

/-- … a successor is attached, … -/
example : ∃ l, ∃ s s1 : St Bool Nat, Reach 0 1 l s ∧ Step s (.attach true 0 1) s1 := by
  have r0 : Reach (T := Bool) (0 : Nat) 1 _ _ := Reach.init
  have r1 := r0.step (Step.create (t := true) rfl)
  have r2 := r1.step (Step.prot (t := true) rfl rfl)
  have r3 := r2.step (Step.ldDone (t := true) rfl rfl rfl (by decide))
  have r4 := r3.step (Step.gtOk (t := true) rfl (Nat.le_refl 0))
  have r5 := r4.step (Step.exitGrow (t := true) rfl)
  have r6 := r5.step (Step.grMake (t := true) (b := 1) 1 rfl rfl rfl)
  exact ⟨_, _, _, r6, Step.grCas (t := true) (h := ⟨0, 0⟩) rfl rfl rfl rfl⟩

/-- C26: a handle under construction has protected the current table; and another one has protected a
table that is current already while the epoch still is the old one. -/
example : (∃ l, ∃ s : St Bool Nat, Reach 0 1 l s ∧ s.pc true = .ldW .init 0 0 ∧
      ∃ o, s.heap 0 = some o ∧ o.ver = s.epoch) ∧
    ∃ l, ∃ s : St Bool Nat, Reach 0 1 l s ∧ s.pc false = .ldW .init 0 1 ∧
      ∃ o, s.heap 1 = some o ∧ s.epoch < o.ver := by
  have r0 : Reach (T := Bool) (0 : Nat) 1 _ _ := Reach.init
  have r1 := r0.step (Step.create (t := true) rfl)
  have r2 := r1.step (Step.prot (t := true) rfl rfl)
  have r3 := r2.step (Step.ldDone (t := true) rfl rfl rfl (by decide))
  have r4 := r3.step (Step.gtOk (t := true) rfl (Nat.le_refl 0))
  have r5 := r4.step (Step.exitGrow (t := true) rfl)
  have r6 := r5.step (Step.grMake (t := true) (b := 1) 1 rfl rfl rfl)
  have r7 := r6.step (Step.grCas (t := true) rfl rfl rfl rfl)
  have r8 := r7.step (Step.mgIn (t := true) rfl)
  have r9 := r8.step (Step.mgProt (t := true) rfl rfl)
  have r10 := r9.step (Step.mgSome (t := true) rfl rfl (by intro h; cases h))
  have r11 := r10.step (Step.mgNext (t := true) rfl rfl rfl rfl)
  have r12 := r11.step (Step.claim (t := true) rfl rfl (Nat.lt_succ_self 0))
  have r13 := r12.step (Step.done (t := true) rfl rfl)
  have r14 := r13.step (Step.leave (t := true) rfl rfl (Nat.le_refl 1))
  have r15 := r14.step (Step.mgOut (t := true) rfl)
  have r16 := r15.step (Step.mgUn (t := true) rfl rfl)
  have r17 := r16.step (Step.mgUn2 (t := true) rfl)
  have r18 := r17.step (Step.egGo (t := true) rfl rfl)
  have r19 := r18.step (Step.egNext (t := true) rfl rfl)
  have r20 := r19.step (Step.egCas (t := true) rfl rfl)
  have r21 := r20.step (Step.create (t := false) rfl)
  have r22 := r21.step (Step.prot (t := false) rfl rfl)
  exact ⟨⟨_, _, r2, rfl, _, rfl, rfl⟩, _, _, r22, rfl, _, rfl, Nat.zero_lt_one⟩

theorem Reach.here {a : A} {n : Nat} {l : List (Lab T A)} {s : St T A} (_ : Reach a n l s) : Steps s s := .refl

/-- … and the thread that replaced the table goes on with the new one. -/
example : ∃ l, ∃ s s' : St Bool Nat, Reach 0 1 l s ∧ Steps s s' ∧ s.pc true = .use ⟨0, 0⟩ ∧
    (∃ o, s.heap 0 = some o ∧ o.ver = 0) ∧ s'.pc true = .use ⟨1, 1⟩ ∧ ∃ o, s'.heap 1 = some o ∧ o.ver = 1 := by
  have r0 : Reach (T := Bool) (0 : Nat) 1 _ _ := Reach.init
  have r1 := r0.step (Step.create (t := true) rfl)
  have r2 := r1.step (Step.prot (t := true) rfl rfl)
  have r3 := r2.step (Step.ldDone (t := true) rfl rfl rfl (by decide))
  have r4 := r3.step (Step.gtOk (t := true) rfl (Nat.le_refl 0))
  have q4 := r4.here
  have q5 := q4.step (Step.exitGrow (t := true) (h := ⟨0, 0⟩) rfl)
  have q6 := q5.step (Step.grMake (t := true) (b := 1) 1 rfl rfl rfl)
  have q7 := q6.step (Step.grCas (t := true) (h := ⟨0, 0⟩) rfl rfl rfl rfl)
  have q8 := q7.step (Step.mgIn (t := true) rfl)
  have q9 := q8.step (Step.mgProt (t := true) rfl rfl)
  have q10 := q9.step (Step.mgSome (t := true) rfl rfl (by intro h; cases h))
  have q11 := q10.step (Step.mgNext (t := true) rfl rfl rfl rfl)
  have q12 := q11.step (Step.claim (t := true) rfl rfl (Nat.lt_succ_self 0))
  have q13 := q12.step (Step.done (t := true) rfl rfl)
  have q14 := q13.step (Step.leave (t := true) rfl rfl (Nat.le_refl 1))
  have q15 := q14.step (Step.mgOut (t := true) rfl)
  have q16 := q15.step (Step.mgUn (t := true) rfl rfl)
  have q17 := q16.step (Step.mgUn2 (t := true) rfl)
  have q18 := q17.step (Step.egGo (t := true) rfl rfl)
  have q19 := q18.step (Step.egNext (t := true) rfl rfl)
  have q20 := q19.step (Step.egCas (t := true) rfl rfl)
  have q21 := q20.step (Step.egEpoch (t := true) rfl rfl)
  have q22 := q21.step (Step.egRetire (t := true) rfl rfl)
  have q23 := q22.step (Step.unprot (t := true) rfl)
  have q24 := q23.step (Step.prot (t := true) rfl rfl)
  have q25 := q24.step (Step.ldDone (t := true) rfl rfl rfl (by decide))
  have q26 := q25.step (Step.gtOk (t := true) rfl (Nat.le_refl 1))
  exact ⟨_, _, _, r4, q26, rfl, ⟨_, rfl, rfl⟩, rfl, ⟨_, rfl, rfl⟩⟩

/-! ## C26 -/

/-- A thread that waits for the version of a table that is older than the epoch. -/
theorem stuck {a : A} {n : Nat} {l : List (Lab T A)} {s s' : St T A} (h : Reach a n l s) {t : T} {c : After}
    {v : Nat} {x : A} {o : Obj A} (hp : s.pc t = .ldW c v x) (ho : s.heap x = some o) (hv : o.ver < s.epoch)
    (hs : Steps s s') : s'.pc t = .ldW c v x ∧ s.epoch ≤ s'.epoch ∧ ∃ o', s'.heap x = some o' ∧ o'.ver = o.ver := by
  induction hs with
  | refl => exact ⟨hp, Nat.le_refl _, o, ho, rfl⟩
  | @step s0 s1 e h0 hst ih =>
    obtain ⟨p1, p2, o', p3, p4⟩ := ih
    obtain ⟨l', hr⟩ := h.steps h0
    have i := Inv.reach hr
    have i1 := i.step hst
    have hep : s0.epoch ≤ s1.epoch := by
      cases hst <;> first | exact Nat.le_refl _ | skip
      rename_i t' hd m ob hp' hob
      have ht := i.t t'
      rw [hp'] at ht
      have hv := (i.g.globP (by rw [ht.2.1]; exact hob)).2
      show s0.epoch ≤ ob.ver
      rw [hv]; exact (vg_bounds s0).1
    have hpc : s1.pc t = .ldW c v x := by
      have keep : ∀ (t' : T) (p q : PC A), s0.pc t' = q → q ≠ .ldW c v x → upd s0.pc t' p t = .ldW c v x := by
        intro t' p q hq hne
        have : t ≠ t' := by intro e; subst e; exact hne (hq.symm.trans p1)
        rw [upd_ne _ _ this]; exact p1
      cases hst with
      | ldWait | op | work | egWait | free => exact p1
      | ldDone hp' ho' hv' hc' =>
        rename_i t' c' v' a' oo
        by_cases e : t = t'
        · subst e
          rw [p1] at hp'; cases hp'
          rw [p3] at ho'; cases ho'
          omega
        · exact (upd_ne _ _ e).trans p1
      | ldUse hp' ho' hv' =>
        rename_i t' v' a' oo
        by_cases e : t = t'
        · subst e
          rw [p1] at hp'; cases hp'
          rw [p3] at ho'; cases ho'
          omega
        · exact (upd_ne _ _ e).trans p1
      | create hp' | pool hp' | poolGo hp' | destroy hp' | unprot hp' | prot hp' | gtOk hp' | gtOld hp' | exitDone hp'
      | exitGrow hp' | exitHelp hp' | grMake _ hp' | grCas hp' | grFail hp' | grDel hp' | mgIn hp' | mgProt hp'
      | mgNull hp' | mgSome hp' | mgNext hp' | claim hp' | leave hp' | done hp' | mgOut hp' | mgUn hp' | mgUn2 hp'
      | mgNo hp' | mgNoUn hp' | egGo hp' | egNext hp' | egCas hp' | egFail hp' | egEpoch hp' | egRetire hp' =>
        exact keep _ _ _ hp' (by intro h; cases h)
    refine ⟨hpc, Nat.le_trans p2 hep, ?_⟩
    have hx := i1.t t
    rw [hpc] at hx
    obtain ⟨_, o1, h1, _⟩ := hx
    refine ⟨o1, h1.1, ?_⟩
    rw [← p4]
    exact (step_ole hst p3 h1.1).ver

/-- The waiting need not end: a thread that creates a handle, or whose handle is refreshed before an
operation or after a growth, waits for ever if the table that it has protected is replaced before it
reads the epoch (`estrat_async.hpp:200-203`, 314-317).  `c` says which of the three it is. -/
theorem C26_overtaken_waits_for_ever {a : A} {n : Nat} {l : List (Lab T A)} {s : St T A} (h : Reach a n l s)
    {t t' : T} {c : After} {v : Nat} {x y : A} {h' : Hd A} (hp : s.pc t = .ldW c v x)
    (hq : s.pc t' = .eg3 h' (some y)) (hx : h'.tab = x) (hg : s.glob = x) :
    ∃ s1 s2, Step s (.publish t' x y) s1 ∧ Step s1 (.switch t' x y) s2 ∧
      ∀ s', Steps s2 s' → s'.pc t = .ldW c v x := by
  subst hx
  have i := Inv.reach h
  have ht := i.t t'
  rw [hq] at ht
  obtain ⟨o, on, ho, hov, _, hvg, hgc, hnx, _, _, hn, hnv, _⟩ := publish_at i.g ht hg
  have hne : t ≠ t' := by intro e; subst e; rw [hp] at hq; cases hq
  have st1 := Step.egCas hq hg
  have st2 := Step.egEpoch (s := { s with glob := y, pc := upd s.pc t' (.eg4 h' y) }) (o := on) (t := t')
    (h := h') (n := y) (by simp [upd]) hn.1
  refine ⟨_, _, st1, st2, fun s' hs' => ?_⟩
  refine (stuck ((h.step st1).step st2) ?_ ho.1 ?_ hs').1
  · simp only []
    rw [upd_ne _ _ hne, upd_ne _ _ hne]; exact hp
  · show o.ver < on.ver
    omega

/-- An execution in which the creation of a handle never ends, whatever the threads do. -/
theorem C26_creation_can_wait_for_ever : ∃ l, ∃ s : St Bool Nat, Reach 0 1 l s ∧
    ∀ s', Steps s s' → s'.pc false = .ldW .init 0 0 := by
  obtain ⟨l, s, hr, hg, _, _, _, hp, hq, _⟩ := ex_ready
  obtain ⟨s1, s2, h1, h2, h3⟩ := C26_overtaken_waits_for_ever hr hq hp rfl hg
  exact ⟨_, s2, (hr.step h1).step h2, h3⟩

/-- An execution in which the refresh of a handle before an operation never ends. -/
theorem C26_refresh_can_wait_for_ever : ∃ l, ∃ s : St Bool Nat, Reach 0 1 l s ∧
    ∀ s', Steps s s' → s'.pc false = .ldW .use 0 1 := by
  have r0 : Reach (T := Bool) (0 : Nat) 1 _ _ := Reach.init
  have r1 := r0.step (Step.create (t := true) rfl)
  have r2 := r1.step (Step.prot (t := true) rfl rfl)
  have r3 := r2.step (Step.ldDone (t := true) rfl rfl rfl (by decide))
  have f1 := r3.step (Step.create (t := false) rfl)
  have f2 := f1.step (Step.prot (t := false) rfl rfl)
  have f3 := f2.step (Step.ldDone (t := false) rfl rfl rfl (by decide))
  have r4 := f3.step (Step.gtOk (t := true) rfl (Nat.le_refl 0))
  have r5 := r4.step (Step.exitGrow (t := true) rfl)
  have r6 := r5.step (Step.grMake (t := true) (b := 1) 1 rfl rfl rfl)
  have r7 := r6.step (Step.grCas (t := true) rfl rfl rfl rfl)
  have r8 := r7.step (Step.mgIn (t := true) rfl)
  have r9 := r8.step (Step.mgProt (t := true) rfl rfl)
  have r10 := r9.step (Step.mgSome (t := true) rfl rfl (by intro h; cases h))
  have r11 := r10.step (Step.mgNext (t := true) rfl rfl rfl rfl)
  have r12 := r11.step (Step.claim (t := true) rfl rfl (Nat.lt_succ_self 0))
  have r13 := r12.step (Step.done (t := true) rfl rfl)
  have r14 := r13.step (Step.leave (t := true) rfl rfl (Nat.le_refl 1))
  have r15 := r14.step (Step.mgOut (t := true) rfl)
  have r16 := r15.step (Step.mgUn (t := true) rfl rfl)
  have r17 := r16.step (Step.mgUn2 (t := true) rfl)
  have r18 := r17.step (Step.egGo (t := true) rfl rfl)
  have r19 := r18.step (Step.egNext (t := true) rfl rfl)
  have r20 := r19.step (Step.egCas (t := true) rfl rfl)
  have r21 := r20.step (Step.egEpoch (t := true) rfl rfl)
  have r22 := r21.step (Step.egRetire (t := true) rfl rfl)
  have r23 := r22.step (Step.unprot (t := true) rfl)
  have r24 := r23.step (Step.prot (t := true) rfl rfl)
  have r25 := r24.step (Step.ldDone (t := true) rfl rfl rfl (by decide))
  have f4 := r25.step (Step.gtOld (t := false) rfl (Nat.lt_succ_self 0))
  have f5 := f4.step (Step.unprot (t := false) rfl)
  have f6 := f5.step (Step.prot (t := false) rfl rfl)
  have q4 := f6.step (Step.gtOk (t := true) rfl (Nat.le_refl 1))
  have q5 := q4.step (Step.exitGrow (t := true) rfl)
  have q6 := q5.step (Step.grMake (t := true) (b := 2) 1 rfl rfl rfl)
  have q7 := q6.step (Step.grCas (t := true) rfl rfl rfl rfl)
  have q8 := q7.step (Step.mgIn (t := true) rfl)
  have q9 := q8.step (Step.mgProt (t := true) rfl rfl)
  have q10 := q9.step (Step.mgSome (t := true) rfl rfl (by intro h; cases h))
  have q11 := q10.step (Step.mgNext (t := true) rfl rfl rfl rfl)
  have q12 := q11.step (Step.claim (t := true) rfl rfl (Nat.lt_succ_self 0))
  have q13 := q12.step (Step.done (t := true) rfl rfl)
  have q14 := q13.step (Step.leave (t := true) rfl rfl (Nat.le_refl 1))
  have q15 := q14.step (Step.mgOut (t := true) rfl)
  have q16 := q15.step (Step.mgUn (t := true) rfl rfl)
  have q17 := q16.step (Step.mgUn2 (t := true) rfl)
  have q18 := q17.step (Step.egGo (t := true) rfl rfl)
  have q19 := q18.step (Step.egNext (t := true) rfl rfl)
  obtain ⟨s1, s2, h1, h2, h3⟩ := C26_overtaken_waits_for_ever (t := false) (t' := true) q19 rfl rfl rfl rfl
  exact ⟨_, s2, (q19.step h1).step h2, h3⟩

/-- A table newer than the epoch is the current one, and its publisher has not yet stored the epoch. -/
theorem waits_ahead {a : A} {n : Nat} {l : List (Lab T A)} {s : St T A} (h : Reach a n l s)
    {t : T} {c : After} {v : Nat} {x : A} {o : Obj A} (hp : s.pc t = .ldW c v x) (ho : s.heap x = some o)
    (hv : s.epoch < o.ver) : x = s.glob ∧ s.glob ≠ s.cur := by
  have i := Inv.reach h
  have ht := i.t t
  rw [hp] at ht
  obtain ⟨_, o', h1, h2⟩ := ht
  have := ho.symm.trans h1.1
  cases this
  have hb := vg_bounds s
  obtain ⟨og, g1, g2⟩ := i.g.glob
  refine ⟨i.g.inj _ _ _ _ h1 g1 (by omega), ?_⟩
  intro e
  have : s.vg = s.epoch := by unfold St.vg; rw [if_pos e]
  omega

/-- The waiting of a thread that has not been overtaken: if the version of its table is the epoch, its next
step ends the waiting; otherwise its table is the current one, just published, and the thread that
published it is about to store the epoch, which makes them equal.

Missing: a thread that has been overtaken waits for ever, see `C26_overtaken_waits_for_ever`. -/
theorem C26_waiting_ends_partial {a : A} {n : Nat} {l : List (Lab T A)} {s : St T A} (h : Reach a n l s)
    {t : T} {c : After} {v : Nat} {x : A} {o : Obj A} (hp : s.pc t = .ldW c v x) (ho : s.heap x = some o) :
    (o.ver = s.epoch → ∃ e s', Step s e s' ∧ (s'.pc t = .idle ⟨x, o.ver⟩ ∨ s'.pc t = .use ⟨x, o.ver⟩)) ∧
    (s.epoch < o.ver → x = s.glob ∧ ∃ t' h' s', s.pc t' = .eg4 h' x ∧ Step s (.switch t' h'.tab x) s' ∧
      s'.epoch = o.ver ∧ s'.pc t = .ldW c v x) := by
  have i := Inv.reach h
  refine ⟨fun hv => ?_, fun hv => ?_⟩
  · by_cases hc : c = .use
    · subst hc
      exact ⟨_, _, Step.ldUse hp ho hv, .inr (upd_same _ _ _)⟩
    · exact ⟨_, _, Step.ldDone hp ho hv hc, .inl (upd_same _ _ _)⟩
  · obtain ⟨hgx, hne⟩ := waits_ahead h hp ho hv
    obtain ⟨t', h', hq⟩ := i.pub hne
    refine ⟨hgx, t', h', _, by rw [hgx]; exact hq, by rw [hgx]; exact Step.egEpoch hq (by rw [← hgx]; exact ho), rfl, ?_⟩
    simp only []
    rw [upd_ne _ _ (by intro e; subst e; rw [hp] at hq; cases hq)]
    exact hp

end
end Async
end Growt
