import Verif.Range

/-!
# Which tables exist

For both growth protocols: every table object that exists and is not the current one is either about to be
deleted by a thread, or is the successor that a thread is about to publish (or its own unpublished new table),
or (asynchronous protocol) has been handed to the reclamation library.
-/

set_option linter.unusedSectionVars false

namespace Growt
namespace Sync
section
variable {T A : Type} [DecidableEq T] [DecidableEq A]

/-- The successor that a growth step has created (`estrat_sync.hpp:333-336`). -/
def Phase.new : Phase A → Option A
  | .made _ _ b => some b
  | .waitOps _ _ b _ _ => some b
  | .ready _ _ b => some b
  | .migrating _ _ b => some b
  | .drained _ _ b => some b
  | .nulled _ _ b => some b
  | .waitMig _ _ b _ _ => some b
  | .empty _ _ b => some b
  | _ => none

/-- Every table is accounted for, and whenever a growth step is under way there is a thread that carries it
out. (proof, no code) -/
structure Kept (s : St T A) : Prop where
  tabs : ∀ a o, s.heap a = some o →
    s.curTab = some a ∨ s.phase.new = some a ∨ ∃ t, (s.pc t).deletes = some a
  busy : s.phase ≠ .quiet → ∃ t, (s.pc t).grower = true

theorem Kept.init (a : A) (n : Nat) : Kept (St.init a n : St T A) := by
  refine ⟨fun b o h => ?_, fun h => absurd rfl h⟩
  left
  show some a = some b
  simp only [St.init, upd] at h
  split at h
  · rename_i e; rw [e]
  · cases h

/-- Steps of one thread that change neither the tables nor the stage of the growth step. -/
theorem Kept.at {s s' : St T A} {t : T} {p : PC A} (k : Kept s) (hpc : s'.pc = upd s.pc t p)
    (hh : ∀ a o, s'.heap a = some o → ∃ o', s.heap a = some o')
    (hc : s'.curTab = s.curTab) (hn : s'.phase.new = s.phase.new) (hq : s.phase = .quiet → s'.phase = .quiet)
    (hd : p.deletes = (s.pc t).deletes) (hg : p.grower = (s.pc t).grower) : Kept s' := by
  refine ⟨fun a o h => ?_, fun h => ?_⟩
  · obtain ⟨o', h'⟩ := hh a o h
    rw [hc, hn, hpc]
    rcases k.tabs a o' h' with h1 | h1 | ⟨t', h1⟩
    · exact .inl h1
    · exact .inr (.inl h1)
    · refine .inr (.inr ⟨t', ?_⟩)
      by_cases e : t' = t
      · subst e; rw [upd_self, hd]; exact h1
      · rw [upd_ne _ _ e]; exact h1
  · obtain ⟨t', h1⟩ := k.busy (fun h' => h (hq h'))
    refine ⟨t', ?_⟩
    rw [hpc]
    by_cases e : t' = t
    · subst e; rw [upd_self, hg]; exact h1
    · rw [upd_ne _ _ e]; exact h1

theorem Kept.step {s s' : St T A} {l : Lbl T A} (hI : SInv s) (k : Kept s) (hs : Step false s l s') : Kept s' := by
  have core := hI.core
  have same : ∀ {a : A} {o : Obj A} (x : Obj A), s.heap a = some o →
      ∀ a' o', upd s.heap a (some x) a' = some o' → ∃ o', s.heap a' = some o' := by
    intro a o x ho a' o' h
    by_cases e : a' = a
    · subst e; exact ⟨o, ho⟩
    · rw [upd_ne _ _ e] at h; exact ⟨o', h⟩
  have hct := curTab_step hI hs
  cases hs
  all_goals first
    | exact k
    | (rename_i hp _ _; exact k.at rfl (fun a o h => ⟨o, h⟩) rfl rfl id (by rw [hp]; rfl) (by rw [hp]; rfl))
    | (rename_i hp _; exact k.at rfl (fun a o h => ⟨o, h⟩) rfl rfl id (by rw [hp]; rfl) (by rw [hp]; rfl))
    | (rename_i hp; exact k.at rfl (fun a o h => ⟨o, h⟩) rfl rfl id (by rw [hp]; rfl) (by rw [hp]; rfl))
    | (rename_i hp _ _ _; exact k.at rfl (fun a o h => ⟨o, h⟩) rfl rfl id (by rw [hp]; rfl) (by rw [hp]; rfl))
    | skip
  case regCas => exact ⟨k.tabs, k.busy⟩
  case move t t' h hp hs hp' =>
    have k1 : Kept (s.at t .out) :=
      k.at rfl (fun a o h => ⟨o, h⟩) rfl rfl id (by rw [hp]; rfl) (by rw [hp]; rfl)
    have hp1 : (s.at t .out).pc t' = .out := by
      show upd s.pc t .out t' = _
      by_cases e : t' = t
      · subst e; exact upd_self _ _ _
      · rw [upd_ne _ _ e]; exact hp'
    exact k1.at (t := t') rfl (fun a o h => ⟨o, h⟩) rfl rfl id (by rw [hp1]; rfl) (by rw [hp1]; rfl)
  case opEnd t h a v hp x =>
    refine k.at rfl (fun a o h => ⟨o, h⟩) rfl rfl id ?_ ?_ <;> rw [hp] <;> unfold Exit.next <;> split <;>
      first
      | rfl
      | (split <;> rfl)
  case grCas t h v e hp hv he =>
    have hc := hct rfl
    refine ⟨fun a o ho => ?_, fun _ => ⟨t, ?_⟩⟩
    · have hq : s.phase = .quiet := by
        have hc := core t
        rw [hp] at hc
        have hc : (v : Int) ≤ s.cap := hc
        cases hq : s.phase <;> first
          | rfl
          | (exfalso; unfold St.cap at hc; rw [hq] at hc; simp only at hc; omega)
      rcases k.tabs a o ho with h1 | h1 | ⟨t', h1⟩
      · exact .inl (hc.1.trans h1)
      · rw [hq] at h1; cases h1
      · refine .inr (.inr ⟨t', ?_⟩)
        show (upd s.pc t _ t').deletes = _
        by_cases e : t' = t
        · subst e; rw [hp] at h1; cases h1
        · rw [upd_ne _ _ e]; exact h1
    · show (upd s.pc t _ t).grower = _
      rw [upd_self]; rfl
  case grLoadMark t h a hp ht =>
    have hc := core t
    rw [hp] at hc
    have hq : s.phase = .begun := hc
    have hg := hI.glob
    unfold Glob at hg
    rw [hq] at hg
    obtain ⟨b, o, h1, -⟩ := hg
    rw [ht] at h1; cases h1
  case grMarkFail t h a v hp ht =>
    have hc := core t
    rw [hp] at hc
    exact absurd hc.2.1 ht
  case grMark t h a v hp ht =>
    have hc := core t
    rw [hp] at hc
    have hq : s.phase = .begun := hc.1
    exact k.at rfl (fun a o h => ⟨o, h⟩) (hct rfl).1 (by rw [hq]; rfl) (fun h => by rw [hq] at h; cases h)
      (by rw [hp]; rfl) (by rw [hp]; rfl)
  case grOps t h a b v hp =>
    have hc := core t
    rw [hp] at hc
    have hq : s.phase = .made a v b := hc
    exact k.at rfl (fun a o h => ⟨o, h⟩) (hct rfl).1 (by rw [hq]; rfl) (fun h => by rw [hq] at h; cases h)
      (by rw [hp]; rfl) (by rw [hp]; rfl)
  case grOpsNext t h a b v n j hp hj ho =>
    have hc := core t
    rw [hp] at hc
    have hq : s.phase = .waitOps a v b n j := hc
    exact k.at rfl (fun a o h => ⟨o, h⟩) (hct rfl).1 (by rw [hq]; rfl) (fun h => by rw [hq] at h; cases h)
      (by rw [hp]; rfl) (by rw [hp]; rfl)
  case grOpsEnd t h a b v n j hp hj =>
    have hc := core t
    rw [hp] at hc
    have hq : s.phase = .waitOps a v b n j := hc
    exact k.at rfl (fun a o h => ⟨o, h⟩) (hct rfl).1 (by rw [hq]; rfl) (fun h => by rw [hq] at h; cases h)
      (by rw [hp]; rfl) (by rw [hp]; rfl)
  case grNull t h a b v hp =>
    have hc := core t
    rw [hp] at hc
    have hq : s.phase = .drained a v b := hc
    exact k.at rfl (fun a o h => ⟨o, h⟩) (hct rfl).1 (by rw [hq]; rfl) (fun h => by rw [hq] at h; cases h)
      (by rw [hp]; rfl) (by rw [hp]; rfl)
  case grMig t h a b v hp =>
    have hc := core t
    rw [hp] at hc
    have hq : s.phase = .nulled a v b := hc
    exact k.at rfl (fun a o h => ⟨o, h⟩) (hct rfl).1 (by rw [hq]; rfl) (fun h => by rw [hq] at h; cases h)
      (by rw [hp]; rfl) (by rw [hp]; rfl)
  case grMigNext t h a b v n j hp hj ho =>
    have hc := core t
    rw [hp] at hc
    have hq : s.phase = .waitMig a v b n j := hc
    exact k.at rfl (fun a o h => ⟨o, h⟩) (hct rfl).1 (by rw [hq]; rfl) (fun h => by rw [hq] at h; cases h)
      (by rw [hp]; rfl) (by rw [hp]; rfl)
  case grMigEnd t h a b v n j hp hj =>
    have hc := core t
    rw [hp] at hc
    have hq : s.phase = .waitMig a v b n j := hc
    exact k.at rfl (fun a o h => ⟨o, h⟩) (hct rfl).1 (by rw [hq]; rfl) (fun h => by rw [hq] at h; cases h)
      (by rw [hp]; rfl) (by rw [hp]; rfl)
  case grNext t h a b v o hp ho =>
    have hc := core t
    rw [hp] at hc
    have hq : s.phase = .ready a v b := hc
    exact k.at rfl (same _ ho) (hct rfl).1 (by rw [hq]; rfl) (fun h => by rw [hq] at h; cases h)
      (by rw [hp]; rfl) (by rw [hp]; rfl)
  case grMake t h a b v o n hp ho hb =>
    have hc := core t
    rw [hp] at hc
    have hq : s.phase = .marked a v := hc
    refine ⟨fun x o' hx => ?_, fun _ => ⟨t, ?_⟩⟩
    · by_cases e : x = b
      · subst e; exact .inr (.inl rfl)
      · have hx' : s.heap x = some o' := by
          have hx : upd s.heap b _ x = some o' := hx
          rw [upd_ne _ _ e] at hx; exact hx
        rcases k.tabs x o' hx' with h1 | h1 | ⟨t', h1⟩
        · exact .inl ((hct rfl).1.trans h1)
        · rw [hq] at h1; cases h1
        · refine .inr (.inr ⟨t', ?_⟩)
          show (upd s.pc t _ t').deletes = _
          by_cases e : t' = t
          · subst e; rw [hp] at h1; cases h1
          · rw [upd_ne _ _ e]; exact h1
    · show (upd s.pc t _ t).grower = _
      rw [upd_self]; rfl
  case grPublish t h a b v hp =>
    have hc := core t
    rw [hp] at hc
    have hq : s.phase = .empty a v b := hc
    refine ⟨fun x o hx => ?_, fun h => absurd rfl h⟩
    rcases k.tabs x o hx with h1 | h1 | ⟨t', h1⟩
    · right; right
      simp only [St.curTab, hq] at h1
      refine ⟨t, ?_⟩
      show (upd s.pc t _ t).deletes = _
      rw [upd_self]
      exact h1
    · rw [hq] at h1
      exact .inl h1
    · refine .inr (.inr ⟨t', ?_⟩)
      show (upd s.pc t _ t').deletes = _
      by_cases e : t' = t
      · subst e; rw [hp] at h1; cases h1
      · rw [upd_ne _ _ e]; exact h1
  case grDelete t h a v hp =>
    refine ⟨fun x o hx => ?_, fun hph => ?_⟩
    · have hx : upd s.heap a none x = some o := hx
      by_cases e : x = a
      · subst e; rw [upd_self] at hx; cases hx
      · rw [upd_ne _ _ e] at hx
        rcases k.tabs x o hx with h1 | h1 | ⟨t', h1⟩
        · exact .inl h1
        · exact .inr (.inl h1)
        · refine .inr (.inr ⟨t', ?_⟩)
          show (upd s.pc t _ t').deletes = _
          by_cases e' : t' = t
          · subst e'; rw [hp] at h1; cases h1; exact absurd rfl e
          · rw [upd_ne _ _ e']; exact h1
    · obtain ⟨t', h1⟩ := k.busy hph
      refine ⟨t', ?_⟩
      show (upd s.pc t _ t').grower = _
      by_cases e' : t' = t
      · subst e'; rw [hp] at h1; cases h1
      · rw [upd_ne _ _ e']; exact h1
  case mgNone t h c hp ht =>
    cases c with
    | help => exact k.at rfl (fun a o h => ⟨o, h⟩) rfl rfl id (by rw [hp]; rfl) (by rw [hp]; rfl)
    | grow a v b =>
      have hc := core t
      rw [hp] at hc
      have hq : s.phase = .migrating a v b := hc a v b rfl
      exact k.at rfl (fun a o h => ⟨o, h⟩) (hct rfl).1 (by rw [hq]; rfl) (fun h => by rw [hq] at h; cases h)
        (by rw [hp]; rfl) (by rw [hp]; rfl)
  case mgEnd t h c a b v o hp ho hv =>
    cases c with
    | help => exact k.at rfl (fun a o h => ⟨o, h⟩) rfl rfl id (by rw [hp]; rfl) (by rw [hp]; rfl)
    | grow a' v' b' =>
      have hc := core t
      rw [hp] at hc
      have hq : s.phase = .migrating a' v' b' := (hc a' v' b' rfl).1
      exact k.at rfl (fun a o h => ⟨o, h⟩) (hct rfl).1 (by rw [hq]; rfl) (fun h => by rw [hq] at h; cases h)
        (by rw [hp]; rfl) (by rw [hp]; rfl)
  case mgClaim t h c a b v o hp ho hv hc =>
    exact k.at rfl (same _ ho) rfl rfl id (by rw [hp]; rfl) (by rw [hp]; cases c <;> rfl)
  case mgLeave t h c a b v o hp ho hv hc =>
    exact k.at rfl (same _ ho) rfl rfl id (by rw [hp]; rfl) (by rw [hp]; cases c <;> rfl)
  case mgLoad t h c a o hp ht ho =>
    exact k.at rfl (fun a o h => ⟨o, h⟩) rfl rfl id (by rw [hp]; rfl) (by rw [hp]; cases c <;> rfl)
  case mgStore t h c a v hp =>
    exact k.at rfl (fun a o h => ⟨o, h⟩) rfl rfl id (by rw [hp]; rfl) (by rw [hp]; cases c <;> rfl)
  case mgNext t h c a b v o hp ho hv hn =>
    exact k.at rfl (fun a o h => ⟨o, h⟩) rfl rfl id (by rw [hp]; rfl) (by rw [hp]; cases c <;> rfl)
  case mgDone t h c a b v blk hp =>
    exact k.at rfl (fun a o h => ⟨o, h⟩) rfl rfl id (by rw [hp]; rfl) (by rw [hp]; cases c <;> rfl)

theorem Reach.kept {a : A} {n : Nat} {s : St T A} (h : Reach false a n s) : Kept s := by
  induction h with
  | init => exact Kept.init a n
  | step h hs ih => exact ih.step h.inv hs

end
end Sync

namespace Async
section
variable {T A : Type} [DecidableEq T] [DecidableEq A]

/-- The handle of a thread between its `grow` (or `help_grow`) and the exchange of the current table
(`estrat_async.hpp:229-332`). -/
def PC.growing : PC A → Option (Hd A)
  | .gr3 h _ => some h
  | .mg0 u | .mg1 u | .mg2 u _ | .mg3 u _ | .mg4 u _ _ | .mg5 u _ _ _ | .mg6 u _ _ | .mg7 u _ _ | .mg7b u _
  | .mg8 u _ | .mg9 u _ => u
  | .eg1 h | .eg2 h | .eg3 h _ => some h
  | _ => none

/-- Every table is accounted for: it is the current one, or retired, or a thread is about to retire it, or it is
a thread's own new table, or the successor of the current table, which a thread is about to publish.
(proof, no code) -/
def Kept (s : St T A) : Prop :=
  ∀ a o, s.heap a = some o → a = s.glob ∨ o.retired = true ∨ (∃ t, (s.pc t).own = some (.ret a)) ∨
    (∃ t, (s.pc t).own = some (.new a)) ∨
    ∃ t h og, (s.pc t).growing = some h ∧ h.tab = s.glob ∧ s.heap s.glob = some og ∧ og.next = some a

theorem Kept.init (a : A) (n : Nat) : Kept (St.init a n : St T A) := by
  intro b o h
  left
  simp only [St.init] at h ⊢
  split at h
  · assumption
  · cases h

/-- Steps of one thread that keep what the tables say about being retired and about successors. -/
theorem Kept.at {s s' : St T A} {t : T} {p : PC A} (k : Kept s) (hpc : s'.pc = upd s.pc t p)
    (hgl : s'.glob = s.glob)
    (hh : ∀ a o, s'.heap a = some o → ∃ o', s.heap a = some o' ∧ o'.retired = o.retired)
    (hn : ∀ a o, s.heap a = some o → ∃ o', s'.heap a = some o' ∧ o'.next = o.next)
    (ho : p.own = (s.pc t).own ∨ (∀ x, (s.pc t).own ≠ some (.ret x)) ∧ ∀ x, (s.pc t).own ≠ some (.new x))
    (hg : ∀ h, (s.pc t).growing = some h → p.growing = some h ∨ h.tab ≠ s.glob) : Kept s' := by
  intro a o h
  obtain ⟨o', h', hr⟩ := hh a o h
  rw [hgl, hpc]
  have own : ∀ x, (∀ y : A × Nat, x ≠ .blk y.1 y.2) → (∃ t', (s.pc t').own = some x) → ∃ t', (upd s.pc t p t').own = some x := by
    rintro x hx ⟨t', h1⟩
    refine ⟨t', ?_⟩
    by_cases e : t' = t
    · subst e
      rw [upd_same]
      rcases ho with h2 | ⟨h2, h3⟩
      · rw [h2]; exact h1
      · cases x with
        | new y => exact absurd h1 (h3 y)
        | ret y => exact absurd h1 (h2 y)
        | blk c j => exact absurd rfl (hx (c, j))
    · rw [upd_ne _ _ e]; exact h1
  rcases k a o' h' with h1 | h1 | h1 | h1 | ⟨t', h1, og, h2, h3, h4, h5⟩
  · exact .inl h1
  · exact .inr (.inl (hr ▸ h1))
  · exact .inr (.inr (.inl (own _ nofun h1)))
  · exact .inr (.inr (.inr (.inl (own _ nofun h1))))
  · obtain ⟨og', h6, h7⟩ := hn _ _ h4
    refine .inr (.inr (.inr (.inr ⟨t', h1, og', ?_, h3, h6, h7.trans h5⟩)))
    by_cases e : t' = t
    · subst e
      rw [upd_same]
      rcases hg _ h2 with h | h
      · exact h
      · exact absurd h3 h
    · rw [upd_ne _ _ e]; exact h2

/-- The same without changes of tables. -/
theorem Kept.at' {s s' : St T A} {t : T} {p q : PC A} (k : Kept s) (hp : s.pc t = q) (hpc : s'.pc = upd s.pc t p)
    (hgl : s'.glob = s.glob) (hh : s'.heap = s.heap) (ho : p.own = q.own)
    (hg : ∀ h, q.growing = some h → p.growing = some h ∨ h.tab ≠ s.glob) : Kept s' := by
  subst hp
  exact k.at hpc hgl (fun a o h => ⟨o, by rw [← hh]; exact h, rfl⟩) (fun a o h => ⟨o, by rw [hh]; exact h, rfl⟩)
    (.inl ho) hg

/-- One object changes its counters only. -/
theorem Kept.obj {s : St T A} {c : A} {o x : Obj A} (ho : s.heap c = some o) (hr : x.retired = o.retired)
    (hn : x.next = o.next) :
    (∀ a o', upd s.heap c (some x) a = some o' → ∃ o'', s.heap a = some o'' ∧ o''.retired = o'.retired) ∧
    ∀ a o', s.heap a = some o' → ∃ o'', upd s.heap c (some x) a = some o'' ∧ o''.next = o'.next := by
  refine ⟨fun a o' h => ?_, fun a o' h => ?_⟩
  · by_cases e : a = c
    · subst e
      rw [upd_same] at h; cases h
      exact ⟨o, ho, hr.symm⟩
    · rw [upd_ne _ _ e] at h; exact ⟨o', h, rfl⟩
  · by_cases e : a = c
    · subst e
      rw [ho] at h; cases h
      exact ⟨x, upd_same _ _ _, hn⟩
    · exact ⟨o', by rw [upd_ne _ _ e]; exact h, rfl⟩

theorem Kept.step {s s' : St T A} {e : Lab T A} (i : Inv s) (k : Kept s) (hs : Step s e s') : Kept s' := by
  have g := i.g
  cases hs
  all_goals first
    | exact k
    | (rename_i hp _ _; exact k.at' hp rfl rfl rfl rfl (fun h e => .inl e))
    | (rename_i hp _; exact k.at' hp rfl rfl rfl rfl (fun h e => .inl e))
    | (rename_i hp; exact k.at' hp rfl rfl rfl rfl (fun h e => .inl e))
    | (rename_i hp _ _ _; exact k.at' hp rfl rfl rfl rfl (fun h e => .inl e))
    | skip
  case exitHelp t h o hp ho hn => exact k.at' hp rfl rfl rfl rfl (fun h e => by cases e)
  case grFail t h b o hp ho hn => exact k.at' hp rfl rfl rfl rfl (fun h e => by cases e)
  case egFail t h nx hp hg =>
    exact k.at' hp rfl rfl rfl rfl (fun h e => by cases e; exact .inr (fun e => hg e.symm))
  case mgUn2 t u n hp =>
    refine k.at' hp rfl rfl rfl (after_own u).1 (fun h e => ?_)
    cases e
    exact .inl rfl
  case mgNoUn t u c o hp ho =>
    refine k.at' hp rfl rfl rfl (after_own u).1 (fun h e => ?_)
    cases e
    exact .inl rfl
  case claim t u c n o hp ho hk =>
    exact k.at rfl rfl (Kept.obj (x := { o with claimed := o.claimed + 1 }) ho rfl rfl).1
      (Kept.obj (x := { o with claimed := o.claimed + 1 }) ho rfl rfl).2 (.inr ⟨by rw [hp]; nofun, by rw [hp]; nofun⟩)
      (fun h e => by rw [hp] at e; exact .inl e)
  case leave t u c n o hp ho hk =>
    exact k.at rfl rfl (Kept.obj (x := { o with claimed := o.claimed + 1 }) ho rfl rfl).1
      (Kept.obj (x := { o with claimed := o.claimed + 1 }) ho rfl rfl).2 (.inl (by rw [hp]; rfl))
      (fun h e => by rw [hp] at e; exact .inl e)
  case done t u c n j o hp ho =>
    exact k.at rfl rfl (Kept.obj (x := { o with fin := upd o.fin j true }) ho rfl rfl).1
      (Kept.obj (x := { o with fin := upd o.fin j true }) ho rfl rfl).2 (.inr ⟨by rw [hp]; nofun, by rw [hp]; nofun⟩)
      (fun h e => by rw [hp] at e; exact .inl e)
  case grMake t h b o n hp ho hb =>
    have hgl : s.glob ≠ b := by
      intro e
      obtain ⟨og, h1, -⟩ := g.glob
      rw [e, Pub, hb] at h1; cases h1.1
    intro x o' hx
    have hx : upd s.heap b _ x = some o' := hx
    by_cases e : x = b
    · subst e
      refine .inr (.inr (.inr (.inl ⟨t, ?_⟩)))
      show (upd s.pc t _ t).own = _
      rw [upd_same]; rfl
    · rw [upd_ne _ _ e] at hx
      have oth : ∀ {t' y}, (s.pc t').own = some y → (upd s.pc t (.gr2 h b) t').own = some y := by
        intro t' y h1
        by_cases e : t' = t
        · subst e; rw [hp] at h1; cases h1
        · rw [upd_ne _ _ e]; exact h1
      rcases k x o' hx with h1 | h1 | ⟨t', h1⟩ | ⟨t', h1⟩ | ⟨t', h1, og, h2, h3, h4, h5⟩
      · exact .inl h1
      · exact .inr (.inl h1)
      · exact .inr (.inr (.inl ⟨t', oth h1⟩))
      · exact .inr (.inr (.inr (.inl ⟨t', oth h1⟩)))
      · refine .inr (.inr (.inr (.inr ⟨t', h1, og, ?_, h3, ?_, h5⟩)))
        · show (upd s.pc t _ t').growing = _
          by_cases e : t' = t
          · subst e; rw [hp] at h2; cases h2
          · rw [upd_ne _ _ e]; exact h2
        · show upd s.heap b _ s.glob = _
          rw [upd_ne _ _ hgl]; exact h4
  case grCas t h b o ob hp ho hn hb =>
    have ht := i.t t
    rw [hp] at ht
    obtain ⟨⟨oh, h1, h2, h3⟩, ob', h4, h5, -, h6, -⟩ := ht
    have := ho.symm.trans h1.1
    cases this
    have hv : ¬ o.ver < s.vg := fun hlt => (g.old _ _ h1 hlt).1 hn
    have htab : h.tab = s.glob := by
      obtain ⟨og, g1, g2⟩ := g.glob
      refine g.inj _ _ _ _ h1 g1 ?_
      have := (vg_bounds s).1
      omega
    have hne : h.tab ≠ b := by
      intro e
      rw [e, hb] at ho; cases ho
      rw [hb] at h4; cases h4
      rw [h1.2] at h5; cases h5
    intro x o' hx
    have hx : upd (upd s.heap b _) h.tab _ x = some o' := hx
    by_cases e1 : x = h.tab
    · exact .inl (e1.trans htab)
    · rw [upd_ne _ _ e1] at hx
      by_cases e2 : x = b
      · subst e2
        refine .inr (.inr (.inr (.inr ⟨t, h, { o with next := some x }, ?_, htab, ?_, rfl⟩)))
        · show (upd s.pc t _ t).growing = _
          rw [upd_same]; rfl
        · show upd (upd s.heap x _) h.tab _ s.glob = _
          rw [← htab, upd_same]
      · rw [upd_ne _ _ e2] at hx
        have oth : ∀ {t' y}, (s.pc t').own = some y → y ≠ .new b → (upd s.pc t (.mg0 (some h)) t').own = some y := by
          intro t' y h1 h2
          by_cases e : t' = t
          · subst e; rw [hp] at h1; cases h1; exact absurd rfl h2
          · rw [upd_ne _ _ e]; exact h1
        rcases k x o' hx with h1 | h1 | ⟨t', h1⟩ | ⟨t', h1⟩ | ⟨t', h1, og, h2, h3, h4, h5⟩
        · exact .inl h1
        · exact .inr (.inl h1)
        · exact .inr (.inr (.inl ⟨t', oth h1 nofun⟩))
        · refine .inr (.inr (.inr (.inl ⟨t', oth h1 ?_⟩)))
          intro e; cases e; exact e2 rfl
        · rw [← htab, ho] at h4; cases h4
          rw [hn] at h5; cases h5
  case grDel t h b hp =>
    have hgl : s.glob ≠ b := by
      intro e
      have ht := i.t t
      rw [hp] at ht
      obtain ⟨-, ob, h1, h2, -⟩ := ht
      obtain ⟨og, h3, -⟩ := g.glob
      rw [e] at h3
      have := h1.symm.trans h3.1
      cases this
      rw [h3.2] at h2; cases h2
    intro x o' hx
    have hx : upd s.heap b none x = some o' := hx
    by_cases e : x = b
    · subst e; rw [upd_same] at hx; cases hx
    · rw [upd_ne _ _ e] at hx
      have oth : ∀ {t' y}, (s.pc t').own = some y → y ≠ .new b → (upd s.pc t (.mg0 (some h)) t').own = some y := by
        intro t' y h1 h2
        by_cases e : t' = t
        · subst e; rw [hp] at h1; cases h1; exact absurd rfl h2
        · rw [upd_ne _ _ e]; exact h1
      rcases k x o' hx with h1 | h1 | ⟨t', h1⟩ | ⟨t', h1⟩ | ⟨t', h1, og, h2, h3, h4, h5⟩
      · exact .inl h1
      · exact .inr (.inl h1)
      · exact .inr (.inr (.inl ⟨t', oth h1 nofun⟩))
      · refine .inr (.inr (.inr (.inl ⟨t', oth h1 ?_⟩)))
        intro e'; cases e'; exact e rfl
      · refine .inr (.inr (.inr (.inr ⟨t', h1, og, ?_, h3, ?_, h5⟩)))
        · show (upd s.pc t _ t').growing = _
          by_cases e : t' = t
          · subst e; rw [hp] at h2; rw [upd_same]; exact h2
          · rw [upd_ne _ _ e]; exact h2
        · show upd s.heap b _ s.glob = _
          rw [upd_ne _ _ hgl]; exact h4
  case egCas t h n hp hg =>
    have ht := i.t t
    rw [hp] at ht
    obtain ⟨o, h1, -, -, -, -, -, h7⟩ := ht
    intro x o' hx
    have oth : ∀ {t' y}, (s.pc t').own = some y → (upd s.pc t (.eg4 h n) t').own = some y := by
      intro t' y h1
      by_cases e : t' = t
      · subst e; rw [hp] at h1; cases h1
      · rw [upd_ne _ _ e]; exact h1
    rcases k x o' hx with h1 | h1 | ⟨t', h1⟩ | ⟨t', h1⟩ | ⟨t', h1, og, h2, h3, h4, h5⟩
    · refine .inr (.inr (.inl ⟨t, ?_⟩))
      show (upd s.pc t _ t).own = _
      rw [upd_same, h1, hg]; rfl
    · exact .inr (.inl h1)
    · exact .inr (.inr (.inl ⟨t', oth h1⟩))
    · exact .inr (.inr (.inr (.inl ⟨t', oth h1⟩)))
    · left
      show x = n
      rw [hg, (show s.heap h.tab = some o from ‹Pub s h.tab o›.1)] at h4
      cases h4
      rw [h7] at h5
      cases h5
      rfl
  case egRetire t h o hp ho =>
    intro x o' hx
    have hx : upd s.heap h.tab _ x = some o' := hx
    by_cases e : x = h.tab
    · subst e; rw [upd_same] at hx; cases hx; exact .inr (.inl rfl)
    · rw [upd_ne _ _ e] at hx
      have oth : ∀ {t' y}, (s.pc t').own = some y → y ≠ .ret h.tab → (upd s.pc t (.ldU .idle h) t').own = some y := by
        intro t' y h1 h2
        by_cases e : t' = t
        · subst e; rw [hp] at h1; cases h1; exact absurd rfl h2
        · rw [upd_ne _ _ e]; exact h1
      rcases k x o' hx with h1 | h1 | ⟨t', h1⟩ | ⟨t', h1⟩ | ⟨t', h1, og, h2, h3, h4, h5⟩
      · exact .inl h1
      · exact .inr (.inl h1)
      · refine .inr (.inr (.inl ⟨t', oth h1 ?_⟩))
        intro e'; cases e'; exact e rfl
      · exact .inr (.inr (.inr (.inl ⟨t', oth h1 nofun⟩)))
      · obtain ⟨og', h6, h7⟩ : ∃ og', upd s.heap h.tab (some { o with retired := true }) s.glob = some og' ∧
            og'.next = og.next := by
          by_cases e : s.glob = h.tab
          · rw [e] at h4 ⊢
            rw [ho] at h4; cases h4
            exact ⟨_, upd_same _ _ _, rfl⟩
          · exact ⟨og, by rw [upd_ne _ _ e]; exact h4, rfl⟩
        refine .inr (.inr (.inr (.inr ⟨t', h1, og', ?_, h3, h6, h7.trans h5⟩)))
        show (upd s.pc t _ t').growing = _
        by_cases e : t' = t
        · subst e; rw [hp] at h2; cases h2
        · rw [upd_ne _ _ e]; exact h2
  case free a o ho hr hn =>
    have hgl : s.glob ≠ a := by
      intro e
      obtain ⟨og, h1, h2⟩ := g.glob
      rw [e] at h1
      have := ho.symm.trans h1.1
      cases this
      have h3 := g.retired _ _ h1 hr
      have := (vg_bounds s).1
      omega
    intro x o' hx
    have hx : upd s.heap a none x = some o' := hx
    by_cases e : x = a
    · subst e; rw [upd_same] at hx; cases hx
    · rw [upd_ne _ _ e] at hx
      rcases k x o' hx with h1 | h1 | h1 | h1 | ⟨t', h1, og, h2, h3, h4, h5⟩
      · exact .inl h1
      · exact .inr (.inl h1)
      · exact .inr (.inr (.inl h1))
      · exact .inr (.inr (.inr (.inl h1)))
      · refine .inr (.inr (.inr (.inr ⟨t', h1, og, h2, h3, ?_, h5⟩)))
        show upd s.heap a none s.glob = _
        rw [upd_ne _ _ hgl]; exact h4

theorem Reach.kept {a : A} {n : Nat} {l : List (Lab T A)} {s : St T A} (h : Reach a n l s) : Kept s := by
  induction h with
  | init => exact Kept.init a n
  | step h hs ih => exact ih.step (Inv.reach h) hs

end
end Async
end Growt
