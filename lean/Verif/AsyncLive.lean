import Verif.AsyncStep

/-!
# Asynchronous growth: who waits for whom (`data-structures/strategies/estrat_async.hpp`)

The waiting loops are those for the epoch in `init` and `load` (lines 201-204, 315-318) and the one for
the helpers in `end_grow` (325).
-/

set_option linter.unusedSectionVars false

namespace Growt
namespace Async
section
variable {T A : Type} [DecidableEq T] [DecidableEq A]

/-- The thread is inside an operation of a handle, is creating one, or is a thread of the pool in a
migration. (specification, no code) -/
def PC.busy : PC A → Bool
  | .fresh | .pool | .idle _ | .gone _ => false
  | _ => true

/-- The thread has come to rest: it has a handle and is between operations, or it is a thread of the
pool between migrations. (specification, no code) -/
def PC.rests : PC A → Bool
  | .idle _ => true
  | .pool => true
  | _ => false

/-- The thread is counted in `_n_helper` (`estrat_async.hpp:251-280`), or it has exchanged the current
table and not yet stored the epoch (332-344). (specification, no code) -/
def PC.helps : PC A → Bool
  | .mg1 _ | .mg2 _ _ | .mg3 _ _ | .mg4 _ _ _ | .mg5 _ _ _ _ | .mg6 _ _ _ | .mg8 _ _ => true
  | .eg4 _ _ => true
  | _ => false

/-- The thread waits for an epoch that is over (C26). (specification, no code) -/
def St.overtaken (s : St T A) (t : T) : Prop :=
  ∃ c v x o, s.pc t = .ldW c v x ∧ s.heap x = some o ∧ o.ver < s.epoch

/-- Executions in which only the threads in `P` and those move that others may have to wait for; none of
them begins anything new. (specification, no code) -/
inductive Run (P : T → Prop) : St T A → St T A → Prop where
  | refl (s : St T A) : Run P s s
  | step {s s1 s' : St T A} {e : Lab T A} (u : T) (hu : P u ∨ (s.pc u).helps = true)
      (hb : (s.pc u).busy = true) (hs : Step s e s1) (hm : s1.pc u ≠ s.pc u)
      (ho : ∀ x, x ≠ u → s1.pc x = s.pc x) (hr : Run P s1 s') : Run P s s'

theorem Run.trans {P : T → Prop} {s s1 s' : St T A} (h : Run P s s1) (h' : Run P s1 s') : Run P s s' := by
  induction h with
  | refl => exact h'
  | step u hu hb hs hm ho _ ih => exact .step u hu hb hs hm ho (ih h')

theorem Run.mono {P Q : T → Prop} (hPQ : ∀ t, P t → Q t) {s s' : St T A} (h : Run P s s') : Run Q s s' := by
  induction h with
  | refl => exact .refl _
  | step u hu hb hs hm ho _ ih => exact .step u (hu.imp_left (hPQ u)) hb hs hm ho ih

theorem Run.reach {P : T → Prop} {a : A} {n : Nat} {s s' : St T A} (h : Run P s s')
    (hr : ∃ l, Reach a n l s) : ∃ l, Reach a n l s' := by
  induction h with
  | refl => exact hr
  | step u hu hb hs hm ho _ ih => obtain ⟨l, hl⟩ := hr; exact ih ⟨_, hl.step hs⟩

theorem Run.one {P : T → Prop} {u : T} {s s1 : St T A} {e : Lab T A} {p q : PC A} (hp : s.pc u = q)
    (hu : P u ∨ q.helps = true) (hb : q.busy = true) (hs : Step s e s1) (hpc : s1.pc = upd s.pc u p)
    (hm : p ≠ q) : Run P s s1 :=
  .step u (by rw [hp]; exact hu) (by rw [hp]; exact hb) hs (by rw [hpc, upd_same, hp]; exact hm)
    (fun x hx => by rw [hpc, upd_ne _ _ hx]) (.refl _)

/-- Threads that are not busy do not move. -/
theorem Run.rest {P : T → Prop} {s s' : St T A} (h : Run P s s') {x : T} (hx : (s.pc x).busy = false) :
    s'.pc x = s.pc x := by
  induction h with
  | refl => rfl
  | step u hu hb hs hm ho _ ih =>
    have hne : x ≠ u := by rintro rfl; rw [hx] at hb; cases hb
    rw [ih (by rw [ho x hne]; exact hx), ho x hne]

/-- The thread can come to rest. (proof, no code) -/
def Ends (s : St T A) (t : T) : Prop := ∃ s', Run (· = t) s s' ∧ (s'.pc t).rests = true

theorem Run.ends {t : T} {s s1 : St T A} (hr : Run (· = t) s s1) (h : Ends s1 t) : Ends s t := by
  obtain ⟨s', h1, h2⟩ := h
  exact ⟨s', hr.trans h1, h2⟩

theorem Ends.here {s : St T A} {t : T} (h : (s.pc t).rests = true) : Ends s t := ⟨s, .refl _, h⟩

/-- Reachable, for some execution. (proof, no code) -/
def Ok (a : A) (n : Nat) (s : St T A) : Prop := ∃ l, Reach a n l s

theorem Ok.inv {a : A} {n : Nat} {s : St T A} (h : Ok a n s) : Inv s := by
  obtain ⟨l, h⟩ := h; exact Inv.reach h

theorem Ok.run {a : A} {n : Nat} {P : T → Prop} {s s' : St T A} (h : Ok a n s) (hr : Run P s s') : Ok a n s' :=
  hr.reach h

/-! ## Loading the table -/

theorem end_use {s : St T A} {t : T} {h : Hd A} (hp : s.pc t = .use h) : Ends s t := by
  have r : Run (· = t) s _ := Run.one hp (.inl rfl) rfl (Step.exitDone hp) rfl nofun
  refine r.ends (.here ?_)
  show (upd s.pc t _ t).rests = true
  rw [upd_same]; rfl

theorem end_ldW {s : St T A} {t : T} {c : After} {v : Nat} {x : A} {o : Obj A} (hp : s.pc t = .ldW c v x)
    (ho : s.heap x = some o) (hv : o.ver = s.epoch) : Ends s t := by
  by_cases hc : c = .use
  · subst hc
    have r : Run (· = t) s _ := Run.one hp (.inl rfl) rfl (Step.ldUse hp ho hv) rfl nofun
    exact r.ends (end_use (upd_same _ _ _))
  · have r : Run (· = t) s _ := Run.one hp (.inl rfl) rfl (Step.ldDone hp ho hv hc) rfl nofun
    refine r.ends (.here ?_)
    show (upd s.pc t _ t).rests = true
    rw [upd_same]; rfl

/-- The thread that has exchanged the current table stores the epoch. -/
theorem settle {s : St T A} (i : Inv s) (t : T) (ht : ∀ h n, s.pc t ≠ .eg4 h n) :
    ∃ s1, Run (· = t) s s1 ∧ s1.pc t = s.pc t ∧ s1.heap = s.heap ∧ s1.glob = s.glob ∧ s1.glob = s1.cur ∧
      (s.glob = s.cur → s1 = s) := by
  by_cases hg : s.glob = s.cur
  · exact ⟨s, .refl _, rfl, rfl, rfl, hg, fun _ => rfl⟩
  · obtain ⟨u, h, hp⟩ := i.pub hg
    obtain ⟨o, ho, -⟩ := i.g.glob
    have hne : t ≠ u := by rintro rfl; exact ht _ _ hp
    exact ⟨_, Run.one hp (.inr rfl) rfl (Step.egEpoch hp ho.1) rfl nofun, upd_ne _ _ hne, rfl, rfl, rfl,
      fun h => absurd h hg⟩

theorem end_ldP {a : A} {n : Nat} {s : St T A} (hk : Ok a n s) {t : T} {c : After} {v : Nat}
    (hp : s.pc t = .ldP c v) : Ends s t := by
  obtain ⟨s1, r, h1, h2, h3, h4, -⟩ := settle hk.inv t (by rw [hp]; nofun)
  have i1 := (hk.run r).inv
  obtain ⟨o, ho, hv⟩ := i1.g.glob
  have hp1 : s1.pc t = .ldP c v := by rw [h1]; exact hp
  have r2 : Run (· = t) s1 _ := Run.one hp1 (.inl rfl) rfl (Step.prot hp1 ho.1) rfl nofun
  refine (r.trans r2).ends (end_ldW (o := o) (upd_same _ _ _) ho.1 ?_)
  rw [hv]
  unfold St.vg
  rw [if_pos h4]; rfl

theorem end_ldU {a : A} {n : Nat} {s : St T A} (hk : Ok a n s) {t : T} {c : After} {h : Hd A}
    (hp : s.pc t = .ldU c h) : Ends s t := by
  have r : Run (· = t) s _ := Run.one hp (.inl rfl) rfl (Step.unprot hp) rfl nofun
  exact r.ends (end_ldP (hk.run r) (upd_same _ _ _))

/-! ## `end_grow` -/

theorem end_eg5 {a : A} {n : Nat} {s : St T A} (hk : Ok a n s) {t : T} {h : Hd A}
    (hp : s.pc t = .eg5 h) : Ends s t := by
  have ht := hk.inv.t t
  rw [hp] at ht
  obtain ⟨o, ho, -⟩ := ht
  have r : Run (· = t) s _ := Run.one hp (.inl rfl) rfl (Step.egRetire hp ho.1) rfl nofun
  exact r.ends (end_ldU (hk.run r) (upd_same _ _ _))

theorem end_eg4 {a : A} {n : Nat} {s : St T A} (hk : Ok a n s) {t : T} {h : Hd A} {y : A}
    (hp : s.pc t = .eg4 h y) : Ends s t := by
  have ht := hk.inv.t t
  rw [hp] at ht
  obtain ⟨o, ho, -⟩ := hk.inv.g.glob
  rw [ht.2.1] at ho
  have r : Run (· = t) s _ := Run.one hp (.inl rfl) rfl (Step.egEpoch hp ho.1) rfl nofun
  exact r.ends (end_eg5 (hk.run r) (upd_same _ _ _))

theorem end_eg3 {a : A} {n : Nat} {s : St T A} (hk : Ok a n s) {t : T} {h : Hd A} {nx : Option A}
    (hp : s.pc t = .eg3 h nx) : Ends s t := by
  have ht := hk.inv.t t
  rw [hp] at ht
  by_cases hg : s.glob = h.tab
  · cases nx with
    | none =>
      obtain ⟨o, -, -, -, h4, -, -, h7⟩ := ht
      exact absurd h7 h4
    | some y =>
      have r : Run (· = t) s _ := Run.one hp (.inl rfl) rfl (Step.egCas hp hg) rfl nofun
      exact r.ends (end_eg4 (hk.run r) (upd_same _ _ _))
  · have r : Run (· = t) s _ := Run.one hp (.inl rfl) rfl (Step.egFail hp hg) rfl nofun
    exact r.ends (end_ldU (hk.run r) (upd_same _ _ _))

theorem end_eg2 {a : A} {n : Nat} {s : St T A} (hk : Ok a n s) {t : T} {h : Hd A}
    (hp : s.pc t = .eg2 h) : Ends s t := by
  have ht := hk.inv.t t
  rw [hp] at ht
  obtain ⟨o, ho, -⟩ := ht
  have r : Run (· = t) s _ := Run.one hp (.inl rfl) rfl (Step.egNext hp ho.1) rfl nofun
  exact r.ends (end_eg3 (hk.run r) (upd_same _ _ _))

/-! ## Helpers -/

/-- The helper `u` can leave. (proof, no code) -/
def Leaves (t : T) (s : St T A) (u : T) : Prop :=
  ∃ s1, Run (· = t) s s1 ∧ (∀ x, x ≠ u → s1.pc x = s.pc x) ∧ s1.nHelper = s.nHelper - 1 ∧
    ((∃ w c n, s1.pc u = .mg7 w c n) ∨ ∃ w c, s1.pc u = .mg9 w c)

theorem Leaves.after {t u : T} {s s1 : St T A} {e : Lab T A} {p q : PC A} (hp : s.pc u = q)
    (hq : q.helps = true) (hb : q.busy = true) (hs : Step s e s1) (hpc : s1.pc = upd s.pc u p) (hm : p ≠ q)
    (hn : s1.nHelper = s.nHelper) (h : Leaves t s1 u) : Leaves t s u := by
  obtain ⟨s2, r, h1, h2, h3⟩ := h
  refine ⟨s2, (Run.one hp (.inr hq) hb hs hpc hm).trans r, fun x hx => ?_, by rw [h2, hn], h3⟩
  rw [h1 x hx, hpc, upd_ne _ _ hx]

theorem leave8 {t u : T} {s : St T A} {w : Option (Hd A)} {c : A} (hp : s.pc u = .mg8 w c) : Leaves t s u :=
  ⟨_, Run.one hp (.inr rfl) rfl (Step.mgNo hp) rfl nofun, fun _ hx => upd_ne _ _ hx, rfl,
    .inr ⟨w, c, upd_same _ _ _⟩⟩

theorem leave6 {t u : T} {s : St T A} {w : Option (Hd A)} {c n : A} (hp : s.pc u = .mg6 w c n) : Leaves t s u :=
  ⟨_, Run.one hp (.inr rfl) rfl (Step.mgOut hp) rfl nofun, fun _ hx => upd_ne _ _ hx, rfl,
    .inl ⟨w, c, n, upd_same _ _ _⟩⟩

theorem leave4 {t u : T} {w : Option (Hd A)} {c n : A} (k : Nat) : ∀ (s : St T A) (o : Obj A),
    s.pc u = .mg4 w c n → s.heap c = some o → o.blocks - o.claimed ≤ k → Leaves t s u := by
  induction k with
  | zero =>
    intro s o hp ho hk
    exact Leaves.after hp rfl rfl (Step.leave hp ho (by omega)) rfl nofun rfl
      (leave6 (w := w) (c := c) (n := n) (upd_same _ _ _))
  | succ k ih =>
    intro s o hp ho hk
    by_cases hb : o.claimed < o.blocks
    · refine Leaves.after hp rfl rfl (Step.claim hp ho hb) rfl nofun rfl ?_
      refine Leaves.after (q := .mg5 w c n o.claimed) (upd_same _ _ _) rfl rfl
        (Step.done (o := { o with claimed := o.claimed + 1 }) (upd_same _ _ _) (upd_same _ _ _)) rfl nofun rfl ?_
      exact ih _ { o with claimed := o.claimed + 1, fin := upd o.fin o.claimed true } (upd_same _ _ _)
        (upd_same _ _ _) (by show o.blocks - (o.claimed + 1) ≤ k; omega)
    · exact Leaves.after hp rfl rfl (Step.leave hp ho (by omega)) rfl nofun rfl
        (leave6 (w := w) (c := c) (n := n) (upd_same _ _ _))

theorem leave3 {t u : T} {s : St T A} {w : Option (Hd A)} {c : A} (i : Inv s) (hp : s.pc u = .mg3 w c) :
    Leaves t s u := by
  have ht := i.t u
  rw [hp] at ht
  obtain ⟨-, o, h1, h2, -, h3⟩ := ht
  cases hn : o.next with
  | none => exact absurd hn h3
  | some n =>
    obtain ⟨on, h4⟩ := near_next i.g h1 h2 hn
    exact Leaves.after hp rfl rfl (Step.mgNext hp h1.1 hn h4.1) rfl nofun rfl
      (leave4 (w := w) (c := c) (n := n) (o.blocks - o.claimed) _ o (upd_same _ _ _) h1.1 (Nat.le_refl _))

theorem leave2 {t u : T} {s : St T A} {w : Option (Hd A)} {c : A} (i : Inv s) (hp : s.pc u = .mg2 w c) :
    Leaves t s u := by
  have ht := i.t u
  rw [hp] at ht
  obtain ⟨-, o, h1, -⟩ := ht
  by_cases hn : o.next = none
  · exact Leaves.after hp rfl rfl (Step.mgNull hp h1.1 hn) rfl nofun rfl
      (leave8 (w := w) (c := c) (upd_same _ _ _))
  · have st := Step.mgSome hp h1.1 hn
    exact Leaves.after hp rfl rfl st rfl nofun rfl
      (leave3 (w := w) (c := c) (i.step st) (upd_same _ _ _))

theorem leave1 {t u : T} {s : St T A} {w : Option (Hd A)} (i : Inv s) (hp : s.pc u = .mg1 w) :
    Leaves t s u := by
  obtain ⟨o, ho, -⟩ := i.g.glob
  have st := Step.mgProt hp ho.1
  exact Leaves.after hp rfl rfl st rfl nofun rfl
    (leave2 (w := w) (c := s.glob) (i.step st) (upd_same _ _ _))

/-- Every helper can leave. -/
theorem leaves {s : St T A} (i : Inv s) (t : T) {u : T} (hz : (s.pc u).zone = true) : Leaves t s u := by
  have ht := i.t u
  cases hp : s.pc u with
  | mg1 w => exact leave1 i hp
  | mg2 w c => exact leave2 i hp
  | mg3 w c => exact leave3 i hp
  | mg4 w c n =>
    rw [hp] at ht
    obtain ⟨-, ⟨o, h1, -⟩, -⟩ := ht
    exact leave4 _ s o hp h1.1 (Nat.le_refl _)
  | mg5 w c n k =>
    rw [hp] at ht
    obtain ⟨-, ⟨o, h1, -⟩, -⟩ := ht
    exact Leaves.after hp rfl rfl (Step.done hp h1.1) rfl nofun rfl
      (leave4 _ _ { o with fin := upd o.fin k true } (upd_same _ _ _) (upd_same _ _ _) (Nat.le_refl _))
  | mg6 w c n => exact leave6 hp
  | mg8 w c => exact leave8 hp
  | _ => rw [hp] at hz; cases hz

theorem end_eg1 {a : A} {n : Nat} {t : T} {h : Hd A} (k : Nat) : ∀ s : St T A, Ok a n s →
    s.pc t = .eg1 h → s.nHelper ≤ k → Ends s t := by
  induction k with
  | zero =>
    intro s hk hp hn
    have r : Run (· = t) s _ := Run.one hp (.inl rfl) rfl (Step.egGo hp (by omega)) rfl nofun
    exact r.ends (end_eg2 (hk.run r) (upd_same _ _ _))
  | succ k ih =>
    intro s hk hp hn
    by_cases hz : s.nHelper = 0
    · have r : Run (· = t) s _ := Run.one hp (.inl rfl) rfl (Step.egGo hp hz) rfl nofun
      exact r.ends (end_eg2 (hk.run r) (upd_same _ _ _))
    · obtain ⟨l, -, h2, h3⟩ := hk.inv.helpers
      cases l with
      | nil => exact absurd h3.symm hz
      | cons u l =>
        have hu : (s.pc u).zone = true := (h2 u).1 (List.mem_cons_self ..)
        obtain ⟨s1, r, h4, h5, -⟩ := leaves hk.inv t hu
        have hne : t ≠ u := by rintro rfl; rw [hp] at hu; cases hu
        exact r.ends (ih s1 (hk.run r) (by rw [h4 t hne]; exact hp) (by omega))

theorem end_after {a : A} {n : Nat} {t : T} {w : Option (Hd A)} {s : St T A} (hk : Ok a n s)
    (hp : s.pc t = PC.after w) : Ends s t := by
  cases w with
  | none => exact .here (by rw [hp]; rfl)
  | some h => exact end_eg1 _ s hk hp (Nat.le_refl _)

theorem after_ne7 (w w' : Option (Hd A)) (n : A) : PC.after w ≠ .mg7b w' n := by cases w <;> nofun

theorem after_ne9 (w w' : Option (Hd A)) (n : A) : PC.after w ≠ .mg9 w' n := by cases w <;> nofun

theorem end_mg7b {a : A} {n : Nat} {t : T} {w : Option (Hd A)} {y : A} {s : St T A} (hk : Ok a n s)
    (hp : s.pc t = .mg7b w y) : Ends s t := by
  have r : Run (· = t) s _ := Run.one hp (.inl rfl) rfl (Step.mgUn2 hp) rfl (after_ne7 _ _ _)
  exact r.ends (end_after (hk.run r) (upd_same _ _ _))

theorem end_mg7 {a : A} {n : Nat} {t : T} {w : Option (Hd A)} {x y : A} {s : St T A} (hk : Ok a n s)
    (hp : s.pc t = .mg7 w x y) : Ends s t := by
  have ht := hk.inv.t t
  rw [hp] at ht
  obtain ⟨-, -, o, ho⟩ := ht
  have r : Run (· = t) s _ := Run.one hp (.inl rfl) rfl (Step.mgUn hp ho.1) rfl nofun
  exact r.ends (end_mg7b (hk.run r) (upd_same _ _ _))

theorem end_mg9 {a : A} {n : Nat} {t : T} {w : Option (Hd A)} {x : A} {s : St T A} (hk : Ok a n s)
    (hp : s.pc t = .mg9 w x) : Ends s t := by
  have ht := hk.inv.t t
  rw [hp] at ht
  obtain ⟨-, o, ho⟩ := ht
  have r : Run (· = t) s _ := Run.one hp (.inl rfl) rfl (Step.mgNoUn hp ho.1) rfl (after_ne9 _ _ _)
  exact r.ends (end_after (hk.run r) (upd_same _ _ _))

theorem end_zone {a : A} {n : Nat} {t : T} {s : St T A} (hk : Ok a n s) (hz : (s.pc t).zone = true) :
    Ends s t := by
  obtain ⟨s1, r, -, -, h⟩ := leaves hk.inv t hz
  rcases h with ⟨w, c, n, hp⟩ | ⟨w, c, hp⟩
  · exact r.ends (end_mg7 (hk.run r) hp)
  · exact r.ends (end_mg9 (hk.run r) hp)

theorem end_mg0 {a : A} {n : Nat} {t : T} {w : Option (Hd A)} {s : St T A} (hk : Ok a n s)
    (hp : s.pc t = .mg0 w) : Ends s t := by
  have r : Run (· = t) s _ := Run.one hp (.inl rfl) rfl (Step.mgIn hp) rfl nofun
  refine r.ends (end_zone (hk.run r) ?_)
  show (upd s.pc t _ t).zone = true
  rw [upd_same]; rfl

/-! ## `grow` -/

theorem end_gr3 {a : A} {n : Nat} {t : T} {h : Hd A} {b : A} {s : St T A} (hk : Ok a n s)
    (hp : s.pc t = .gr3 h b) : Ends s t := by
  have r : Run (· = t) s _ := Run.one hp (.inl rfl) rfl (Step.grDel hp) rfl nofun
  exact r.ends (end_mg0 (hk.run r) (upd_same _ _ _))

theorem end_gr2 {a : A} {n : Nat} {t : T} {h : Hd A} {b : A} {s : St T A} (hk : Ok a n s)
    (hp : s.pc t = .gr2 h b) : Ends s t := by
  have ht := hk.inv.t t
  rw [hp] at ht
  obtain ⟨⟨o, h1, -⟩, ob, h2, -⟩ := ht
  by_cases hn : o.next = none
  · have r : Run (· = t) s _ := Run.one hp (.inl rfl) rfl (Step.grCas hp h1.1 hn h2) rfl nofun
    exact r.ends (end_mg0 (hk.run r) (upd_same _ _ _))
  · have r : Run (· = t) s _ := Run.one hp (.inl rfl) rfl (Step.grFail hp h1.1 hn) rfl nofun
    exact r.ends (end_gr3 (hk.run r) (upd_same _ _ _))

/-- Only finitely many tables exist, and only finitely many threads. -/
theorem finite {a : A} {n : Nat} {l : List (Lab T A)} {s : St T A} (h : Reach a n l s) :
    (∃ L : List A, ∀ x, x ∉ L → s.heap x = none) ∧ ∃ L : List T, ∀ t, t ∉ L → s.pc t = .fresh := by
  induction h with
  | init =>
    refine ⟨⟨[a], fun x hx => ?_⟩, [], fun _ _ => rfl⟩
    have hx : x ≠ a := by simpa using hx
    simp [St.init, hx]
  | @step l s s' e h hs ih =>
    obtain ⟨⟨L, hL⟩, M, hM⟩ := ih
    have hp : ∀ t p, s'.pc = upd s.pc t p → ∃ L : List T, ∀ t, t ∉ L → s'.pc t = .fresh := by
      intro t p hpc
      refine ⟨t :: M, fun x hx => ?_⟩
      rw [hpc, upd_ne _ _ (by rintro rfl; exact hx (List.mem_cons_self ..))]
      exact hM x fun h => hx (List.mem_cons_of_mem _ h)
    have hu : ∀ b o, s'.heap = upd s.heap b o → ∃ L : List A, ∀ x, x ∉ L → s'.heap x = none := by
      intro b o hh
      refine ⟨b :: L, fun x hx => ?_⟩
      rw [hh, upd_ne _ _ (by rintro rfl; exact hx (List.mem_cons_self ..))]
      exact hL x fun h => hx (List.mem_cons_of_mem _ h)
    cases hs with
    | ldWait | op | work | egWait => exact ⟨⟨L, hL⟩, M, hM⟩
    | free => exact ⟨hu _ _ rfl, M, hM⟩
    | grMake | grDel | claim | leave | done | egRetire => exact ⟨hu _ _ rfl, hp _ _ rfl⟩
    | @grCas t h b o ob hp' ho hn hb =>
      refine ⟨⟨b :: h.tab :: L, fun x hx => ?_⟩, hp _ _ rfl⟩
      show upd (upd s.heap b _) h.tab _ x = none
      have h1 : x ≠ h.tab := by rintro rfl; exact hx (List.mem_cons_of_mem _ (List.mem_cons_self ..))
      have h2 : x ≠ b := by rintro rfl; exact hx (List.mem_cons_self ..)
      rw [upd_ne _ _ h1, upd_ne _ _ h2]
      exact hL x fun h => hx (List.mem_cons_of_mem _ (List.mem_cons_of_mem _ h))
    | _ => exact ⟨⟨L, hL⟩, hp _ _ rfl⟩

theorem end_gr1 (hA : ∀ L : List A, ∃ b, b ∉ L) {a : A} {n : Nat} {t : T} {h : Hd A} {s : St T A} (hk : Ok a n s)
    (hp : s.pc t = .gr1 h) : Ends s t := by
  have ht := hk.inv.t t
  rw [hp] at ht
  obtain ⟨o, h1, -⟩ := ht
  obtain ⟨l, hr⟩ := hk
  obtain ⟨⟨L, hL⟩, -⟩ := finite hr
  obtain ⟨b, hb⟩ := hA L
  have r : Run (· = t) s _ := Run.one hp (.inl rfl) rfl (Step.grMake 0 hp h1.1 (hL b hb)) rfl nofun
  exact r.ends (end_gr2 (Ok.run ⟨l, hr⟩ r) (upd_same _ _ _))

/-! ## All threads -/

/-- Every thread that has not been overtaken can finish. -/
theorem ends (hA : ∀ L : List A, ∃ b, b ∉ L) {a : A} {n : Nat} {s : St T A} (hk : Ok a n s) (t : T)
    (hn : (s.pc t).busy = true ∨ (s.pc t).rests = true) (ho : ¬ s.overtaken t) : Ends s t := by
  cases hp : s.pc t with
  | fresh => rw [hp] at hn; rcases hn with h | h <;> cases h
  | gone h => rw [hp] at hn; rcases hn with h | h <;> cases h
  | pool => exact .here (by rw [hp]; rfl)
  | idle h => exact .here (by rw [hp]; rfl)
  | ldU c h => exact end_ldU hk hp
  | ldP c v => exact end_ldP hk hp
  | ldW c v x =>
    have ht := hk.inv.t t
    rw [hp] at ht
    obtain ⟨-, o, h1, h2⟩ := ht
    have hle : s.epoch ≤ o.ver := Nat.le_of_not_lt fun h => ho ⟨c, v, x, o, hp, h1.1, h⟩
    by_cases he : o.ver = s.epoch
    · exact end_ldW hp h1.1 he
    · obtain ⟨s1, r, h3, h4, h5, h6, -⟩ := settle hk.inv t (by rw [hp]; nofun)
      have i1 := (hk.run r).inv
      have hb := vg_bounds s
      have hov : o.ver = s.vg := by omega
      obtain ⟨og, g1, g2⟩ := hk.inv.g.glob
      have hx : x = s.glob := hk.inv.g.inj _ _ _ _ h1 g1 (by rw [hov, g2])
      refine r.ends (end_ldW (by rw [h3]; exact hp) (by rw [h4]; exact h1.1) ?_)
      have := (i1.g.globP (o := o) (by rw [h4, h5, ← hx]; exact h1.1)).2
      rw [this]
      unfold St.vg
      rw [if_pos h6]
  | use h => exact end_use hp
  | gr1 h => exact end_gr1 hA hk hp
  | gr2 h b => exact end_gr2 hk hp
  | gr3 h b => exact end_gr3 hk hp
  | mg0 w => exact end_mg0 hk hp
  | mg7 w c n => exact end_mg7 hk hp
  | mg7b w n => exact end_mg7b hk hp
  | mg9 w c => exact end_mg9 hk hp
  | eg1 h => exact end_eg1 _ s hk hp (Nat.le_refl _)
  | eg2 h => exact end_eg2 hk hp
  | eg3 h nx => exact end_eg3 hk hp
  | eg4 h y => exact end_eg4 hk hp
  | eg5 h => exact end_eg5 hk hp
  | _ => exact end_zone hk (by rw [hp]; rfl)

/-! ## All threads together -/

/-- What a helper does next is not loading the table. -/
theorem helps_step {s s1 : St T A} {e : Lab T A} {u : T} (hu : (s.pc u).helps = true) (hs : Step s e s1)
    (hm : s1.pc u ≠ s.pc u) : ∀ c v x, s1.pc u ≠ .ldW c v x := by
  intro c v x hx
  have key : ∀ (t : T) (p q : PC A), s.pc t = q → s1.pc = upd s.pc t p →
      (q.helps = true → p ≠ .ldW c v x) → False := by
    intro t p q hp hpc hq
    by_cases ht : u = t
    · subst ht
      rw [hpc, upd_same] at hx
      exact hq (by rw [← hp]; exact hu) hx
    · exact hm (by rw [hpc, upd_ne _ _ ht])
  cases hs <;> first
    | exact hm rfl
    | exact key _ _ _ (by assumption) rfl (fun h => by first | (cases h; done) | nofun)

/-- Then only the thread itself can begin to load. -/
theorem Run.noLoad {t : T} {s s' : St T A} (h : Run (· = t) s s') {x : T} (hx : x ≠ t)
    (hl : ∀ c v y, s.pc x ≠ .ldW c v y) : ∀ c v y, s'.pc x ≠ .ldW c v y := by
  induction h with
  | refl => exact hl
  | @step s s1 s' e u hu hb hs hm ho _ ih =>
    by_cases he : x = u
    · subst he
      exact ih (helps_step (hu.resolve_left hx) hs hm)
    · exact ih (by rw [ho x he]; exact hl)

/-- The loads of the current epoch end. -/
theorem loads (L : List T) : ∀ s : St T A, ∃ s1, Run (fun _ => True) s s1 ∧ s1.heap = s.heap ∧
    s1.epoch = s.epoch ∧ s1.glob = s.glob ∧ s1.cur = s.cur ∧
    (∀ x, s1.pc x = s.pc x ∨ (s1.pc x).rests = true) ∧
    ∀ t ∈ L, ∀ c v x o, s1.pc t = .ldW c v x → s1.heap x = some o → o.ver ≠ s1.epoch := by
  induction L with
  | nil => intro s; exact ⟨s, .refl _, rfl, rfl, rfl, rfl, fun _ => .inl rfl, nofun⟩
  | cons t L ih =>
    intro s
    have key : ∃ s1, Run (fun _ => True) s s1 ∧ s1.heap = s.heap ∧
        s1.epoch = s.epoch ∧ s1.glob = s.glob ∧ s1.cur = s.cur ∧
        (∀ x, s1.pc x = s.pc x ∨ (s1.pc x).rests = true) ∧
        ∀ c v x o, s1.pc t = .ldW c v x → s1.heap x = some o → o.ver ≠ s1.epoch := by
      by_cases hp : ∃ c v x o, s.pc t = .ldW c v x ∧ s.heap x = some o ∧ o.ver = s.epoch
      · obtain ⟨c, v, x, o, hp, ho, hv⟩ := hp
        by_cases hc : c = .use
        · subst hc
          have r : Run (fun _ => True) s _ := Run.one hp (.inl trivial) rfl (Step.ldUse hp ho hv) rfl nofun
          have r2 : Run (fun _ => True) _ _ := Run.one (s := s.at t (.use ⟨x, o.ver⟩)) (q := .use ⟨x, o.ver⟩)
            (upd_same _ _ _) (.inl trivial) rfl (Step.exitDone (upd_same _ _ _)) rfl nofun
          refine ⟨_, r.trans r2, rfl, rfl, rfl, rfl, fun y => ?_, fun c v z oz hz => ?_⟩
          · show upd (upd s.pc t _) t _ y = _ ∨ (upd (upd s.pc t _) t _ y).rests = true
            by_cases hy : y = t
            · subst hy; rw [upd_same]; exact .inr rfl
            · rw [upd_ne _ _ hy, upd_ne _ _ hy]; exact .inl rfl
          · have hz : upd (upd s.pc t _) t _ t = _ := hz
            rw [upd_same] at hz; cases hz
        · have r : Run (fun _ => True) s _ := Run.one hp (.inl trivial) rfl (Step.ldDone hp ho hv hc) rfl nofun
          refine ⟨_, r, rfl, rfl, rfl, rfl, fun y => ?_, fun c v z oz hz => ?_⟩
          · show upd s.pc t _ y = _ ∨ (upd s.pc t _ y).rests = true
            by_cases hy : y = t
            · subst hy; rw [upd_same]; exact .inr rfl
            · rw [upd_ne _ _ hy]; exact .inl rfl
          · have hz : upd s.pc t _ t = _ := hz
            rw [upd_same] at hz; cases hz
      · exact ⟨s, .refl _, rfl, rfl, rfl, rfl, fun _ => .inl rfl,
          fun c v x o h1 h2 h3 => hp ⟨c, v, x, o, h1, h2, h3⟩⟩
    obtain ⟨s1, r1, a1, a2, a3, a4, a5, a6⟩ := key
    obtain ⟨s2, r2, b1, b2, b3, b4, b5, b6⟩ := ih s1
    refine ⟨s2, r1.trans r2, b1.trans a1, b2.trans a2, b3.trans a3, b4.trans a4, fun x => ?_, fun u hu => ?_⟩
    · rcases b5 x with h | h
      · rw [h]; exact a5 x
      · exact .inr h
    · rcases List.mem_cons.1 hu with rfl | hu
      · intro c v x o h1 h2
        rcases b5 u with h | h
        · rw [b2]; exact a6 c v x o (by rw [← h]; exact h1) (by rw [← b1]; exact h2)
        · rw [h1] at h; cases h
      · exact b6 u hu

/-- Every thread in a list can come to rest. -/
theorem rest_list (hA : ∀ L : List A, ∃ b, b ∉ L) {a : A} {n : Nat} (L : List T) : ∀ s : St T A, Ok a n s →
    (∀ t c v x, s.pc t ≠ .ldW c v x) →
    ∃ s1, Run (fun _ => True) s s1 ∧ ∀ t ∈ L, (s1.pc t).busy = false := by
  induction L with
  | nil => intro s _ _; exact ⟨s, .refl _, nofun⟩
  | cons t L ih =>
    intro s hk hl
    by_cases hb : (s.pc t).busy = true
    · obtain ⟨s1, r1, h1⟩ := ends hA hk t (.inl hb) (by rintro ⟨c, v, x, o, h, -⟩; exact hl t c v x h)
      have hr : Run (fun _ => True) s s1 := r1.mono fun _ _ => trivial
      have hf : (s1.pc t).busy = false := by
        cases hp : s1.pc t <;> rw [hp] at h1 <;> first | rfl | (cases h1; done)
      obtain ⟨s2, r2, h2⟩ := ih s1 (hk.run r1) (fun u c v x => by
        by_cases hu : u = t
        · subst hu; intro h; rw [h] at hf; cases hf
        · exact r1.noLoad hu (hl u) c v x)
      refine ⟨s2, hr.trans r2, fun u hu => ?_⟩
      rcases List.mem_cons.1 hu with rfl | hu
      · rw [r2.rest hf]; exact hf
      · exact h2 u hu
    · have hf : (s.pc t).busy = false := by simpa using hb
      obtain ⟨s2, r2, h2⟩ := ih s hk hl
      refine ⟨s2, r2, fun u hu => ?_⟩
      rcases List.mem_cons.1 hu with rfl | hu
      · rw [r2.rest hf]; exact hf
      · exact h2 u hu

/-- If nobody has been overtaken, all can come to rest. -/
theorem quiesce (hA : ∀ L : List A, ∃ b, b ∉ L) {a : A} {n : Nat} {s : St T A} (hk : Ok a n s)
    (ho : ∀ t, ¬ s.overtaken t) :
    ∃ s1, Run (fun _ => True) s s1 ∧ ∀ t, (s1.pc t).busy = false := by
  obtain ⟨L, hL⟩ : ∃ L : List T, ∀ t, t ∉ L → s.pc t = .fresh := by
    obtain ⟨l, hr⟩ := hk; exact (finite hr).2
  obtain ⟨s1, r1, a1, a2, a3, a4, a5, a6⟩ := loads L s
  have k1 := hk.run r1
  -- only loads of the current table are left, and only if its epoch is not yet stored
  have hw : ∀ t c v x, s1.pc t = .ldW c v x → ∃ o, s1.heap x = some o ∧ o.ver = s1.epoch + 1 ∧ s1.glob ≠ s1.cur ∧
      x = s1.glob := by
    intro t c v x hp
    have hs : s.pc t = .ldW c v x := by
      rcases a5 t with h | h
      · rw [← h]; exact hp
      · rw [hp] at h; cases h
    have ht := k1.inv.t t
    rw [hp] at ht
    obtain ⟨-, o, h1, h2⟩ := ht
    have hm : t ∈ L := by
      refine Decidable.byContradiction fun h => ?_
      rw [hL t h] at hs; cases hs
    have hne := a6 t hm c v x o hp h1.1
    have hge : s1.epoch ≤ o.ver := by
      rw [a2]
      exact Nat.le_of_not_lt fun h => ho t ⟨c, v, x, o, hs, by rw [← a1]; exact h1.1, h⟩
    have hb := vg_bounds s1
    have hv : o.ver = s1.vg := by omega
    have hgc : s1.glob ≠ s1.cur := by
      intro h
      unfold St.vg at hv
      rw [if_pos h] at hv
      exact hne hv
    obtain ⟨og, g1, g2⟩ := k1.inv.g.glob
    exact ⟨o, h1.1, by omega, hgc, k1.inv.g.inj _ _ _ _ h1 g1 (by rw [hv, g2])⟩
  have fin : ∀ s2 : St T A, Run (fun _ => True) s s2 → (∀ t c v x, s2.pc t = .ldW c v x →
      ∃ o, s2.heap x = some o ∧ o.ver = s2.epoch) → ∃ s1, Run (fun _ => True) s s1 ∧ ∀ t, (s1.pc t).busy = false := by
    intro s2 r2 h2
    have k2 := hk.run r2
    obtain ⟨M, hM⟩ : ∃ L : List T, ∀ t, t ∉ L → s2.pc t = .fresh := by
      obtain ⟨l, hr⟩ := k2; exact (finite hr).2
    obtain ⟨s3, r3, b1, b2, b3, b4, b5, b6⟩ := loads M s2
    have hn : ∀ t c v x, s3.pc t ≠ .ldW c v x := by
      intro t c v x hp
      have hs : s2.pc t = .ldW c v x := by
        rcases b5 t with h | h
        · rw [← h]; exact hp
        · rw [hp] at h; cases h
      have hm : t ∈ M := by
        refine Decidable.byContradiction fun h => ?_
        rw [hM t h] at hs; cases hs
      obtain ⟨o, h3, h4⟩ := h2 t c v x hs
      exact b6 t hm c v x o hp (by rw [b1]; exact h3) (by rw [b2]; exact h4)
    have k3 := k2.run r3
    obtain ⟨N, hN⟩ : ∃ L : List T, ∀ t, t ∉ L → s3.pc t = .fresh := by
      obtain ⟨l, hr⟩ := k3; exact (finite hr).2
    obtain ⟨s4, r4, h4⟩ := rest_list hA N s3 k3 hn
    refine ⟨s4, (r2.trans r3).trans r4, fun t => ?_⟩
    by_cases ht : t ∈ N
    · exact h4 t ht
    · have hp := hN t ht
      rw [r4.rest (by rw [hp]; rfl), hp]; rfl
  by_cases hg : s1.glob = s1.cur
  · exact fin s1 r1 (fun t c v x hp => by obtain ⟨-, -, -, h, -⟩ := hw t c v x hp; exact absurd hg h)
  · obtain ⟨u, h, hp⟩ := k1.inv.pub hg
    obtain ⟨og, g1, g2⟩ := k1.inv.g.glob
    have st := Step.egEpoch hp g1.1
    have r2 : Run (fun _ => True) s1 _ := Run.one hp (.inr rfl) rfl st rfl nofun
    refine fin _ (r1.trans r2) fun t c v x hq => ?_
    have hne : t ≠ u := by
      rintro rfl
      have hq : upd s1.pc t _ t = _ := hq
      rw [upd_same] at hq; cases hq
    have hq : s1.pc t = .ldW c v x := by
      rw [← hq]; exact (upd_ne _ _ hne).symm
    obtain ⟨o, h1, -, -, h4⟩ := hw t c v x hq
    subst h4
    have := h1.symm.trans g1.1
    cases this
    exact ⟨og, g1.1, rfl⟩

/-! ## A helper delays the growth step -/

/-- Steps of other threads. (specification, no code) -/
inductive Others (u : T) : St T A → St T A → Prop where
  | refl (s : St T A) : Others u s s
  | step {s s1 s' : St T A} {e : Lab T A} (h : Others u s s1) (hs : Step s1 e s') (hu : s'.pc u = s1.pc u) :
      Others u s s'

theorem Others.reach {a : A} {n : Nat} {u : T} {s s' : St T A} (h : Others u s s') (hr : Ok a n s) : Ok a n s' := by
  induction h with
  | refl => exact hr
  | step _ hs _ ih => obtain ⟨l, hl⟩ := ih; exact ⟨_, hl.step hs⟩

theorem held {a : A} {n : Nat} {u : T} {s s' : St T A} (hk : Ok a n s) {w : Option (Hd A)} {y : A} {k : Nat}
    (hp : s.pc u = .mg5 w s.glob y k) (h : Others u s s') : s'.glob = s.glob ∧ s'.pc u = s.pc u := by
  induction h with
  | refl => exact ⟨rfl, rfl⟩
  | @step s1 s2 e h0 hs hu ih =>
    have i := (h0.reach hk).inv
    refine ⟨?_, hu.trans ih.2⟩
    have ht := i.t u
    rw [ih.2, hp] at ht
    obtain ⟨-, ⟨o, h1, -, -, -, -, h3, h4⟩, -⟩ := ht
    cases hs with
    | @egCas t h b hq hg =>
      have hd := i.t t
      rw [hq] at hd
      obtain ⟨od, d1, -, -, -, -, d2, -⟩ := hd
      rw [← hg, ih.1] at d1
      have := d1.1.symm.trans h1.1
      cases this
      rw [d2 k h3] at h4; cases h4
    | _ => exact ih.1

end
end Async
end Growt
