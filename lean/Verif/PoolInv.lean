/-
One handle, one pool thread: the invariant of the pool worker strategy when no thread is woken too early.
-/
import Verif.Pool

set_option linter.unusedSectionVars false

namespace Growt
namespace Pool

variable {T : Type} [DecidableEq T]

/-- The action wakes no thread whose counter still has the value it waits for (a thread that has been told to
stop excepted). (proof, no code) -/
def timely (s : St T) : Act T → Prop
  | .spurU t => ∀ v, s.user t = .asleep v → s.uw ≠ v
  | .spurP t => ∀ e, s.pool t = .asleep e → s.gw ≠ e
  | .user t => ((∃ v, s.user t = .ex2 v) ∨ s.user t = .join) →
      ∀ p e, s.pool p = .asleep e → s.gw ≠ e ∨ s.stop p = true
  | .pool t => (∃ e r, s.pool t = .wk e r) → ∀ u v, s.user u = .asleep v → s.uw ≠ v
  | _ => True

/-- All actions of a schedule are so. (proof, no code) -/
def TimelyRun (blocks : Nat → Nat) (s : St T) : List (Act T) → Prop
  | [] => True
  | a :: l => timely s a ∧ ∀ s', act blocks s a = some s' → TimelyRun blocks s' l

/-- All blocks of the table with version `v` have been migrated. (proof, no code) -/
def Migrated (blocks : Nat → Nat) (s : St T) (v : Nat) : Prop := ∀ k, k < blocks v → s.fin v k = true

/-- What the place of the user's thread says. (proof, no code) -/
def UInv (s : St Unit) : UPC → Prop
  | .fresh => s.gw = s.glob ∧ s.uw = 0 ∧ s.pool () = .none
  | .idle v => v = s.glob ∧ s.gw = s.glob
  | .gr v => v = s.glob ∧ s.gw = s.glob
  | .ex1 v => v = s.glob ∧ s.gw = s.glob ∧ s.att s.glob = true
  | .ex2 v => v = s.glob ∧ s.gw = s.glob + 1 ∧ s.att s.glob = true
  | .ex3 v => v = s.glob ∧ s.gw = s.glob + 1 ∧ s.att s.glob = true
  | .asleep v => v = s.glob ∧ s.gw = s.glob + 1 ∧ s.att s.glob = true
  | .eg1 v => v = s.glob ∧ s.gw = s.glob + 1 ∧ s.uw = s.glob + 1
  | .eg2 v => v = s.glob ∧ s.gw = s.glob + 1 ∧ s.uw = s.glob + 1
  | .ld => s.gw = s.glob
  | .join => s.gw = s.glob ∧ s.stop () = true
  | .gone => s.gw = s.glob ∧ s.stop () = true

/-- The pool thread is in the middle of the migration of the current table. (proof, no code) -/
def Busy (s : St Unit) (e : Nat) : Prop :=
  e = s.glob ∧ s.uw = s.glob ∧ s.gw = s.glob + 1 ∧ s.att s.glob = true

/-- What the place of the pool thread says. (proof, no code) -/
def PInv (blocks : Nat → Nat) (s : St Unit) : PPC → Prop
  | .none => s.user () = .fresh
  | .wait e => e = s.uw
  | .asleep e => e = s.uw
  | .chk e => s.stop () = true ∨ (e = s.uw ∧ s.gw ≠ e)
  | .m0 e => Busy s e
  | .m1 e => Busy s e
  | .m2 e w => Busy s e ∧ w = s.glob
  | .m4 e w => Busy s e ∧ w = s.glob
  | .m5 e w _ => Busy s e ∧ w = s.glob
  | .m6 e r => Busy s e ∧ r = s.glob + 1 ∧ Migrated blocks s s.glob
  | .inc e r => Busy s e ∧ r = s.glob + 1 ∧ Migrated blocks s s.glob
  | .wk _ r => r = s.uw
  | .ended => s.stop () = true

/-- The invariant. (proof, no code) -/
structure J (blocks : Nat → Nat) (s : St Unit) : Prop where
  u : UInv s (s.user ())
  p : PInv blocks s (s.pool ())
  lead : s.uw = s.glob ∨ (s.uw = s.glob + 1 ∧ s.gw = s.glob + 1)
  now : s.uw = s.glob + 1 → Migrated blocks s s.glob
  old : ∀ v, v < s.glob → Migrated blocks s v
  got : ∀ k, k < s.claimed s.glob → k < blocks s.glob → s.fin s.glob k = true ∨ ∃ e, s.pool () = .m5 e s.glob k
  new : ∀ v, s.glob < v → s.claimed v = 0
  st : s.stop () = true → s.user () = .join ∨ s.user () = .gone

theorem J.init (blocks : Nat → Nat) : J blocks (St.init : St Unit) := by
  constructor <;> simp [St.init, UInv, PInv]

theorem J.userStep {blocks : Nat → Nat} {s s' : St Unit} (I : J blocks s) (ht : timely s (.user ()))
    (h : userStep s () = some s') : J blocks s' := by
  obtain ⟨g, att, cl, fn, hp, gw, uw, us, pl, stp⟩ := s
  obtain ⟨hu, hpl, lead, now, old, got, new, st⟩ := I
  simp only [timely, Migrated] at *
  unfold Pool.userStep at h
  simp only at h
  generalize hus : us () = x at *
  generalize hpo : pl () = y at *
  cases x with
  | fresh => simp at h
  | idle v =>
    simp only [UInv] at hu
    obtain ⟨rfl, -⟩ := hu
    simp at h
  | gr v =>
    simp only [UInv] at hu
    obtain ⟨rfl, h2⟩ := hu
    simp only [Option.some.injEq] at h
    subst h
    refine ⟨by simp [UInv, h2], ?_, lead, now, old, ?_, new, by simpa using st⟩
    · cases y <;> simp_all [PInv, Busy, Migrated] <;> omega
    · simpa [hpo] using got
  | ex1 v =>
    simp only [UInv] at hu
    obtain ⟨rfl, h2, h3⟩ := hu
    subst h2
    simp only [if_pos, Option.some.injEq] at h
    subst h
    refine ⟨by simp [UInv, h3], ?_, ?_, now, old, ?_, new, by simpa using st⟩
    · cases y <;> simp_all [PInv, Busy, Migrated] <;> omega
    · simp only at lead ⊢; omega
    · simpa [hpo] using got
  | ex2 v =>
    simp only [UInv] at hu
    obtain ⟨rfl, h2, h3⟩ := hu
    simp only [Option.some.injEq] at h
    subst h
    refine ⟨by simp [UInv, h2, h3], ?_, lead, now, old, ?_, new, by simpa using st⟩
    · have hst : stp () ≠ true := fun e => by simpa using st e
      have htt := ht (.inl ⟨_, rfl⟩) ()
      cases y <;> simp_all [PInv, Busy, Migrated, wakeP] <;> omega
    · intro k hk hb
      rcases got k hk hb with h | ⟨e, rfl⟩
      · exact .inl h
      · exact .inr ⟨e, by simp [hpo, wakeP]⟩
  | ex3 v =>
    simp only [UInv] at hu
    obtain ⟨rfl, h2, h3⟩ := hu
    dsimp only at h
    split at h
    · simp only [Option.some.injEq] at h
      subst h
      refine ⟨by simp [UInv, h2, h3], ?_, lead, now, old, ?_, new, by simpa using st⟩
      · cases y <;> simp_all [PInv, Busy, Migrated] <;> omega
      · simpa [hpo] using got
    · rename_i hne
      simp only [Option.some.injEq] at h
      subst h
      refine ⟨?_, ?_, lead, now, old, ?_, new, by simpa using st⟩
      · simp only [UInv, put_same]
        exact ⟨trivial, h2, by omega⟩
      · cases y <;> simp_all [PInv, Busy, Migrated] <;> omega
      · simpa [hpo] using got
  | asleep v => simp at h
  | eg1 v =>
    simp only [UInv] at hu
    obtain ⟨rfl, h2, h3⟩ := hu
    dsimp only at h
    split at h
    · simp only [Option.some.injEq] at h
      subst h
      refine ⟨by simp [UInv, h2, h3], ?_, lead, now, old, ?_, new, by simpa using st⟩
      · cases y <;> simp_all [PInv, Busy, Migrated] <;> omega
      · simpa [hpo] using got
    · simp only [Option.some.injEq] at h
      subst h
      refine ⟨by simp [UInv, h2, h3, hus], ?_, lead, now, old, ?_, new, by simpa [hus] using st⟩
      · cases y <;> simp_all [PInv, Busy, Migrated] <;> omega
      · simpa [hpo] using got
  | eg2 v =>
    simp only [UInv] at hu
    obtain ⟨rfl, h2, h3⟩ := hu
    simp only [if_pos, Option.some.injEq] at h
    subst h
    have hmig := now h3
    refine ⟨by simp [UInv, h2], ?_, .inl h3, ?_, ?_, ?_, ?_, by simpa using st⟩
    · cases y <;> simp_all [PInv, Busy, Migrated] <;> omega
    · intro h; simp only at h; omega
    · intro w hw
      simp only at hw
      rcases Nat.lt_or_ge w v with h | h
      · exact old w h
      · have : w = v := by omega
        subst this
        exact hmig
    · intro k hk
      simp only [new (v + 1) (by omega)] at hk
      omega
    · intro w hw
      simp only at hw
      exact new w (by omega)
  | ld =>
    simp only [UInv] at hu
    simp only [Option.some.injEq] at h
    subst h
    refine ⟨by simp [UInv, hu], ?_, lead, now, old, ?_, new, by simpa using st⟩
    · cases y <;> simp_all [PInv, Busy, Migrated] <;> omega
    · simpa [hpo] using got
  | join =>
    simp only [UInv] at hu
    obtain ⟨h2, h3⟩ := hu
    dsimp only at h
    split at h
    · simp only [Option.some.injEq] at h
      subst h
      refine ⟨by simp [UInv, h2, h3], ?_, lead, now, old, ?_, new, by simp⟩
      · cases y <;> simp_all [PInv, Busy, Migrated] <;> omega
      · simpa [hpo] using got
    · simp only [Option.some.injEq] at h
      subst h
      refine ⟨by simp [UInv, h2, h3, hus], ?_, lead, now, old, ?_, new, by simp [hus]⟩
      · cases y <;> simp_all [PInv, Busy, Migrated, wakeP] <;> omega
      · intro k hk hb
        rcases got k hk hb with h | ⟨e, rfl⟩
        · exact .inl h
        · exact .inr ⟨e, by simp [hpo, wakeP]⟩
  | gone => simp at h

theorem J.poolStep {blocks : Nat → Nat} {s s' : St Unit} (I : J blocks s) (ht : timely s (.pool ()))
    (h : poolStep blocks s () = some s') : J blocks s' := by
  obtain ⟨g, att, cl, fn, hp, gw, uw, us, pl, stp⟩ := s
  obtain ⟨hu, hpl, lead, now, old, got, new, st⟩ := I
  simp only [timely, Migrated] at *
  unfold Pool.poolStep at h
  simp only at h
  generalize hus : us () = x at *
  generalize hpo : pl () = y at *
  have pure : ∀ (q : PPC), y ≠ .none → PInv blocks ⟨g, att, cl, fn, hp, gw, uw, us, put pl () q, stp⟩ q →
      (∀ e k, y ≠ .m5 e g k) →
      ∀ hp', J blocks ⟨g, att, cl, fn, hp', gw, uw, us, put pl () q, stp⟩ := by
    intro q hy hq hm hp'
    refine ⟨?_, ?_, lead, now, old, ?_, new, by simpa [hus] using st⟩
    · simp only [hus]
      cases x <;> simp_all [UInv]
    · simp only [put_same]
      cases q <;> simpa [PInv, Busy, Migrated] using hq
    · intro k hk hb
      rcases got k hk hb with h | ⟨e, h⟩
      · exact .inl h
      · exact absurd h (hm e k)
  cases y with
  | none => simp at h
  | asleep e => simp at h
  | ended => simp at h
  | wait e =>
    simp only [PInv] at hpl
    dsimp only at h
    split at h <;> (simp only [Option.some.injEq] at h; subst h; refine pure _ (by simp) ?_ (by simp) _)
    · exact hpl
    · rename_i hne
      exact .inr ⟨hpl, hne⟩
  | chk e =>
    simp only [PInv] at hpl
    dsimp only at h
    split at h <;> (simp only [Option.some.injEq] at h; subst h; refine pure _ (by simp) ?_ (by simp) _)
    · rename_i hs; exact hs
    · rename_i hs
      rcases hpl with h' | ⟨rfl, h2⟩
      · exact absurd h' hs
      · simp only [PInv, Busy]
        have : x ≠ .fresh := by
          rintro rfl
          simp [UInv, hpo] at hu
        cases x <;> simp_all [UInv] <;> omega
  | m0 e => simp only [Option.some.injEq] at h; subst h; exact pure (.m1 e) (by simp) hpl (by simp) _
  | m1 e => simp only [Option.some.injEq] at h; subst h; exact pure (.m2 e g) (by simp) ⟨hpl, rfl⟩ (by simp) _
  | m2 e w =>
    obtain ⟨hb, hw⟩ := hpl
    simp only at hw
    subst hw
    have ha : att w = true := hb.2.2.2
    dsimp only at h
    rw [if_pos ha] at h
    simp only [Option.some.injEq] at h; subst h
    exact pure (.m4 e w) (by simp) ⟨hb, rfl⟩ (by simp) _
  | m4 e w =>
    obtain ⟨hb, hw⟩ := hpl
    simp only at hw
    subst hw
    have hux : UInv ⟨w, att, put cl w (cl w + 1), fn, hp, gw, uw, us, pl, stp⟩ x := by
      cases x <;> simpa [UInv] using hu
    have hnx : x ≠ .fresh := by
      rintro rfl
      simp [UInv, hpo] at hu
    have hux' : ∀ q : PPC, UInv ⟨w, att, put cl w (cl w + 1), fn, hp, gw, uw, us, put pl () q, stp⟩ x := by
      intro q
      cases x <;> first | exact absurd rfl hnx | simpa [UInv] using hux
    have hnew : ∀ v, w < v → put cl w (cl w + 1) v = 0 := by
      intro v hv
      rw [put_other _ _ (by omega)]
      exact new v hv
    dsimp only at h
    split at h
    · rename_i hlt
      simp only [Option.some.injEq] at h; subst h
      refine ⟨by simp only [hus]; exact hux' _, ?_, lead, now, old, ?_, hnew, by simpa [hus] using st⟩
      · simp only [put_same]; exact ⟨hb, rfl⟩
      · intro k hk hkb
        simp only [put_same] at hk ⊢
        rcases Nat.lt_or_ge k (cl w) with h | h
        · rcases got k h (by assumption) with h | ⟨e, h⟩
          · exact .inl h
          · cases h
        · have : k = cl w := by omega
          subst this
          exact .inr ⟨e, rfl⟩
    · rename_i hge
      have hm : Migrated blocks ⟨w, att, put cl w (cl w + 1), fn, hp, gw, uw, us, pl, stp⟩ w := by
        intro k hk
        rcases got k (by omega) hk with h | ⟨e, h⟩
        · exact h
        · cases h
      simp only [Option.some.injEq] at h; subst h
      refine ⟨by simp only [hus]; exact hux' _, ?_, lead, now, old, ?_, hnew, by simpa [hus] using st⟩
      · simp only [put_same]; exact ⟨hb, rfl, hm⟩
      · intro k _ hkb
        exact .inl (hm k hkb)
  | m5 e w k =>
    obtain ⟨hb, hw⟩ := hpl
    simp only at hw
    subst hw
    have hnx : x ≠ .fresh := by
      rintro rfl
      simp [UInv, hpo] at hu
    have grow : ∀ v j, fn v j = true → put fn w (put (fn w) k true) v j = true := by
      intro v j hf
      by_cases hv : v = w
      · subst hv
        by_cases hj : j = k
        · subst hj; simp
        · simpa [put_other _ _ hj] using hf
      · simpa [put_other _ _ hv] using hf
    simp only [Option.some.injEq] at h; subst h
    refine ⟨?_, ?_, lead, fun h j hj => grow _ _ (now h j hj), fun v hv j hj => grow _ _ (old v hv j hj), ?_,
      new, by simpa [hus] using st⟩
    · simp only [hus]
      cases x <;> first | exact absurd rfl hnx | simpa [UInv] using hu
    · simp only [put_same]; exact ⟨hb, rfl⟩
    · intro j hj hjb
      left
      rcases got j hj hjb with h | ⟨e', h⟩
      · exact grow _ _ h
      · simp only [PPC.m5.injEq] at h
        obtain ⟨-, -, rfl⟩ := h
        simp
  | m6 e r => simp only [Option.some.injEq] at h; subst h; exact pure (.inc e r) (by simp) hpl (by simp) _
  | inc e r =>
    obtain ⟨⟨h1, h2, h3, h4⟩, h5, h6⟩ := hpl
    simp only at h1 h2 h3 h4 h5
    subst h1 h5
    dsimp only at h
    rw [if_pos h2] at h
    simp only [Option.some.injEq] at h; subst h
    refine ⟨?_, ?_, .inr ⟨rfl, h3⟩, fun _ => h6, old, ?_, new, by simpa [hus] using st⟩
    · simp only [hus]
      have : x ≠ .fresh := by
        rintro rfl
        simp [UInv, hpo] at hu
      cases x <;> simp_all [UInv]
    · simp [PInv]
    · intro k hk hb
      rcases got k hk hb with h | ⟨e', h⟩
      · exact .inl h
      · cases h
  | wk e r =>
    simp only [PInv] at hpl
    simp only [Option.some.injEq] at h; subst h
    have htt := ht ⟨e, r, rfl⟩ ()
    have hnx : x ≠ .fresh := by
      rintro rfl
      simp [UInv, hpo] at hu
    refine ⟨?_, ?_, lead, now, old, ?_, new, ?_⟩
    · simp only [hus]
      cases x <;> simp_all [UInv, wakeU]
    · simp [PInv, hpl]
    · intro k hk hb
      rcases got k hk hb with h | ⟨e', h⟩
      · exact .inl h
      · cases h
    · intro h
      simp only [hus]
      rcases st h with h | h <;> simp [h, wakeU]

theorem J.act {blocks : Nat → Nat} {s s' : St Unit} (I : J blocks s) {a : Act Unit} (ht : timely s a)
    (h : act blocks s a = some s') : J blocks s' := by
  cases a with
  | user t => exact I.userStep ht h
  | pool t => exact I.poolStep ht h
  | create t =>
    obtain ⟨g, att, cl, fn, hp, gw, uw, us, pl, stp⟩ := s
    obtain ⟨hu, hpl, lead, now, old, got, new, st⟩ := I
    simp only [Pool.act] at h
    split at h
    · rename_i hf
      simp only [hf, UInv] at hu
      obtain ⟨h1, h2, h3⟩ := hu
      simp only [Option.some.injEq] at h
      subst h
      refine ⟨by simp [UInv, h1], by simp [PInv, h2], lead, now, old, ?_, new, ?_⟩
      · intro k hk hb
        rcases got k hk hb with h | ⟨e, h⟩
        · exact .inl h
        · simp only [h3] at h; cases h
      · intro h
        have := st h
        simp [hf] at this
    · cases h
  | grow t =>
    obtain ⟨g, att, cl, fn, hp, gw, uw, us, pl, stp⟩ := s
    obtain ⟨hu, hpl, lead, now, old, got, new, st⟩ := I
    simp only [Pool.act] at h
    split at h
    · rename_i v hf
      simp only [hf, UInv] at hu
      simp only [Option.some.injEq] at h
      subst h
      simp only [hf] at st
      refine ⟨by simpa [UInv] using hu, ?_, lead, now, old, got, new, by simpa using st⟩
      generalize hpo : pl () = y at *
      cases y <;> simp_all [PInv, Busy, Migrated] <;> omega
    · cases h
  | help t =>
    obtain ⟨g, att, cl, fn, hp, gw, uw, us, pl, stp⟩ := s
    obtain ⟨hu, hpl, lead, now, old, got, new, st⟩ := I
    simp only [Pool.act] at h
    split at h
    · rename_i v hf
      split at h
      · rename_i ha
        simp only [hf, UInv] at hu
        simp only [Option.some.injEq] at h
        subst h
        simp only [hf] at st
        refine ⟨?_, ?_, lead, now, old, got, new, by simpa using st⟩
        · obtain ⟨rfl, h2⟩ := hu
          exact ⟨rfl, h2, ha⟩
        · generalize hpo : pl () = y at *
          cases y <;> simp_all [PInv, Busy, Migrated] <;> omega
      · cases h
    · cases h
  | destroy t =>
    obtain ⟨g, att, cl, fn, hp, gw, uw, us, pl, stp⟩ := s
    obtain ⟨hu, hpl, lead, now, old, got, new, st⟩ := I
    simp only [Pool.act] at h
    split at h
    · rename_i v hf
      simp only [hf, UInv] at hu
      simp only [Option.some.injEq] at h
      subst h
      refine ⟨by simp [UInv, hu.2], ?_, lead, now, old, got, new, by simp⟩
      generalize hpo : pl () = y at *
      cases y <;> simp_all [PInv, Busy, Migrated] <;> omega
    · cases h
  | spurU t =>
    obtain ⟨g, att, cl, fn, hp, gw, uw, us, pl, stp⟩ := s
    obtain ⟨hu, hpl, lead, now, old, got, new, st⟩ := I
    simp only [Pool.act] at h
    split at h
    · rename_i v hf
      have := ht v hf
      simp only at this lead
      simp only [hf, UInv] at hu
      simp only [Option.some.injEq] at h
      subst h
      simp only [hf] at st
      refine ⟨?_, ?_, lead, now, old, got, new, by simpa using st⟩
      · obtain ⟨rfl, h2, h3⟩ := hu
        exact ⟨rfl, h2, by simp only; omega⟩
      · generalize hpo : pl () = y at *
        cases y <;> simp_all [PInv, Busy, Migrated] <;> omega
    · cases h
  | spurP t =>
    obtain ⟨g, att, cl, fn, hp, gw, uw, us, pl, stp⟩ := s
    obtain ⟨hu, hpl, lead, now, old, got, new, st⟩ := I
    simp only [Pool.act] at h
    split at h
    · rename_i e hf
      have hne := ht e hf
      simp only at hne
      simp only [hf, PInv] at hpl
      simp only [Option.some.injEq] at h
      subst h
      refine ⟨?_, ?_, lead, now, old, ?_, new, st⟩
      · simp only at hu ⊢
        generalize hus : us () = x at *
        cases x <;> simp_all [UInv]
      · simp only [put_same]
        exact .inr ⟨hpl, hne⟩
      · intro k hk hb
        rcases got k hk hb with h | ⟨e', h⟩
        · exact .inl h
        · simp only [hf] at h; cases h
    · cases h

/-- Who can still wake the user's thread. (proof, no code) -/
structure L (s : St Unit) : Prop where
  awake : ∀ v e, (s.user () = .ex3 v ∨ s.user () = .asleep v) → s.pool () = .asleep e → e = s.gw
  woken : ∀ v, s.user () = .asleep v → s.uw = s.glob ∨ ∃ e r, s.pool () = .wk e r

theorem L.init : L (St.init : St Unit) := by constructor <;> simp [St.init]

theorem L.act {blocks : Nat → Nat} {s s' : St Unit} (I : J blocks s) (l : L s) {a : Act Unit}
    (h : act blocks s a = some s') : L s' := by
  have lead := I.lead
  have hu := I.u
  have hp := I.p
  obtain ⟨g, att, cl, fn, hpr, gw, uw, us, pl, stp⟩ := s
  obtain ⟨l1, l2⟩ := l
  simp only at l1 l2 lead hu hp
  generalize hus : us () = x at *
  generalize hpo : pl () = y at *
  have same : ∀ q : UPC, (∀ v, q ≠ .ex3 v ∧ q ≠ .asleep v) → ∀ att' cl' fn' hp' gw' uw' g' stp' pl',
      L ⟨g', att', cl', fn', hp', gw', uw', put us () q, pl', stp'⟩ := by
    intro q hq att' cl' fn' hp' gw' uw' g' stp' pl'
    refine ⟨fun v e h _ => ?_, fun v h => ?_⟩
    · simp only [put_same] at h
      rcases h with h | h
      · exact absurd h (hq v).1
      · exact absurd h (hq v).2
    · simp only [put_same] at h
      exact absurd h (hq v).2
  cases a with
  | create t =>
    simp only [Pool.act] at h
    split at h
    · simp only [Option.some.injEq] at h; subst h
      exact same _ (by simp) _ _ _ _ _ _ _ _ _
    · cases h
  | grow t =>
    simp only [Pool.act] at h
    split at h
    · simp only [Option.some.injEq] at h; subst h
      exact same _ (by simp) _ _ _ _ _ _ _ _ _
    · cases h
  | help t =>
    simp only [Pool.act] at h
    split at h
    · split at h
      · simp only [Option.some.injEq] at h; subst h
        exact same _ (by simp) _ _ _ _ _ _ _ _ _
      · cases h
    · cases h
  | destroy t =>
    simp only [Pool.act] at h
    split at h
    · simp only [Option.some.injEq] at h; subst h
      exact same _ (by simp) _ _ _ _ _ _ _ _ _
    · cases h
  | spurU t =>
    simp only [Pool.act] at h
    split at h
    · simp only [Option.some.injEq] at h; subst h
      exact same _ (by simp) _ _ _ _ _ _ _ _ _
    · cases h
  | spurP t =>
    simp only [Pool.act] at h
    split at h
    · rename_i e he
      simp only [Option.some.injEq] at h; subst h
      rw [show pl t = y from hpo] at he
      refine ⟨fun v e h h' => by simp at h', fun v h => ?_⟩
      simp only [hus] at h
      rcases l2 v h with h | ⟨e, r, h⟩
      · exact .inl h
      · rw [he] at h; cases h
    · cases h
  | user t =>
    simp only [Pool.act, Pool.userStep] at h
    rw [show us t = x from hus] at h
    cases x with
    | fresh => simp at h
    | idle v =>
      dsimp only at h
      split at h
      · simp only [Option.some.injEq] at h; subst h
        exact same _ (by simp) _ _ _ _ _ _ _ _ _
      · cases h
    | gr v =>
      simp only [Option.some.injEq] at h; subst h
      exact same _ (by simp) _ _ _ _ _ _ _ _ _
    | ex1 v =>
      simp only [UInv] at hu
      dsimp only at h
      rw [if_pos (by omega)] at h
      simp only [Option.some.injEq] at h; subst h
      exact same _ (by simp) _ _ _ _ _ _ _ _ _
    | ex2 v =>
      simp only [Option.some.injEq] at h; subst h
      refine ⟨fun w e _ h' => ?_, fun w h => by simp at h⟩
      simp only [hpo] at h'
      cases y <;> simp [wakeP] at h'
    | ex3 v =>
      simp only [UInv] at hu
      dsimp only at h
      split at h
      · simp only [Option.some.injEq] at h; subst h
        refine ⟨fun w e _ h' => l1 v e (.inl rfl) ?_, fun w _ => .inl ?_⟩
        · simpa [hpo] using h'
        · simp only; omega
      · simp only [Option.some.injEq] at h; subst h
        exact same _ (by simp) _ _ _ _ _ _ _ _ _
    | asleep v => simp at h
    | eg1 v =>
      dsimp only at h
      split at h
      · simp only [Option.some.injEq] at h; subst h
        exact same _ (by simp) _ _ _ _ _ _ _ _ _
      · simp only [Option.some.injEq] at h; subst h
        exact ⟨fun w e h' => by simp [hus] at h', fun w h' => by simp [hus] at h'⟩
    | eg2 v =>
      dsimp only at h
      split at h <;> (simp only [Option.some.injEq] at h; subst h; exact same _ (by simp) _ _ _ _ _ _ _ _ _)
    | ld =>
      simp only [Option.some.injEq] at h; subst h
      exact same _ (by simp) _ _ _ _ _ _ _ _ _
    | join =>
      dsimp only at h
      split at h
      · simp only [Option.some.injEq] at h; subst h
        exact same _ (by simp) _ _ _ _ _ _ _ _ _
      · simp only [Option.some.injEq] at h; subst h
        exact ⟨fun w e h' => by simp [hus] at h', fun w h' => by simp [hus] at h'⟩
    | gone => simp at h
  | pool t =>
    have step : ∀ q : PPC, (∀ e, q = .asleep e → e = gw) → (∀ e r, y ≠ .wk e r) →
        ∀ att' cl' fn' hp' stp', L ⟨g, att', cl', fn', hp', gw, uw, us, put pl () q, stp'⟩ := by
      intro q hq hy att' cl' fn' hp' stp'
      refine ⟨fun v e _ h => hq e (by simpa using h), fun v h => ?_⟩
      simp only [hus] at h
      rcases l2 v h with h | ⟨e, r, h⟩
      · exact .inl h
      · exact absurd h (hy e r)
    simp only [Pool.act, Pool.poolStep] at h
    rw [show pl t = y from hpo] at h
    cases y with
    | none => simp at h
    | asleep e => simp at h
    | ended => simp at h
    | wait e =>
      dsimp only at h
      split at h
      · rename_i he
        simp only [Option.some.injEq] at h; subst h
        exact step _ (by simp [he]) (by simp) _ _ _ _ _
      · simp only [Option.some.injEq] at h; subst h
        exact step _ (by simp) (by simp) _ _ _ _ _
    | chk e =>
      dsimp only at h
      split at h <;> (simp only [Option.some.injEq] at h; subst h; exact step _ (by simp) (by simp) _ _ _ _ _)
    | m0 e => simp only [Option.some.injEq] at h; subst h; exact step _ (by simp) (by simp) _ _ _ _ _
    | m1 e => simp only [Option.some.injEq] at h; subst h; exact step _ (by simp) (by simp) _ _ _ _ _
    | m2 e w =>
      dsimp only at h
      split at h <;> (simp only [Option.some.injEq] at h; subst h; exact step _ (by simp) (by simp) _ _ _ _ _)
    | m4 e w =>
      dsimp only at h
      split at h <;> (simp only [Option.some.injEq] at h; subst h; exact step _ (by simp) (by simp) _ _ _ _ _)
    | m5 e w k => simp only [Option.some.injEq] at h; subst h; exact step _ (by simp) (by simp) _ _ _ _ _
    | m6 e r => simp only [Option.some.injEq] at h; subst h; exact step _ (by simp) (by simp) _ _ _ _ _
    | inc e r =>
      dsimp only at h
      split at h <;> (simp only [Option.some.injEq] at h; subst h)
      · exact ⟨fun w e _ h' => by simp at h', fun w _ => .inr ⟨e, r, by simp⟩⟩
      · exact ⟨fun w e _ h' => by simp at h', fun w _ => .inr ⟨e, r, by simp⟩⟩
    | wk e r =>
      simp only [Option.some.injEq] at h; subst h
      refine ⟨fun w e _ h' => by simp at h', fun w h' => ?_⟩
      simp only [hus] at h'
      cases x <;> simp [wakeU] at h'

/-- The user's thread is in `execute_migration` for the table with version `v`. (proof, no code) -/
def waitsFor (v : Nat) : UPC → Bool
  | .ex1 w => w == v
  | .ex2 w => w == v
  | .ex3 w => w == v
  | .asleep w => w == v
  | _ => false

/-- How far the user's thread is from the end of `execute_migration`. (proof, no code) -/
def urank : UPC → Nat
  | .ex1 _ => 3
  | .ex2 _ => 2
  | .ex3 _ => 1
  | _ => 0

/-- How far the pool thread is from the end of its work: `b` blocks, `c` of them given out; `d`: the work
for the current table is done. (proof, no code) -/
def prank (b c : Nat) (d : Bool) : PPC → Nat
  | .wk _ _ => if d then 2 else 2 * b + 12
  | .wait _ => if d then 1 else 2 * b + 11
  | .asleep _ => if d then 0 else 2 * b + 10
  | .chk _ => 2 * b + 9
  | .m0 _ => 2 * b + 8
  | .m1 _ => 2 * b + 7
  | .m2 _ _ => 2 * b + 6
  | .m5 _ _ _ => 2 * (b - c) + 6
  | .m4 _ _ => 2 * (b - c) + 5
  | .m6 _ _ => 4
  | .inc _ _ => 3
  | _ => 0

/-- The distance of a state from the end of the waiting. (proof, no code) -/
def rank (blocks : Nat → Nat) (s : St Unit) : Nat :=
  (2 * blocks s.glob + 13) * urank (s.user ()) +
    prank (blocks s.glob) (s.claimed s.glob) (decide (s.uw = s.glob + 1)) (s.pool ())

theorem prank_le (b c : Nat) (d : Bool) (p : PPC) : prank b c d p ≤ 2 * b + 12 := by
  cases p <;> simp only [prank] <;> (try split) <;> omega

/-- The rank after a step of the user's thread. -/
theorem rank_user (B u u' p p' : Nat) (h : u' < u) (hp : p' ≤ 2 * B + 12) :
    (2 * B + 13) * u' + p' < (2 * B + 13) * u + p := by
  have : (2 * B + 13) * (u' + 1) ≤ (2 * B + 13) * u := Nat.mul_le_mul_left _ h
  rw [Nat.mul_succ] at this
  omega

/-- Every action that wakes nobody too early brings the thread nearer to its end. -/
theorem closer {blocks : Nat → Nat} {s s' : St Unit} (I : J blocks s) {a : Act Unit} {v : Nat}
    (ht : timely s a) (hw : waitsFor v (s.user ()) = true) (h : act blocks s a = some s') :
    s'.user () = .eg1 v ∨ (waitsFor v (s'.user ()) = true ∧ rank blocks s' < rank blocks s) := by
  have lead := I.lead
  have hu := I.u
  have hp := I.p
  have st := I.st
  obtain ⟨g, att, cl, fn, hpr, gw, uw, us, pl, stp⟩ := s
  simp only [timely] at ht
  simp only at lead hu hp hw st
  generalize hus : us () = x at *
  generalize hpo : pl () = y at *
  have hstop : stp () ≠ true := by
    intro e
    rcases st e with h | h <;> simp [h, waitsFor] at hw
  cases a with
  | create t =>
    simp only [Pool.act] at h
    rw [show us t = x from hus] at h
    cases x <;> simp [waitsFor] at hw <;> simp at h
  | grow t =>
    simp only [Pool.act] at h
    rw [show us t = x from hus] at h
    cases x <;> simp [waitsFor] at hw <;> simp at h
  | help t =>
    simp only [Pool.act] at h
    rw [show us t = x from hus] at h
    cases x <;> simp [waitsFor] at hw <;> simp at h
  | destroy t =>
    simp only [Pool.act] at h
    rw [show us t = x from hus] at h
    cases x <;> simp [waitsFor] at hw <;> simp at h
  | spurU t =>
    simp only [Pool.act] at h
    rw [show us t = x from hus] at h
    cases x <;> simp [waitsFor] at hw <;> simp at h
    subst h hw
    exact .inl (by simp)
  | spurP t =>
    simp only [Pool.act] at h
    rw [show pl t = y from hpo] at h
    cases y <;> simp at h
    rename_i e
    have := ht e (by rw [show pl t = pl () from rfl, hpo])
    subst h
    refine .inr ⟨by simpa [hus] using hw, ?_⟩
    simp only [PInv] at hp
    simp only [rank, hus, hpo, put_same, prank]
    have hug : uw = g := by
      cases x <;> simp [waitsFor] at hw <;> simp only [UInv] at hu <;> omega
    simp [hug]
  | user t =>
    simp only [Pool.act, Pool.userStep] at h
    rw [show us t = x from hus] at h
    cases x <;> simp [waitsFor] at hw <;> simp only [UInv] at hu <;> dsimp only at h
    · rw [if_pos (by omega)] at h
      simp only [Option.some.injEq] at h; subst h
      refine .inr ⟨by simp [waitsFor, hw], ?_⟩
      simp only [rank, put_same, urank, hus]
      exact rank_user _ _ _ _ _ (by omega) (prank_le _ _ _ _)
    · simp only [Option.some.injEq] at h; subst h
      refine .inr ⟨by simp [waitsFor, hw], ?_⟩
      simp only [rank, put_same, urank, hus]
      exact rank_user _ _ _ _ _ (by omega) (prank_le _ _ _ _)
    · split at h
      · simp only [Option.some.injEq] at h; subst h
        refine .inr ⟨by simp [waitsFor, hw], ?_⟩
        simp only [rank, put_same, urank, hus]
        exact rank_user _ _ _ _ _ (by omega) (prank_le _ _ _ _)
      · simp only [Option.some.injEq] at h; subst h
        exact .inl (by simp [hw])
    · cases h
  | pool t =>
    simp only [Pool.act, Pool.poolStep] at h
    rw [show pl t = y from hpo] at h
    have hwu : waitsFor v (us ()) = true := by rw [hus]; exact hw
    have hgw : gw = g ∨ gw = g + 1 := by
      cases x <;> simp [waitsFor] at hw <;> simp only [UInv] at hu <;> omega
    cases y with
    | none => simp at h
    | asleep e => simp at h
    | ended => simp at h
    | wait e =>
      simp only [PInv] at hp
      dsimp only at h
      split at h
      · simp only [Option.some.injEq] at h; subst h
        refine .inr ⟨hwu, ?_⟩
        simp only [rank, put_same, prank, hpo]
        split <;> omega
      · simp only [Option.some.injEq] at h; subst h
        refine .inr ⟨hwu, ?_⟩
        simp only [rank, put_same, prank, hpo]
        have : uw ≠ g + 1 := by omega
        simp [this]
    | chk e =>
      dsimp only at h
      rw [show stp t = stp () from rfl, if_neg hstop] at h
      simp only [Option.some.injEq] at h; subst h
      refine .inr ⟨hwu, ?_⟩
      simp only [rank, put_same, prank, hpo]
      omega
    | m0 e =>
      simp only [Option.some.injEq] at h; subst h
      refine .inr ⟨hwu, ?_⟩
      simp only [rank, put_same, prank, hpo]
      omega
    | m1 e =>
      simp only [Option.some.injEq] at h; subst h
      refine .inr ⟨hwu, ?_⟩
      simp only [rank, put_same, prank, hpo]
      omega
    | m2 e w =>
      dsimp only at h
      split at h <;>
      · simp only [Option.some.injEq] at h; subst h
        refine .inr ⟨hwu, ?_⟩
        simp only [rank, put_same, prank, hpo]
        omega
    | m4 e w =>
      obtain ⟨-, hwg⟩ := hp
      simp only at hwg
      subst hwg
      dsimp only at h
      split at h <;>
      · simp only [Option.some.injEq] at h; subst h
        refine .inr ⟨hwu, ?_⟩
        simp only [rank, put_same, prank, hpo]
        omega
    | m5 e w k =>
      simp only [Option.some.injEq] at h; subst h
      refine .inr ⟨hwu, ?_⟩
      simp only [rank, put_same, prank, hpo]
      omega
    | m6 e r =>
      simp only [Option.some.injEq] at h; subst h
      refine .inr ⟨hwu, ?_⟩
      simp only [rank, put_same, prank, hpo]
      omega
    | inc e r =>
      obtain ⟨⟨h1, h2, h3, -⟩, -, -⟩ := hp
      simp only at h1 h2 h3
      dsimp only at h
      rw [if_pos (by omega)] at h
      simp only [Option.some.injEq] at h; subst h
      refine .inr ⟨hwu, ?_⟩
      simp only [rank, put_same, prank, hpo]
      simp [h1]
    | wk e r =>
      simp only [Option.some.injEq] at h; subst h
      by_cases hx : x = .asleep v
      · left
        simp [hus, hx, wakeU]
      · right
        have hk : wakeU x = x := by
          cases x <;> simp [wakeU]
          rename_i w
          simp [waitsFor] at hw
          subst hw
          exact absurd rfl hx
        refine ⟨by simp [hus, hk, hw], ?_⟩
        simp only [rank, put_same, prank, hpo, hus, hk]
        split <;> omega

/-- Some thread can take a step while the user's thread waits. -/
theorem enabled {blocks : Nat → Nat} {s : St Unit} (I : J blocks s) (l : L s) {v : Nat}
    (hw : waitsFor v (s.user ()) = true) :
    (∃ s', act blocks s (.user ()) = some s') ∨ (∃ s', act blocks s (.pool ()) = some s') := by
  have lead := I.lead
  have hu := I.u
  have hp := I.p
  have st := I.st
  obtain ⟨l1, l2⟩ := l
  obtain ⟨g, att, cl, fn, hpr, gw, uw, us, pl, stp⟩ := s
  simp only at lead hu hp hw st l1 l2
  simp only [Pool.act, Pool.userStep, Pool.poolStep]
  generalize hus : us () = x at *
  cases x <;> simp [waitsFor] at hw
  · left; dsimp only; split <;> exact ⟨_, rfl⟩
  · left; exact ⟨_, rfl⟩
  · left; dsimp only; split <;> exact ⟨_, rfl⟩
  · right
    rename_i w
    simp only [UInv] at hu
    generalize hpo : pl () = y at *
    cases y with
    | none => simp [PInv, hus] at hp
    | ended =>
      simp only [PInv] at hp
      have := st hp
      simp at this
    | asleep e =>
      exfalso
      have h1 := l1 w e (.inr rfl) rfl
      simp only [PInv] at hp
      rcases l2 w rfl with h | ⟨_, _, h⟩
      · omega
      · cases h
    | wait e => dsimp only; split <;> exact ⟨_, rfl⟩
    | chk e => dsimp only; split <;> exact ⟨_, rfl⟩
    | m0 e => exact ⟨_, rfl⟩
    | m1 e => exact ⟨_, rfl⟩
    | m2 e w => dsimp only; split <;> exact ⟨_, rfl⟩
    | m4 e w => dsimp only; split <;> exact ⟨_, rfl⟩
    | m5 e w k => exact ⟨_, rfl⟩
    | m6 e r => exact ⟨_, rfl⟩
    | inc e r => dsimp only; split <;> exact ⟨_, rfl⟩
    | wk e r => exact ⟨_, rfl⟩

end Pool
end Growt
