import Verif.SyncPool

/-!
# Synchronised growth with the thread pool: the invariant for one handle

Used for C60.  The proofs are for schedules of one handle (number 0) in which nobody is woken too early
(`timely`).  `v` is always the version of the table that is current, or is being replaced.
-/

set_option linter.unusedSectionVars false
set_option linter.unusedSimpArgs false

namespace Growt
namespace SyncPool

/-- The table `v` is being migrated by the pool thread, which waits for epoch `e` (invariant, no code). -/
def Busy (s : St) (v e : Nat) : Prop :=
  e = v ∧ s.uw = v ∧ s.gw = v + 1 ∧ s.cur = .mark v ∧ s.next v = true

/-- No growth is under way (invariant, no code). -/
def Quiet (s : St) (v : Nat) : Prop := s.cur = .clear v ∧ s.ep = v ∧ s.gw = v ∧ s.uw = v

/-- The growth of table `v` has begun, the pool thread has not been woken (invariant, no code). -/
def Begun (s : St) (v : Nat) : Prop := s.ep = v + 1 ∧ s.gw = v ∧ s.uw = v

/-- What holds where the user's thread is (invariant, no code). -/
def UInv (s : St) (v : Nat) : UPC → Prop
  | .fresh => Quiet s v ∧ v = 0
  | .idle => Quiet s v
  | .gt1 => Quiet s v
  | .gt2 w => Quiet s v ∧ w = v
  | .gt3 w => Quiet s v ∧ w = v
  | .gt4 => False
  | .op w => Quiet s v ∧ w = v
  | .gr1 w => Quiet s v ∧ w = v
  | .gr2 w e => Quiet s v ∧ w = v ∧ e = v
  | .gr3 w => Begun s v ∧ s.cur = .clear v ∧ w = v
  | .gr6 w => Begun s v ∧ s.cur = .mark v ∧ w = v
  | .gr7 w _ _ => Begun s v ∧ s.cur = .mark v ∧ w = v
  | .gr8 w => Begun s v ∧ s.cur = .mark v ∧ w = v
  | .he => False
  | .ex1 g w => Begun s v ∧ s.cur = .mark v ∧ w = v ∧ g = true ∧ s.next v = true
  | .ex2 g w => s.ep = v + 1 ∧ s.gw = v + 1 ∧ s.cur = .mark v ∧ w = v ∧ g = true ∧ s.next v = true
  | .ex3 g w => s.ep = v + 1 ∧ s.gw = v + 1 ∧ s.cur = .mark v ∧ w = v ∧ g = true ∧ s.next v = true
  | .asleep g w => s.ep = v + 1 ∧ s.gw = v + 1 ∧ s.cur = .mark v ∧ w = v ∧ g = true ∧ s.next v = true
  | .gr10 w => s.ep = v + 1 ∧ s.gw = v + 1 ∧ s.uw = v + 1 ∧ w = v ∧ s.cur = .mark v
  | .gr11 w => s.ep = v + 1 ∧ s.gw = v + 1 ∧ s.uw = v + 1 ∧ w = v ∧ s.cur = .null
  | .gr12 w _ _ => s.ep = v + 1 ∧ s.gw = v + 1 ∧ s.uw = v + 1 ∧ w = v ∧ s.cur = .null
  | .gr13 w => s.ep = v + 1 ∧ s.gw = v + 1 ∧ s.uw = v + 1 ∧ w = v ∧ s.cur = .null
  | .gr14 w => Quiet s v ∧ w + 1 = v
  | .hg => False
  | .join => Quiet s v ∧ s.stop 0 = true
  | .gone => Quiet s v ∧ s.stop 0 = true

/-- What holds where the pool thread is (invariant, no code). -/
def PInv (blocks : Nat → Nat) (s : St) (v : Nat) : PPC → Prop
  | .none => True
  | .wait e => e = s.uw
  | .asleep e => e = s.uw
  | .chk e => s.stop 0 = true ∨ (e = s.uw ∧ s.gw ≠ e)
  | .m1 e => Busy s v e
  | .m1r _ => False
  | .m2 e w => Busy s v e ∧ w = v
  | .m3 e w => Busy s v e ∧ w = v
  | .m4 e w => Busy s v e ∧ w = v
  | .m5 e w _ => Busy s v e ∧ w = v
  | .m6 e w => Busy s v e ∧ w = v ∧ Migrated blocks s v
  | .inc e r => Busy s v e ∧ r = v + 1 ∧ Migrated blocks s v
  | .wk _ r => r = s.uw
  | .ended => s.stop 0 = true

/-- The invariant. (proof, no code) -/
structure J (blocks : Nat → Nat) (s : St) (v : Nat) : Prop where
  u : UInv s v (s.user 0)
  p : PInv blocks s v (s.pool 0)
  lead : s.uw = v ∨ (s.uw = v + 1 ∧ s.gw = v + 1)
  now : s.uw = v + 1 → Migrated blocks s v
  old : ∀ w, w < v → Migrated blocks s w
  got : ∀ k, k < s.claimed v → k < blocks v → s.fin v k = true ∨ ∃ e, s.pool 0 = .m5 e v k
  new : ∀ w, v < w → s.claimed w = 0
  live : ∀ w, v ≤ w → s.freed w = false
  nn : s.pool 0 = .none ↔ s.user 0 = .fresh
  st : s.stop 0 = true → s.user 0 = .join ∨ s.user 0 = .gone
  def_ : s.ub = false

theorem J.init (blocks : Nat → Nat) : J blocks St.init 0 := by
  constructor <;> simp [St.init, UInv, PInv, Quiet]

/-- A step of the user's thread that changes nothing that others see, or only the flags of the handle. -/
theorem J.silent {blocks : Nat → Nat} {s s' : St} {v : Nat} (I : J blocks s v) (q : UPC)
    (hx : s.user 0 ≠ .fresh) (hq : q ≠ .fresh) (hu : UInv s' v q) (hst : s.stop 0 = true → q = .join ∨ q = .gone)
    (h : s' = { s.u 0 q with ops := s'.ops }) : J blocks s' v := by
  obtain ⟨hu', hp, lead, now, old, got, new, live, nn, st, ub⟩ := I
  rw [h] at hu ⊢
  refine ⟨by simpa [St.u] using hu, hp, lead, now, old, got, new, live, ?_, by simpa [St.u] using hst, ub⟩
  simp only [St.u, put_same]
  exact ⟨fun h => absurd (nn.mp h) hx, fun h => absurd h hq⟩

theorem J.userStep {blocks : Nat → Nat} {s s' : St} {v : Nat} (I : J blocks s v) (ht : timely s (.user 0))
    (h : userStep s 0 = some s') : ∃ v', J blocks s' v' := by
  have hst : s.stop 0 = true → s.user 0 = .join ∨ s.user 0 = .gone := I.st
  have hu := I.u
  unfold SyncPool.userStep at h
  generalize hx : s.user 0 = x at h hu hst
  have fr : ∀ {p : Prop}, s.user 0 = .fresh → x ≠ .fresh → p := fun h h' => absurd (hx ▸ h) h'
  cases x with
  | fresh => simp at h
  | idle => simp at h
  | gt4 => exact hu.elim
  | he => exact hu.elim
  | hg => exact hu.elim
  | asleep g w => simp at h
  | gone => simp at h
  | gt1 =>
    obtain ⟨hc, h2⟩ := hu
    simp only [hc, Option.some.injEq] at h
    subst h
    exact ⟨v, I.silent (.gt2 v) (by simp [hx]) (by simp) ⟨⟨hc, h2⟩, rfl⟩ (by simpa using hst) rfl⟩
  | gt2 w =>
    simp only [Option.some.injEq] at h
    subst h
    exact ⟨v, I.silent (.gt3 w) (by simp [hx]) (by simp) hu (by simpa using hst) rfl⟩
  | gt3 w =>
    obtain ⟨⟨hc, h2⟩, rfl⟩ := hu
    simp only [hc, if_pos, Option.some.injEq] at h
    subst h
    exact ⟨w, I.silent (.op w) (by simp [hx]) (by simp) ⟨⟨hc, h2⟩, rfl⟩ (by simpa using hst) rfl⟩
  | op w =>
    obtain ⟨-, rfl⟩ := hu
    simp only [I.live w (Nat.le_refl _), Bool.false_eq_true, if_false, Option.some.injEq] at h
    subst h
    exact ⟨w, I⟩
  | gr1 w =>
    obtain ⟨hq, rfl⟩ := hu
    simp only [Option.some.injEq] at h
    subst h
    exact ⟨w, I.silent (.gr2 w s.ep) (by simp [hx]) (by simp) ⟨hq, rfl, hq.2.1⟩ (by simpa using hst) rfl⟩
  | gr2 w e =>
    obtain ⟨⟨hc, he, h2⟩, rfl, rfl⟩ := hu
    dsimp only at h
    rw [if_neg (by omega)] at h
    simp only [Option.some.injEq] at h
    subst h
    obtain ⟨-, hp, lead, now, old, got, new, live, nn, st, ub⟩ := I
    refine ⟨e, ⟨?_, hp, lead, now, old, got, new, live, ?_, by simpa [St.u] using hst, ub⟩⟩
    · simp only [St.u, put_same]; exact ⟨⟨rfl, h2⟩, hc, rfl⟩
    · simp [St.u, nn, hx]
  | gr3 w =>
    obtain ⟨hb, hc, rfl⟩ := hu
    simp only [hc, Option.some.injEq] at h
    subst h
    obtain ⟨-, hp, lead, now, old, got, new, live, nn, st, ub⟩ := I
    refine ⟨w, ⟨?_, ?_, lead, now, old, got, new, live, ?_, by simpa [St.u] using hst, ub⟩⟩
    · simp only [St.u, put_same]; exact ⟨hb, rfl, rfl⟩
    · simp only [St.u]
      have := hb.2
      generalize s.pool 0 = y at hp ⊢
      cases y <;> simp_all [PInv, Busy, Migrated] <;> omega
    · simp [St.u, nn, hx]
  | gr6 w =>
    simp only [Option.some.injEq] at h
    subst h
    exact ⟨v, I.silent (.gr7 w s.last 0) (by simp [hx]) (by simp) hu (by simpa using hst) rfl⟩
  | gr7 w n j =>
    dsimp only at h
    split at h
    · split at h
      · simp only [Option.some.injEq] at h
        subst h
        exact ⟨v, I⟩
      · simp only [Option.some.injEq] at h
        subst h
        exact ⟨v, I.silent (.gr7 w n (j + 1)) (by simp [hx]) (by simp) hu (by simpa using hst) rfl⟩
    · simp only [Option.some.injEq] at h
      subst h
      exact ⟨v, I.silent (.gr8 w) (by simp [hx]) (by simp) hu (by simpa using hst) rfl⟩
  | gr8 w =>
    obtain ⟨hb, hc, rfl⟩ := hu
    simp only [Option.some.injEq] at h
    subst h
    obtain ⟨-, hp, lead, now, old, got, new, live, nn, st, ub⟩ := I
    refine ⟨w, ⟨?_, ?_, lead, now, old, got, new, live, ?_, by simpa [St.u] using hst, ub⟩⟩
    · simp only [St.u, put_same]; exact ⟨hb, hc, rfl, rfl, by simp⟩
    · simp only [St.u]
      have := hb.2
      generalize s.pool 0 = y at hp ⊢
      cases y <;> simp_all [PInv, Busy, Migrated] <;> omega
    · simp [St.u, nn, hx]
  | ex1 g w =>
    obtain ⟨⟨h1, h2, h3⟩, hc, rfl, rfl, hn⟩ := hu
    dsimp only at h
    rw [if_pos h2] at h
    simp only [Option.some.injEq] at h
    subst h
    obtain ⟨-, hp, lead, now, old, got, new, live, nn, st, ub⟩ := I
    refine ⟨w, ⟨?_, ?_, .inl h3, fun h => by simp only [St.u] at h; omega, old, got, new, live, ?_, by simpa [St.u] using hst, ub⟩⟩
    · simp only [St.u, put_same]; exact ⟨h1, rfl, hc, rfl, rfl, hn⟩
    · simp only [St.u]
      generalize s.pool 0 = y at hp ⊢
      cases y <;> simp_all [PInv, Busy, Migrated] <;> omega
    · simp [St.u, nn, hx]
  | ex2 g w =>
    obtain ⟨h1, h2, hc, rfl, rfl, hn⟩ := hu
    simp only [Option.some.injEq] at h
    subst h
    obtain ⟨-, hp, lead, now, old, got, new, live, nn, st, ub⟩ := I
    have hs : s.stop 0 ≠ true := fun e => by simpa using hst e
    have htt := ht (.inl ⟨_, _, hx⟩) 0
    refine ⟨w, ⟨?_, ?_, lead, now, old, ?_, new, live, ?_, by simpa [St.u] using hst, ub⟩⟩
    · simp only [St.u, put_same]; exact ⟨h1, h2, hc, rfl, rfl, hn⟩
    · simp only [St.u]
      generalize s.pool 0 = y at hp htt ⊢
      cases y <;> simp_all [PInv, Busy, Migrated, wakeP] <;> omega
    · intro k hk hb
      rcases got k hk hb with h | ⟨e, h⟩
      · exact .inl h
      · exact .inr ⟨e, by simp [h, wakeP]⟩
    · simp only [St.u, put_same]
      rw [hx] at nn
      generalize s.pool 0 = y at nn ⊢
      cases y <;> simp_all [wakeP] <;> omega
  | ex3 g w =>
    dsimp only at h
    split at h
    · simp only [Option.some.injEq] at h
      subst h
      exact ⟨v, I.silent (.asleep g w) (by simp [hx]) (by simp) hu (by simpa using hst) rfl⟩
    · rename_i hne
      obtain ⟨h1, h2, hc, rfl, rfl, hn⟩ := hu
      simp only [Option.some.injEq] at h
      subst h
      have := I.lead
      exact ⟨w, I.silent (.gr10 w) (by simp [hx]) (by simp) ⟨h1, h2, by simp only [St.u]; omega, rfl, hc⟩
        (by simpa using hst) rfl⟩
  | gr10 w =>
    simp only [Option.some.injEq] at h
    subst h
    obtain ⟨h1, h2, h3, rfl, hc⟩ := hu
    obtain ⟨-, hp, lead, now, old, got, new, live, nn, st, ub⟩ := I
    refine ⟨w, ⟨?_, ?_, lead, now, old, got, new, live, ?_, by simpa [St.u] using hst, ub⟩⟩
    · simp only [St.u, put_same]; exact ⟨h1, h2, h3, rfl, rfl⟩
    · simp only [St.u]
      generalize s.pool 0 = y at hp ⊢
      cases y <;> simp_all [PInv, Busy, Migrated] <;> omega
    · simp [St.u, nn, hx]
  | gr11 w =>
    simp only [Option.some.injEq] at h
    subst h
    exact ⟨v, I.silent (.gr12 w s.last 0) (by simp [hx]) (by simp) hu (by simpa using hst) rfl⟩
  | gr12 w n j =>
    dsimp only at h
    split at h
    · split at h
      · simp only [Option.some.injEq] at h
        subst h
        exact ⟨v, I.silent (.gr12 w n (j + 1)) (by simp [hx]) (by simp) hu (by simpa using hst) rfl⟩
      · simp only [Option.some.injEq] at h
        subst h
        exact ⟨v, I⟩
    · simp only [Option.some.injEq] at h
      subst h
      exact ⟨v, I.silent (.gr13 w) (by simp [hx]) (by simp) hu (by simpa using hst) rfl⟩
  | gr13 w =>
    simp only [Option.some.injEq] at h
    subst h
    obtain ⟨h1, h2, h3, rfl, hc⟩ := hu
    obtain ⟨-, hp, lead, now, old, got, new, live, nn, st, ub⟩ := I
    have hm := now h3
    refine ⟨w + 1, ⟨?_, ?_, .inl h3, fun h => by simp only [St.u] at h; omega, ?_, ?_,
      fun u hu => new u (by omega), fun u hu => live u (by omega), ?_, by simpa [St.u] using hst, ub⟩⟩
    · simp only [St.u, put_same]; exact ⟨⟨rfl, h1, h2, h3⟩, rfl⟩
    · simp only [St.u]
      generalize s.pool 0 = y at hp ⊢
      cases y <;> simp_all [PInv, Busy, Migrated] <;> omega
    · intro u hu
      rcases Nat.lt_or_ge u w with h | h
      · exact old u h
      · obtain rfl : u = w := by omega
        exact hm
    · intro k hk
      simp only [St.u] at hk
      rw [new (w + 1) (by omega)] at hk
      omega
    · simp [St.u, nn, hx]
  | gr14 w =>
    simp only [Option.some.injEq] at h
    subst h
    obtain ⟨hq, rfl⟩ := hu
    obtain ⟨-, hp, lead, now, old, got, new, live, nn, st, ub⟩ := I
    refine ⟨w + 1, ⟨?_, hp, lead, now, old, got, new, ?_, ?_, by simpa [St.u] using hst, ub⟩⟩
    · simp only [St.u, put_same]; exact hq
    · intro u hu
      dsimp only
      rw [put_other _ _ (by omega)]
      exact live u hu
    · simp [St.u, nn, hx]
  | join =>
    obtain ⟨hq, hs⟩ := hu
    dsimp only at h
    split at h
    · simp only [Option.some.injEq] at h
      subst h
      exact ⟨v, I.silent .gone (by simp [hx]) (by simp) ⟨hq, hs⟩ (by simp) rfl⟩
    · simp only [Option.some.injEq] at h
      subst h
      obtain ⟨-, hp, lead, now, old, got, new, live, nn, st, ub⟩ := I
      refine ⟨v, ⟨?_, ?_, lead, now, old, ?_, new, live, ?_, by simpa using st, ub⟩⟩
      · simp only [hx]; exact ⟨hq, hs⟩
      · dsimp only
        generalize s.pool 0 = y at hp ⊢
        cases y <;> simp_all [PInv, Busy, Migrated, wakeP] <;> omega
      · intro k hk hb
        rcases got k hk hb with h | ⟨e, h⟩
        · exact .inl h
        · exact .inr ⟨e, by simp [h, wakeP]⟩
      · simp only [hx] at nn ⊢
        generalize s.pool 0 = y at nn ⊢
        cases y <;> simp_all [wakeP] <;> omega

/-- A step of the pool thread that changes nothing that others see, or only the flags of the handle. -/
theorem J.silentP {blocks : Nat → Nat} {s s' : St} {v : Nat} (I : J blocks s v) (q : PPC)
    (hx : s.pool 0 ≠ .none) (hq : q ≠ .none) (hp : PInv blocks s v q) (hm : ∀ e k, s.pool 0 ≠ .m5 e v k)
    (h : s' = { s.p 0 q with mig := s'.mig }) : J blocks s' v := by
  obtain ⟨hu, hp', lead, now, old, got, new, live, nn, st, ub⟩ := I
  rw [h]
  refine ⟨hu, by simp only [St.p, put_same]; exact hp, lead, now, old, ?_, new, live, ?_, st, ub⟩
  · intro k hk hb
    rcases got k hk hb with h | ⟨e, h⟩
    · exact .inl h
    · exact absurd h (hm e k)
  · simp only [St.p, put_same]
    exact ⟨fun h => absurd h hq, fun h => absurd (nn.mpr h) hx⟩

theorem J.poolStep {blocks : Nat → Nat} {s s' : St} {v : Nat} (I : J blocks s v) (ht : timely s (.pool 0))
    (h : poolStep blocks s 0 = some s') : J blocks s' v := by
  have hp := I.p
  have hu := I.u
  unfold SyncPool.poolStep at h
  generalize hy : s.pool 0 = y at h hp
  cases y with
  | none => simp at h
  | asleep e => simp at h
  | ended => simp at h
  | m1r e => exact hp.elim
  | wait e =>
    dsimp only at h
    split at h <;> (simp only [Option.some.injEq] at h; subst h)
    · exact I.silentP (.asleep e) (by simp [hy]) (by simp) hp (by simp [hy]) rfl
    · rename_i hne
      exact I.silentP (.chk e) (by simp [hy]) (by simp) (.inr ⟨hp, hne⟩) (by simp [hy]) rfl
  | chk e =>
    dsimp only at h
    split at h <;> (simp only [Option.some.injEq] at h; subst h)
    · rename_i hs
      exact I.silentP .ended (by simp [hy]) (by simp) hs (by simp [hy]) rfl
    · rename_i hs
      rcases hp with h' | ⟨he, hne⟩
      · exact absurd h' hs
      · refine I.silentP (.m1 e) (by simp [hy]) (by simp) ?_ (by simp [hy]) rfl
        have lead := I.lead
        simp only [PInv, Busy]
        generalize s.user 0 = x at hu
        cases x <;> simp_all [UInv, Quiet, Begun] <;> omega
  | m1 e =>
    have hb : Busy s v e := hp
    simp only [hb.2.2.2.1, Option.some.injEq] at h
    subst h
    exact I.silentP (.m2 e v) (by simp [hy]) (by simp) ⟨hp, rfl⟩ (by simp [hy]) rfl
  | m2 e w =>
    simp only [Option.some.injEq] at h
    subst h
    exact I.silentP (.m3 e w) (by simp [hy]) (by simp) hp (by simp [hy]) rfl
  | m3 e w =>
    obtain ⟨hb, rfl⟩ := hp
    simp only [I.live w (Nat.le_refl _), Bool.false_eq_true, if_false, hb.2.2.2.2, if_true,
      Option.some.injEq] at h
    subst h
    exact I.silentP (.m4 e w) (by simp [hy]) (by simp) ⟨hb, rfl⟩ (by simp [hy]) rfl
  | m4 e w =>
    obtain ⟨hb, rfl⟩ := hp
    simp only [I.live w (Nat.le_refl _), Bool.false_eq_true, if_false] at h
    obtain ⟨-, -, lead, now, old, got, new, live, nn, st, ub⟩ := I
    have hnew : ∀ u, w < u → put s.claimed w (s.claimed w + 1) u = 0 := by
      intro u hu
      rw [put_other _ _ (by omega)]
      exact new u hu
    have hnf : s.user 0 ≠ .fresh := fun h => by simp [nn.mpr h] at hy
    split at h
    · rename_i hlt
      simp only [Option.some.injEq] at h
      subst h
      refine ⟨hu, ?_, lead, now, old, ?_, hnew, live, by simp [St.p, hnf], st, ub⟩
      · simp only [St.p, put_same]; exact ⟨hb, rfl⟩
      · intro k hk hkb
        simp only [St.p, put_same] at hk ⊢
        rcases Nat.lt_or_ge k (s.claimed w) with h | h
        · rcases got k h hkb with h | ⟨e, h⟩
          · exact .inl h
          · rw [hy] at h; cases h
        · obtain rfl : k = s.claimed w := by omega
          exact .inr ⟨e, rfl⟩
    · rename_i hge
      have hm : Migrated blocks s w := by
        intro k hk
        rcases got k (by omega) hk with h | ⟨e, h⟩
        · exact h
        · rw [hy] at h; cases h
      simp only [Option.some.injEq] at h
      subst h
      refine ⟨hu, ?_, lead, now, old, fun k _ hkb => .inl (hm k hkb), hnew, live, by simp [St.p, hnf], st, ub⟩
      simp only [St.p, put_same]; exact ⟨hb, rfl, hm⟩
  | m5 e w k =>
    obtain ⟨hb, rfl⟩ := hp
    simp only [I.live w (Nat.le_refl _), I.live (w + 1) (by omega), Bool.or_self, Bool.false_eq_true, if_false,
      Option.some.injEq] at h
    subst h
    obtain ⟨-, -, lead, now, old, got, new, live, nn, st, ub⟩ := I
    have hnf : s.user 0 ≠ .fresh := fun h => by simp [nn.mpr h] at hy
    have grow : ∀ u j, s.fin u j = true → put s.fin w (put (s.fin w) k true) u j = true := by
      intro u j hf
      by_cases hv : u = w
      · subst hv
        by_cases hj : j = k
        · subst hj; simp
        · simpa [put_other _ _ hj] using hf
      · simpa [put_other _ _ hv] using hf
    refine ⟨hu, ?_, lead, fun h j hj => grow _ _ (now h j hj), fun v hv j hj => grow _ _ (old v hv j hj), ?_,
      new, live, by simp [St.p, hnf], st, ub⟩
    · simp only [St.p, put_same]; exact ⟨hb, rfl⟩
    · intro j hj hjb
      left
      rcases got j hj hjb with h | ⟨e', h⟩
      · exact grow _ _ h
      · rw [hy] at h
        simp only [PPC.m5.injEq] at h
        obtain ⟨-, -, rfl⟩ := h
        simp
  | m6 e w =>
    obtain ⟨hb, rfl, hm⟩ := hp
    simp only [I.live (w + 1) (by omega), Bool.false_eq_true, if_false, Option.some.injEq] at h
    subst h
    exact I.silentP (.inc e (w + 1)) (by simp [hy]) (by simp) ⟨hb, rfl, hm⟩ (by simp [hy]) rfl
  | inc e r =>
    obtain ⟨⟨rfl, h2, h3, h4, h5⟩, rfl, hm⟩ := hp
    dsimp only at h
    rw [if_pos h2] at h
    simp only [Option.some.injEq] at h
    subst h
    obtain ⟨-, -, lead, now, old, got, new, live, nn, st, ub⟩ := I
    have hnf : s.user 0 ≠ .fresh := fun h => by simp [nn.mpr h] at hy
    refine ⟨?_, ?_, .inr ⟨rfl, h3⟩, fun _ => hm, old, fun k _ hk => .inl (hm k hk), new, live,
      by simp [St.p, hnf], st, ub⟩
    · simp only [St.p]
      generalize s.user 0 = x at hu ⊢
      cases x <;> simp_all [UInv, Quiet, Begun] <;> omega
    · simp [St.p, PInv]
  | wk e r =>
    simp only [Option.some.injEq] at h
    subst h
    have htt := ht ⟨e, r, hy⟩ 0
    obtain ⟨-, -, lead, now, old, got, new, live, nn, st, ub⟩ := I
    have hnf : s.user 0 ≠ .fresh := fun h => by simp [nn.mpr h] at hy
    simp only [PInv] at hp
    refine ⟨?_, ?_, lead, now, old, ?_, new, live, ?_, ?_, ub⟩
    · simp only [St.p]
      generalize s.user 0 = x at hu htt ⊢
      cases x <;> simp_all [UInv, Quiet, Begun, wakeU, after] <;> omega
    · simp [St.p, PInv, hp]
    · intro k hk hb
      rcases got k hk hb with h | ⟨e', h⟩
      · exact .inl h
      · rw [hy] at h; cases h
    · simp only [St.p, put_same]
      generalize s.user 0 = x at hnf ⊢
      cases x <;> simp [wakeU, after] at hnf ⊢
      split <;> simp
    · intro h
      rcases st h with h | h <;> simp [h, wakeU]

theorem J.act {blocks : Nat → Nat} {s s' : St} {v : Nat} (I : J blocks s v) {a : Act} (h0 : a.handle = 0)
    (ht : timely s a) (h : act blocks s a = some s') : ∃ v', J blocks s' v' := by
  have hst := I.st
  unfold SyncPool.act at h
  rw [if_neg (by simp [I.def_])] at h
  cases a with
  | user t => obtain rfl : t = 0 := h0; exact I.userStep ht h
  | pool t => obtain rfl : t = 0 := h0; exact ⟨v, I.poolStep ht h⟩
  | create t =>
    obtain rfl : t = 0 := h0
    dsimp only at h
    split at h
    · rename_i hf
      simp only [Option.some.injEq] at h
      subst h
      obtain ⟨hu, -, lead, now, old, got, new, live, nn, st, ub⟩ := I
      rw [hf.1] at hu st
      obtain ⟨⟨h1, h2, h3, h4⟩, rfl⟩ := hu
      refine ⟨0, ⟨?_, ?_, lead, now, old, ?_, new, live, by simp, by simpa using st, ub⟩⟩
      · simp only [put_same]; exact ⟨h1, h2, h3, h4⟩
      · simp [PInv, h4]
      · intro k hk hb
        rcases got k hk hb with h | ⟨e, h⟩
        · exact .inl h
        · rw [nn.mpr hf.1] at h; cases h
    · cases h
  | call t =>
    obtain rfl : t = 0 := h0
    dsimp only at h
    split at h
    · rename_i hf
      simp only [Option.some.injEq] at h
      subst h
      have hu := I.u
      rw [hf] at hu hst
      exact ⟨v, I.silent .gt1 (by simp [hf]) (by simp) hu (by simpa using hst) rfl⟩
    · cases h
  | exit t g =>
    obtain rfl : t = 0 := h0
    dsimp only at h
    split at h
    · rename_i w hf
      simp only [Option.some.injEq] at h
      subst h
      have hu := I.u
      rw [hf] at hu hst
      refine ⟨v, I.silent (if g then .gr1 w else .idle) (by simp [hf]) (by split <;> simp) ?_
        (fun h => by simpa using hst h) rfl⟩
      split
      · exact hu
      · exact hu.1
    · cases h
  | destroy t =>
    obtain rfl : t = 0 := h0
    dsimp only at h
    split at h
    · rename_i hf
      simp only [Option.some.injEq] at h
      subst h
      obtain ⟨hu, hp, lead, now, old, got, new, live, nn, st, ub⟩ := I
      rw [hf] at hu
      refine ⟨v, ⟨?_, ?_, lead, now, old, got, new, live, ?_, by simp [St.u], ub⟩⟩
      · simp only [St.u, put_same]; exact ⟨hu, by simp⟩
      · simp only [St.u]
        generalize s.pool 0 = y at hp ⊢
        cases y <;> simp_all [PInv, Busy, Migrated] <;> omega
      · simp [St.u, nn, hf]
    · cases h
  | spurU t =>
    obtain rfl : t = 0 := h0
    dsimp only at h
    split at h
    · rename_i g w hf
      have hne := ht g w hf
      simp only [Option.some.injEq] at h
      subst h
      have hu := I.u
      have lead := I.lead
      rw [hf] at hu hst
      obtain ⟨h1, h2, hc, rfl, rfl, hn⟩ := hu
      exact ⟨w, I.silent (.gr10 w) (by simp [hf]) (by simp) ⟨h1, h2, by simp only [St.u]; omega, rfl, hc⟩
        (by simpa using hst) rfl⟩
    · cases h
  | spurP t =>
    obtain rfl : t = 0 := h0
    dsimp only at h
    split at h
    · rename_i e hf
      have hne := ht e hf
      simp only [Option.some.injEq] at h
      subst h
      have hp := I.p
      rw [hf] at hp
      exact ⟨v, I.silentP (.chk e) (by simp [hf]) (by simp) (.inr ⟨hp, hne⟩) (by simp [hf]) rfl⟩
    · cases h

/-- The pool thread has set its flag (invariant, no code). -/
def holding : PPC → Bool
  | .m3 _ _ => true
  | .m4 _ _ => true
  | .m5 _ _ _ => true
  | .m6 _ _ => true
  | _ => false

/-- What the growing thread waits for, and who wakes it (invariant, no code). -/
structure L (s : St) : Prop where
  awake : ∀ g w e, (s.user 0 = .ex3 g w ∨ s.user 0 = .asleep g w) → s.pool 0 = .asleep e → e = s.gw
  woken : ∀ g w, s.user 0 = .asleep g w → s.uw = w ∨ ∃ e r, s.pool 0 = .wk e r
  last : s.last ≤ 1
  few7 : ∀ w n j, s.user 0 = .gr7 w n j → n ≤ 1
  few12 : ∀ w n j, s.user 0 = .gr12 w n j → n ≤ 1
  ops : s.ops 0 = none ∨ (∃ w, s.user 0 = .gt3 w) ∨ (∃ w, s.user 0 = .op w)
  mig : s.mig 0 = none ∨ holding (s.pool 0) = true

theorem L.init : L St.init := by constructor <;> simp [St.init]

/-- Where the thread does not wait for anything (invariant, no code). -/
def dull : UPC → Bool
  | .ex3 _ _ => false
  | .asleep _ _ => false
  | .gr7 _ _ _ => false
  | .gr12 _ _ _ => false
  | _ => true

theorem L.dull {s' : St} (hd : dull (s'.user 0) = true) (h1 : s'.last ≤ 1)
    (h2 : s'.ops 0 = none ∨ (∃ w, s'.user 0 = .gt3 w) ∨ (∃ w, s'.user 0 = .op w))
    (h3 : s'.mig 0 = none ∨ holding (s'.pool 0) = true) : L s' := by
  refine ⟨?_, ?_, h1, ?_, ?_, h2, h3⟩
  · intro g w e h _
    rcases h with h | h <;> simp [h, SyncPool.dull] at hd
  · intro g w h; simp [h, SyncPool.dull] at hd
  · intro w n j h; simp [h, SyncPool.dull] at hd
  · intro w n j h; simp [h, SyncPool.dull] at hd

theorem L.user {s : St} (l : L s) (q : UPC) (o : Nat → Option Nat) (hd : SyncPool.dull q = true)
    (ho : o 0 = none ∨ (∃ w, q = .gt3 w) ∨ (∃ w, q = .op w)) :
    ∀ c e n g f, L { s.u 0 q with cur := c, ep := e, next := n, gw := g, freed := f, ops := o } := by
  intro c e n g f
  exact L.dull (by simpa [St.u] using hd) l.last (by simpa [St.u] using ho) l.mig

theorem L.userStep {blocks : Nat → Nat} {s s' : St} {v : Nat} (I : J blocks s v) (l : L s)
    (h : userStep s 0 = some s') : L s' := by
  have hu := I.u
  have l6 := l.ops
  have hw : ∀ y : PPC, (∀ e, wakeP y ≠ .asleep e) ∧ (holding y = true → holding (wakeP y) = true) := by
    intro y; cases y <;> simp [wakeP, holding]
  unfold SyncPool.userStep at h
  generalize hx : s.user 0 = x at h hu l6
  cases x with
  | fresh => simp at h
  | idle => simp at h
  | gt4 => exact hu.elim
  | he => exact hu.elim
  | hg => exact hu.elim
  | asleep g w => simp at h
  | gone => simp at h
  | gt1 =>
    simp only [hu.1, Option.some.injEq] at h
    subst h
    exact l.user _ _ rfl (.inl (by simpa [St.u] using l6)) _ _ _ _ _
  | gt2 w =>
    simp only [Option.some.injEq] at h
    subst h
    exact l.user _ _ rfl (.inr (.inl ⟨w, rfl⟩)) _ _ _ _ _
  | gt3 w =>
    simp only [hu.1.1, hu.2, if_pos, Option.some.injEq] at h
    subst h
    exact l.user _ _ rfl (.inr (.inr ⟨v, rfl⟩)) _ _ _ _ _
  | op w =>
    dsimp only at h
    split at h <;> (simp only [Option.some.injEq] at h; subst h)
    · exact ⟨l.awake, l.woken, l.last, l.few7, l.few12, l.ops, l.mig⟩
    · exact l
  | gr1 w =>
    simp only [Option.some.injEq] at h
    subst h
    exact l.user _ _ rfl (.inl (by simpa [St.u] using l6)) _ _ _ _ _
  | gr2 w e =>
    dsimp only at h
    split at h <;>
      (simp only [Option.some.injEq] at h; subst h; exact l.user _ _ rfl (.inl (by simpa [St.u] using l6)) _ _ _ _ _)
  | gr3 w =>
    simp only [hu.2.1, Option.some.injEq] at h
    subst h
    exact l.user _ _ rfl (.inl (by simpa [St.u] using l6)) _ _ _ _ _
  | gr6 w =>
    simp only [Option.some.injEq] at h
    subst h
    refine ⟨?_, ?_, l.last, ?_, ?_, .inl (by simpa [St.u] using l6), l.mig⟩
    · intro _ _ _ h; simp [St.u] at h
    · intro _ _ h; simp [St.u] at h
    · intro w n j h
      simp only [St.u, put_same, UPC.gr7.injEq] at h
      rw [← h.2.1]; exact l.last
    · intro _ _ _ h; simp [St.u] at h
  | gr7 w n j =>
    have hn := l.few7 w n j hx
    dsimp only at h
    split at h
    · split at h <;> (simp only [Option.some.injEq] at h; subst h)
      · exact l
      · refine ⟨?_, ?_, l.last, ?_, ?_, .inl (by simpa [St.u] using l6), l.mig⟩
        · intro _ _ _ h; simp [St.u] at h
        · intro _ _ h; simp [St.u] at h
        · intro w n j h
          simp only [St.u, put_same, UPC.gr7.injEq] at h
          rw [← h.2.1]; exact hn
        · intro _ _ _ h; simp [St.u] at h
    · simp only [Option.some.injEq] at h; subst h
      exact l.user _ _ rfl (.inl (by simpa [St.u] using l6)) _ _ _ _ _
  | gr8 w =>
    simp only [Option.some.injEq] at h
    subst h
    exact l.user _ _ rfl (.inl (by simpa [St.u] using l6)) _ _ _ _ _
  | ex1 g w =>
    dsimp only at h
    rw [if_pos (by rw [hu.1.2.1, hu.2.2.1])] at h
    simp only [Option.some.injEq] at h
    subst h
    exact l.user _ _ rfl (.inl (by simpa [St.u] using l6)) _ _ _ _ _
  | ex2 g w =>
    simp only [Option.some.injEq] at h
    subst h
    refine ⟨?_, ?_, l.last, ?_, ?_, .inl (by simpa [St.u] using l6), l.mig.imp id (hw _).2⟩
    · intro g' w' e _ h
      exact absurd h ((hw _).1 e)
    · intro g' w' h; simp [St.u] at h
    · intro _ _ _ h; simp [St.u] at h
    · intro _ _ _ h; simp [St.u] at h
  | ex3 g w =>
    dsimp only at h
    split at h
    · rename_i hw
      simp only [Option.some.injEq] at h
      subst h
      refine ⟨?_, ?_, l.last, ?_, ?_, .inl (by simpa [St.u] using l6), l.mig⟩
      · intro _ _ e _ h; exact l.awake g w e (.inl hx) h
      · intro g' w' h
        simp only [St.u, put_same, UPC.asleep.injEq] at h
        rw [← h.2]; exact .inl hw
      · intro _ _ _ h; simp [St.u] at h
      · intro _ _ _ h; simp [St.u] at h
    · simp only [Option.some.injEq] at h
      subst h
      obtain ⟨-, -, -, -, rfl, -⟩ := hu
      exact l.user (.gr10 w) _ rfl (.inl (by simpa [St.u] using l6)) _ _ _ _ _
  | gr10 w =>
    simp only [Option.some.injEq] at h
    subst h
    exact l.user _ _ rfl (.inl (by simpa [St.u] using l6)) _ _ _ _ _
  | gr11 w =>
    simp only [Option.some.injEq] at h
    subst h
    refine ⟨?_, ?_, l.last, ?_, ?_, .inl (by simpa [St.u] using l6), l.mig⟩
    · intro _ _ _ h; simp [St.u] at h
    · intro _ _ h; simp [St.u] at h
    · intro _ _ _ h; simp [St.u] at h
    · intro w n j h
      simp only [St.u, put_same, UPC.gr12.injEq] at h
      rw [← h.2.1]; exact l.last
  | gr12 w n j =>
    have hn := l.few12 w n j hx
    dsimp only at h
    split at h
    · split at h <;> (simp only [Option.some.injEq] at h; subst h)
      · refine ⟨?_, ?_, l.last, ?_, ?_, .inl (by simpa [St.u] using l6), l.mig⟩
        · intro _ _ _ h; simp [St.u] at h
        · intro _ _ h; simp [St.u] at h
        · intro _ _ _ h; simp [St.u] at h
        · intro w n j h
          simp only [St.u, put_same, UPC.gr12.injEq] at h
          rw [← h.2.1]; exact hn
      · exact l
    · simp only [Option.some.injEq] at h; subst h
      exact l.user _ _ rfl (.inl (by simpa [St.u] using l6)) _ _ _ _ _
  | gr13 w =>
    simp only [Option.some.injEq] at h
    subst h
    exact l.user _ _ rfl (.inl (by simpa [St.u] using l6)) _ _ _ _ _
  | gr14 w =>
    simp only [Option.some.injEq] at h
    subst h
    exact l.user _ _ rfl (.inl (by simpa [St.u] using l6)) _ _ _ _ _
  | join =>
    dsimp only at h
    split at h
    · simp only [Option.some.injEq] at h
      subst h
      exact l.user _ _ rfl (.inl (by simpa [St.u] using l6)) _ _ _ _ _
    · simp only [Option.some.injEq] at h
      subst h
      exact L.dull (by simp [hx, SyncPool.dull]) l.last (.inl (by simpa [St.u] using l6)) (l.mig.imp id (hw _).2)

/-- A step of the pool thread that wakes nobody. -/
theorem L.pool {s : St} (l : L s) (q : PPC) (m : Nat → Option Nat) (h1 : ∀ e, q = .asleep e → e = s.gw)
    (h2 : ∀ e r, s.pool 0 ≠ .wk e r) (hm : m 0 = none ∨ holding q = true) :
    ∀ c f b, L { s.p 0 q with claimed := c, fin := f, mig := m, ub := b } := by
  intro c f b
  refine ⟨?_, ?_, l.last, l.few7, l.few12, l.ops, by simpa [St.p] using hm⟩
  · intro g w e _ h
    exact h1 e (by simpa [St.p] using h)
  · intro g w h
    rcases l.woken g w h with h | ⟨e, r, h⟩
    · exact .inl h
    · exact absurd h (h2 e r)

theorem L.poolStep {blocks : Nat → Nat} {s s' : St} {v : Nat} (I : J blocks s v) (l : L s)
    (h : poolStep blocks s 0 = some s') : L s' := by
  have hp := I.p
  have l7 := l.mig
  have hub : ∀ b, L { s with ub := b } := fun _ => ⟨l.awake, l.woken, l.last, l.few7, l.few12, l.ops, l.mig⟩
  unfold SyncPool.poolStep at h
  generalize hy : s.pool 0 = y at h hp l7
  cases y with
  | none => simp at h
  | asleep e => simp at h
  | ended => simp at h
  | m1r e => exact hp.elim
  | wait e =>
    dsimp only at h
    split at h <;> (simp only [Option.some.injEq] at h; subst h)
    · rename_i he
      exact l.pool _ _ (by simp [he]) (by simp [hy]) (.inl (by simpa [holding, St.p] using l7)) _ _ _
    · exact l.pool _ _ (by simp) (by simp [hy]) (.inl (by simpa [holding, St.p] using l7)) _ _ _
  | chk e =>
    dsimp only at h
    split at h <;> (simp only [Option.some.injEq] at h; subst h
                    exact l.pool _ _ (by simp) (by simp [hy]) (.inl (by simpa [holding, St.p] using l7)) _ _ _)
  | m1 e =>
    have hb : Busy s v e := hp
    simp only [hb.2.2.2.1, Option.some.injEq] at h
    subst h
    exact l.pool _ _ (by simp) (by simp [hy]) (.inl (by simpa [holding, St.p] using l7)) _ _ _
  | m2 e w =>
    simp only [Option.some.injEq] at h
    subst h
    exact l.pool _ _ (by simp) (by simp [hy]) (.inr rfl) _ _ _
  | m3 e w =>
    dsimp only at h
    split at h
    · simp only [Option.some.injEq] at h; subst h; exact hub _
    · split at h <;> (simp only [Option.some.injEq] at h; subst h)
      · exact l.pool _ _ (by simp) (by simp [hy]) (.inr rfl) _ _ _
      · exact l
  | m4 e w =>
    dsimp only at h
    split at h
    · simp only [Option.some.injEq] at h; subst h; exact hub _
    · split at h <;> (simp only [Option.some.injEq] at h; subst h
                      exact l.pool _ _ (by simp) (by simp [hy]) (.inr rfl) _ _ _)
  | m5 e w k =>
    dsimp only at h
    split at h <;> (simp only [Option.some.injEq] at h; subst h)
    · exact hub _
    · exact l.pool _ _ (by simp) (by simp [hy]) (.inr rfl) _ _ _
  | m6 e w =>
    dsimp only at h
    split at h <;> (simp only [Option.some.injEq] at h; subst h)
    · exact hub _
    · exact l.pool _ _ (by simp) (by simp [hy]) (.inl (by simp)) _ _ _
  | inc e r =>
    have hm : s.mig 0 = none := by simpa [holding] using l7
    dsimp only at h
    split at h <;> (simp only [Option.some.injEq] at h; subst h
                    refine ⟨?_, ?_, l.last, l.few7, l.few12, l.ops, .inl hm⟩)
    · intro _ _ _ _ h; simp [St.p] at h
    · intro _ _ _; exact .inr ⟨e, r, by simp [St.p]⟩
    · intro _ _ _ _ h; simp [St.p] at h
    · intro _ _ _; exact .inr ⟨e, r, by simp [St.p]⟩
  | wk e r =>
    simp only [Option.some.injEq] at h
    subst h
    have hn : ∀ x : UPC, (∀ w n j, wakeU x = .gr7 w n j → x = .gr7 w n j) ∧
        (∀ w n j, wakeU x = .gr12 w n j → x = .gr12 w n j) ∧ (∀ g w, wakeU x ≠ .asleep g w) ∧
        (∀ w, x = .gt3 w → wakeU x = .gt3 w) ∧ (∀ w, x = .op w → wakeU x = .op w) := by
      intro x
      cases x <;> simp [wakeU, after]
      rename_i g w
      cases g <;> simp
    refine ⟨?_, ?_, l.last, ?_, ?_, ?_, .inl (by simpa [holding, St.p] using l7)⟩
    · intro _ _ _ _ h; simp [St.p] at h
    · intro g w h; exact absurd h ((hn _).2.2.1 g w)
    · intro w n j h; exact l.few7 w n j ((hn _).1 w n j h)
    · intro w n j h; exact l.few12 w n j ((hn _).2.1 w n j h)
    · rcases l.ops with h | ⟨w, h⟩ | ⟨w, h⟩
      · exact .inl h
      · exact .inr (.inl ⟨w, (hn _).2.2.2.1 w h⟩)
      · exact .inr (.inr ⟨w, (hn _).2.2.2.2 w h⟩)

theorem L.act {blocks : Nat → Nat} {s s' : St} {v : Nat} (I : J blocks s v) (l : L s) {a : Act}
    (h0 : a.handle = 0) (h : act blocks s a = some s') : L s' := by
  unfold SyncPool.act at h
  rw [if_neg (by simp [I.def_])] at h
  have hnn := I.nn
  have hu := I.u
  have l6 := l.ops
  have l7 := l.mig
  cases a with
  | user t => obtain rfl : t = 0 := h0; exact l.userStep I h
  | pool t => obtain rfl : t = 0 := h0; exact l.poolStep I h
  | create t =>
    obtain rfl : t = 0 := h0
    dsimp only at h
    split at h
    · rename_i hf
      simp only [Option.some.injEq] at h
      subst h
      rw [hf.1] at l6
      rw [hnn.mpr hf.1] at l7
      exact L.dull (by simp [SyncPool.dull]) (by simp only; omega) (.inl (by simpa [St.u] using l6))
        (.inl (by simpa [holding, St.p] using l7))
    · cases h
  | call t =>
    obtain rfl : t = 0 := h0
    dsimp only at h
    split at h
    · rename_i hf
      simp only [Option.some.injEq] at h
      subst h
      rw [hf] at l6
      exact l.user _ _ rfl (.inl (by simpa [St.u] using l6)) _ _ _ _ _
    · cases h
  | exit t g =>
    obtain rfl : t = 0 := h0
    dsimp only at h
    split at h
    · rename_i w hf
      simp only [Option.some.injEq] at h
      subst h
      exact l.user _ _ (by cases g <;> rfl) (.inl (by simp)) _ _ _ _ _
    · cases h
  | destroy t =>
    obtain rfl : t = 0 := h0
    dsimp only at h
    split at h
    · rename_i hf
      simp only [Option.some.injEq] at h
      subst h
      rw [hf] at l6
      exact L.dull (by simp [SyncPool.dull, St.u]) l.last (.inl (by simpa [St.u] using l6)) l7
    · cases h
  | spurU t =>
    obtain rfl : t = 0 := h0
    dsimp only at h
    split at h
    · rename_i g w hf
      rw [hf] at hu l6
      obtain ⟨-, -, -, -, rfl, -⟩ := hu
      simp only [Option.some.injEq] at h
      subst h
      exact l.user (.gr10 w) _ rfl (.inl (by simpa [St.u] using l6)) _ _ _ _ _
    · cases h
  | spurP t =>
    obtain rfl : t = 0 := h0
    dsimp only at h
    split at h
    · rename_i e hf
      simp only [Option.some.injEq] at h
      subst h
      rw [hf] at l7
      exact l.pool _ _ (by simp) (by simp [hf]) (.inl (by simpa [holding, St.p] using l7)) _ _ _
    · cases h

/-- The user's thread is growing the table with version `v` (invariant, no code). -/
def growing (v : Nat) : UPC → Bool
  | .gr1 w => w == v
  | .gr2 w _ => w == v
  | .gr3 w => w == v
  | .gr6 w => w == v
  | .gr7 w _ _ => w == v
  | .gr8 w => w == v
  | .ex1 _ w => w == v
  | .ex2 _ w => w == v
  | .ex3 _ w => w == v
  | .asleep _ w => w == v
  | .gr10 w => w == v
  | .gr11 w => w == v
  | .gr12 w _ _ => w == v
  | .gr13 w => w == v
  | _ => false

/-- How far the user's thread is from the publication of the new table (invariant, no code). -/
def urank : UPC → Nat
  | .gr1 _ => 18
  | .gr2 _ _ => 17
  | .gr3 _ => 16
  | .gr6 _ => 15
  | .gr7 _ _ j => 13 + (1 - j)
  | .gr8 _ => 12
  | .ex1 _ _ => 11
  | .ex2 _ _ => 10
  | .ex3 _ _ => 9
  | .asleep _ _ => 8
  | .gr10 _ => 7
  | .gr11 _ => 6
  | .gr12 _ _ j => 4 + (1 - j)
  | .gr13 _ => 3
  | _ => 0

/-- How far the pool thread is from the end of its work: `b` blocks, `c` of them given out; `d`: the work
for the current table is done (invariant, no code). -/
def prank (b c : Nat) (d : Bool) : PPC → Nat
  | .wk _ _ => if d then 2 else 2 * b + 14
  | .wait _ => if d then 1 else 2 * b + 13
  | .asleep _ => if d then 0 else 2 * b + 12
  | .chk _ => 2 * b + 11
  | .m1 _ => 2 * b + 10
  | .m2 _ _ => 2 * b + 9
  | .m3 _ _ => 2 * b + 8
  | .m5 _ _ _ => 2 * (b - c) + 6
  | .m4 _ _ => 2 * (b - c) + 5
  | .m6 _ _ => 4
  | .inc _ _ => 3
  | _ => 0

/-- The distance of a state from the publication of the new table (invariant, no code). -/
def rank (blocks : Nat → Nat) (v : Nat) (s : St) : Nat :=
  (2 * blocks v + 15) * urank (s.user 0) +
    prank (blocks v) (s.claimed v) (decide (s.uw = v + 1)) (s.pool 0)

theorem prank_le (b c : Nat) (d : Bool) (p : PPC) : prank b c d p ≤ 2 * b + 14 := by
  cases p <;> simp only [prank] <;> (try split) <;> omega

theorem urank_le (x : UPC) : urank x ≤ 18 := by
  cases x <;> simp only [urank] <;> omega

theorem rank_le (blocks : Nat → Nat) (v : Nat) (s : St) : rank blocks v s ≤ 19 * (2 * blocks v + 15) := by
  have h1 := prank_le (blocks v) (s.claimed v) (decide (s.uw = v + 1)) (s.pool 0)
  have h2 := Nat.mul_le_mul_left (2 * blocks v + 15) (urank_le (s.user 0))
  unfold rank
  omega

/-- The rank after a step of the user's thread. -/
theorem rank_user {blocks : Nat → Nat} {v : Nat} {s s' : St} (h : urank (s'.user 0) < urank (s.user 0)) :
    rank blocks v s' < rank blocks v s := by
  have h1 := prank_le (blocks v) (s'.claimed v) (decide (s'.uw = v + 1)) (s'.pool 0)
  have h2 : (2 * blocks v + 15) * (urank (s'.user 0) + 1) ≤ (2 * blocks v + 15) * urank (s.user 0) :=
    Nat.mul_le_mul_left _ h
  rw [Nat.mul_succ] at h2
  unfold rank
  omega

/-- The rank after a step of the pool thread. -/
theorem rank_pool {blocks : Nat → Nat} {v : Nat} {s s' : St} (hu : s'.user 0 = s.user 0)
    (h : prank (blocks v) (s'.claimed v) (decide (s'.uw = v + 1)) (s'.pool 0) <
      prank (blocks v) (s.claimed v) (decide (s.uw = v + 1)) (s.pool 0)) :
    rank blocks v s' < rank blocks v s := by
  unfold rank
  rw [hu]
  omega

/-- The version of the invariant is that of the table that is growing. -/
theorem growing_version {blocks : Nat → Nat} {s : St} {v w : Nat} (I : J blocks s v)
    (hg : growing w (s.user 0) = true) : w = v := by
  have hu := I.u
  generalize hx : s.user 0 = x at hg hu
  cases x <;> simp_all [growing, UInv]

theorem closer_user {blocks : Nat → Nat} {s s' : St} {v : Nat} (I : J blocks s v) (l : L s)
    (hg : growing v (s.user 0) = true) (h : userStep s 0 = some s') :
    (s'.user 0 = .gr14 v ∧ s'.cur = .clear (v + 1)) ∨
      (growing v (s'.user 0) = true ∧ rank blocks v s' < rank blocks v s) := by
  have hu := I.u
  have l6 := l.ops
  have l7 := l.mig
  unfold SyncPool.userStep at h
  generalize hx : s.user 0 = x at h hu l6 hg
  have user : ∀ q : UPC, s'.user 0 = q → growing v q = true → urank q < urank x →
      (s'.user 0 = .gr14 v ∧ s'.cur = .clear (v + 1)) ∨
      (growing v (s'.user 0) = true ∧ rank blocks v s' < rank blocks v s) := by
    intro q hq h1 h2
    exact .inr ⟨by rw [hq]; exact h1, rank_user (by rw [hq, hx]; exact h2)⟩
  cases x with
  | fresh => simp at h
  | idle => simp at h
  | gt1 => simp [growing] at hg
  | gt2 w => simp [growing] at hg
  | gt3 w => simp [growing] at hg
  | gt4 => simp [growing] at hg
  | op w => simp [growing] at hg
  | he => exact hu.elim
  | hg => exact hu.elim
  | asleep g w => simp at h
  | gr14 w => simp [growing] at hg
  | join => simp [growing] at hg
  | gone => simp at h
  | gr1 w =>
    simp only [Option.some.injEq] at h
    subst h
    exact user (.gr2 w s.ep) (by simp [St.u]) hg (by simp [urank])
  | gr2 w e =>
    obtain ⟨⟨hc, he, h2⟩, rfl, rfl⟩ := hu
    dsimp only at h
    rw [if_neg (by omega)] at h
    simp only [Option.some.injEq] at h
    subst h
    exact user (.gr3 e) (by simp [St.u]) hg (by simp [urank])
  | gr3 w =>
    simp only [hu.2.1, Option.some.injEq] at h
    subst h
    exact user (.gr6 v) (by simp [St.u]) (by simp [growing]) (by simp [urank])
  | gr6 w =>
    simp only [Option.some.injEq] at h
    subst h
    exact user (.gr7 w s.last 0) (by simp [St.u]) hg (by simp [urank])
  | gr7 w n j =>
    have hn := l.few7 w n j hx
    dsimp only at h
    split at h
    · rename_i hj
      obtain rfl : j = 0 := by omega
      have ho : s.ops 0 = none := by simpa using l6
      rw [if_neg (by simp [ho])] at h
      simp only [Option.some.injEq] at h
      subst h
      exact user (.gr7 w n 1) (by simp [St.u]) hg (by simp [urank])
    · simp only [Option.some.injEq] at h
      subst h
      exact user (.gr8 w) (by simp [St.u]) hg (by simp only [urank]; omega)
  | gr8 w =>
    simp only [Option.some.injEq] at h
    subst h
    exact user (.ex1 true w) (by simp [St.u]) hg (by simp [urank])
  | ex1 g w =>
    dsimp only at h
    rw [if_pos (by rw [hu.1.2.1, hu.2.2.1])] at h
    simp only [Option.some.injEq] at h
    subst h
    exact user (.ex2 g w) (by simp [St.u]) hg (by simp [urank])
  | ex2 g w =>
    simp only [Option.some.injEq] at h
    subst h
    exact user (.ex3 g w) (by simp [St.u]) hg (by simp [urank])
  | ex3 g w =>
    dsimp only at h
    split at h
    · simp only [Option.some.injEq] at h
      subst h
      exact user (.asleep g w) (by simp [St.u]) hg (by simp [urank])
    · simp only [Option.some.injEq] at h
      subst h
      obtain ⟨-, -, -, -, rfl, -⟩ := hu
      exact user (.gr10 w) (by simp [St.u, after]) hg (by simp [urank])
  | gr10 w =>
    simp only [Option.some.injEq] at h
    subst h
    exact user (.gr11 w) (by simp [St.u]) hg (by simp [urank])
  | gr11 w =>
    simp only [Option.some.injEq] at h
    subst h
    exact user (.gr12 w s.last 0) (by simp [St.u]) hg (by simp [urank])
  | gr12 w n j =>
    have hn := l.few12 w n j hx
    dsimp only at h
    split at h
    · rename_i hj
      obtain rfl : j = 0 := by omega
      have hm : s.mig 0 = none := by
        have hp := I.p
        have := hu.2.2.1
        rcases l7 with h | h
        · exact h
        · exfalso
          generalize s.pool 0 = y at h hp
          cases y <;> simp [holding] at h <;> simp_all [PInv, Busy] <;> omega
      rw [if_pos hm] at h
      simp only [Option.some.injEq] at h
      subst h
      exact user (.gr12 w n 1) (by simp [St.u]) hg (by simp [urank])
    · simp only [Option.some.injEq] at h
      subst h
      exact user (.gr13 w) (by simp [St.u]) hg (by simp only [urank]; omega)
  | gr13 w =>
    simp only [Option.some.injEq] at h
    subst h
    obtain ⟨-, -, -, rfl, -⟩ := hu
    exact .inl ⟨by simp [St.u], rfl⟩

theorem closer_pool {blocks : Nat → Nat} {s s' : St} {v : Nat} (I : J blocks s v)
    (hg : growing v (s.user 0) = true) (h : poolStep blocks s 0 = some s') :
    growing v (s'.user 0) = true ∧ rank blocks v s' < rank blocks v s := by
  have hp := I.p
  have hu := I.u
  have lead := I.lead
  have hst : s.stop 0 ≠ true := by
    intro e
    rcases I.st e with h | h <;> simp [h, growing] at hg
  unfold SyncPool.poolStep at h
  generalize hy : s.pool 0 = y at h hp
  have pool : s'.user 0 = s.user 0 →
      prank (blocks v) (s'.claimed v) (decide (s'.uw = v + 1)) (s'.pool 0) <
        prank (blocks v) (s.claimed v) (decide (s.uw = v + 1)) y →
      growing v (s'.user 0) = true ∧ rank blocks v s' < rank blocks v s := by
    intro h1 h2
    exact ⟨by rw [h1]; exact hg, rank_pool h1 (by rw [hy]; exact h2)⟩
  cases y with
  | none => simp at h
  | asleep e => simp at h
  | ended => simp at h
  | m1r e => exact hp.elim
  | wait e =>
    simp only [PInv] at hp
    dsimp only at h
    split at h <;> (simp only [Option.some.injEq] at h; subst h; refine pool rfl ?_)
    · by_cases hd : s.uw = v + 1 <;> simp [St.p, prank, hd]
    · have : s.uw ≠ v + 1 := by
        intro hc
        rcases lead with h | ⟨_, h⟩ <;> omega
      simp [St.p, prank, this]
  | chk e =>
    dsimp only at h
    rw [if_neg hst] at h
    simp only [Option.some.injEq] at h; subst h
    refine pool rfl ?_
    simp [St.p, prank]
  | m1 e =>
    have hb : Busy s v e := hp
    simp only [hb.2.2.2.1, Option.some.injEq] at h
    subst h
    refine pool rfl ?_
    simp [St.p, prank]
  | m2 e w =>
    simp only [Option.some.injEq] at h
    subst h
    refine pool rfl ?_
    simp [St.p, prank]
  | m3 e w =>
    obtain ⟨hb, rfl⟩ := hp
    simp only [I.live w (Nat.le_refl _), Bool.false_eq_true, if_false, hb.2.2.2.2, if_true,
      Option.some.injEq] at h
    subst h
    refine pool rfl ?_
    simp only [St.p, put_same, prank]
    omega
  | m4 e w =>
    obtain ⟨hb, rfl⟩ := hp
    simp only [I.live w (Nat.le_refl _), Bool.false_eq_true, if_false] at h
    split at h <;> (simp only [Option.some.injEq] at h; subst h; refine pool rfl ?_
                    simp only [St.p, put_same, prank]
                    omega)
  | m5 e w k =>
    obtain ⟨hb, rfl⟩ := hp
    simp only [I.live w (Nat.le_refl _), I.live (w + 1) (by omega), Bool.or_self, Bool.false_eq_true, if_false,
      Option.some.injEq] at h
    subst h
    refine pool rfl ?_
    simp only [St.p, put_same, prank]
    omega
  | m6 e w =>
    obtain ⟨hb, rfl, hm⟩ := hp
    simp only [I.live (w + 1) (by omega), Bool.false_eq_true, if_false, Option.some.injEq] at h
    subst h
    refine pool rfl ?_
    simp [St.p, prank]
  | inc e r =>
    obtain ⟨⟨rfl, h2, h3, h4, h5⟩, rfl, hm⟩ := hp
    dsimp only at h
    rw [if_pos h2] at h
    simp only [Option.some.injEq] at h
    subst h
    refine pool rfl ?_
    simp [St.p, prank]
  | wk e r =>
    simp only [Option.some.injEq] at h
    subst h
    generalize hx : s.user 0 = x at hg hu pool
    by_cases hk : wakeU x = x
    · refine pool (by simp [St.p, hx, hk]) ?_
      by_cases hd : s.uw = v + 1 <;> simp [St.p, prank, hd]
    · cases x <;> simp [wakeU] at hk
      rename_i g w
      obtain ⟨-, -, -, rfl, rfl, -⟩ := hu
      exact ⟨by simp [hx, wakeU, after, growing], rank_user (by simp [hx, wakeU, after, urank])⟩

/-- Every action that wakes nobody too early brings the growing thread nearer to its end. -/
theorem closer {blocks : Nat → Nat} {s s' : St} {v : Nat} (I : J blocks s v) (l : L s) {a : Act}
    (h0 : a.handle = 0) (ht : timely s a) (hg : growing v (s.user 0) = true) (h : act blocks s a = some s') :
    (s'.user 0 = .gr14 v ∧ s'.cur = .clear (v + 1)) ∨
      (growing v (s'.user 0) = true ∧ rank blocks v s' < rank blocks v s) := by
  unfold SyncPool.act at h
  rw [if_neg (by simp [I.def_])] at h
  have hu := I.u
  have hp := I.p
  cases a with
  | user t => obtain rfl : t = 0 := h0; exact closer_user I l hg h
  | pool t => obtain rfl : t = 0 := h0; exact .inr (closer_pool I hg h)
  | create t =>
    obtain rfl : t = 0 := h0
    dsimp only at h
    split at h
    · rename_i hf; simp [hf.1, growing] at hg
    · cases h
  | call t =>
    obtain rfl : t = 0 := h0
    dsimp only at h
    split at h
    · rename_i hf; simp [hf, growing] at hg
    · cases h
  | exit t g =>
    obtain rfl : t = 0 := h0
    dsimp only at h
    split at h
    · rename_i hf; simp [hf, growing] at hg
    · cases h
  | destroy t =>
    obtain rfl : t = 0 := h0
    dsimp only at h
    split at h
    · rename_i hf; simp [hf, growing] at hg
    · cases h
  | spurU t =>
    obtain rfl : t = 0 := h0
    dsimp only at h
    split at h
    · rename_i g w hf
      simp only [Option.some.injEq] at h
      subst h
      rw [hf] at hu
      obtain ⟨-, -, -, rfl, rfl, -⟩ := hu
      exact .inr ⟨by simp [St.u, after, growing], rank_user (by simp [hf, St.u, after, urank])⟩
    · cases h
  | spurP t =>
    obtain rfl : t = 0 := h0
    dsimp only at h
    split at h
    · rename_i e hf
      have hne := ht e hf
      simp only [Option.some.injEq] at h
      subst h
      rw [hf] at hp
      simp only [PInv] at hp
      have lead := I.lead
      have : s.uw ≠ v + 1 := by
        intro hc
        rcases lead with h | ⟨_, h⟩ <;> omega
      exact .inr ⟨hg, rank_pool rfl (by simp [St.p, hf, prank, this])⟩
    · cases h

/-- One of the two threads can take a step while the table grows. -/
theorem enabled {blocks : Nat → Nat} {s : St} {v : Nat} (I : J blocks s v) (l : L s)
    (hg : growing v (s.user 0) = true) :
    (∃ s', act blocks s (.user 0) = some s') ∨ (∃ s', act blocks s (.pool 0) = some s') := by
  have hu := I.u
  have hp := I.p
  have lead := I.lead
  simp only [SyncPool.act, I.def_, Bool.false_eq_true, if_false]
  by_cases ha : ∃ g w, s.user 0 = .asleep g w
  · right
    obtain ⟨g, w, hx⟩ := ha
    rw [hx] at hu
    obtain ⟨h1, h2, h3, rfl, rfl, h6⟩ := hu
    simp only [SyncPool.poolStep]
    have l1 := l.awake true w
    have l2 := l.woken _ _ hx
    have hst : s.stop 0 ≠ true := by
      intro e
      rcases I.st e with h | h <;> simp [h, growing] at hg
    generalize hy : s.pool 0 = y at hp l1 l2
    cases y with
    | none => have := I.nn.mp hy; simp [hx] at this
    | ended => exact absurd hp hst
    | asleep e =>
      exfalso
      have h1 := l1 _ (.inr hx) rfl
      simp only [PInv] at hp
      rcases l2 with h | ⟨_, _, h⟩
      · omega
      · cases h
    | wait e => dsimp only; split <;> exact ⟨_, rfl⟩
    | chk e => dsimp only; split <;> exact ⟨_, rfl⟩
    | m1 e => dsimp only; split <;> exact ⟨_, rfl⟩
    | m1r e => exact ⟨_, rfl⟩
    | m2 e w => exact ⟨_, rfl⟩
    | m3 e w => dsimp only; split <;> (try split) <;> exact ⟨_, rfl⟩
    | m4 e w => dsimp only; split <;> (try split) <;> exact ⟨_, rfl⟩
    | m5 e w k => dsimp only; split <;> exact ⟨_, rfl⟩
    | m6 e r => dsimp only; split <;> exact ⟨_, rfl⟩
    | inc e r => dsimp only; split <;> exact ⟨_, rfl⟩
    | wk e r => exact ⟨_, rfl⟩
  · left
    simp only [SyncPool.userStep]
    generalize s.user 0 = x at hg ha
    cases x <;> simp [growing] at hg <;> first
      | exact ⟨_, rfl⟩
      | (dsimp only; split <;> (try split) <;> exact ⟨_, rfl⟩)
      | exact absurd ⟨_, _, rfl⟩ ha

theorem JL.run {blocks : Nat → Nat} {s s' : St} {l : List Act} {v : Nat} (I : J blocks s v) (L0 : L s)
    (h0 : ∀ a ∈ l, a.handle = 0) (ht : TimelyRun blocks s l) (h : SyncPool.run blocks s l = some s') :
    (∃ v', J blocks s' v') ∧ L s' := by
  induction l generalizing s v with
  | nil =>
    simp only [SyncPool.run, Option.some.injEq] at h
    subst h
    exact ⟨⟨v, I⟩, L0⟩
  | cons a l ih =>
    simp only [SyncPool.run] at h
    cases ha : SyncPool.act blocks s a with
    | none => simp [ha] at h
    | some s1 =>
      simp only [ha, Option.bind_some] at h
      obtain ⟨v1, I1⟩ := I.act (h0 a (by simp)) ht.1 ha
      exact ih I1 (L0.act I (h0 a (by simp)) ha) (fun b hb => h0 b (by simp [hb])) (ht.2 s1 ha) h

end SyncPool
end Growt
