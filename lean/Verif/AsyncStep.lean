import Verif.AsyncInv

/-! # Asynchronous growth: every step keeps the invariant -/

set_option linter.unusedSectionVars false

namespace Growt
namespace Async
section
variable {T A : Type} [DecidableEq T] [DecidableEq A]

theorem inv_grMake {s : St T A} {t : T} {h : Hd A} {b : A} {o : Obj A} {n : Nat} (i : Inv s)
    (hp : s.pc t = .gr1 h) (ho : s.heap h.tab = some o) (hb : s.heap b = none) :
    Inv { s with
        heap := upd s.heap b (some ⟨o.ver + 1, n, 0, fun _ => false, none, false, true⟩)
        pc := upd s.pc t (.gr2 h b) } := by
  have hne : ∀ a x, s.heap a = some x → a ≠ b := fun a x hx e => by subst e; rw [hb] at hx; cases hx
  have up : ∀ a x, s.heap a = some x →
      upd s.heap b (some (⟨o.ver + 1, n, 0, fun _ => false, none, false, true⟩ : Obj A)) a = some x := by
    intro a x hx; rw [upd_ne _ _ (hne a x hx)]; exact hx
  have down : ∀ a x, x.priv = false →
      upd s.heap b (some (⟨o.ver + 1, n, 0, fun _ => false, none, false, true⟩ : Obj A)) a = some x →
      s.heap a = some x := by
    intro a x hx hh
    by_cases e : a = b
    · subst e; rw [upd_same] at hh; cases hh; cases hx
    · rw [upd_ne _ _ e] at hh; exact hh
  have g := i.g
  have hh : Hold s h := by have := i.t t; rw [hp] at this; exact this
  refine Inv.mk' (t := t) (p := .gr2 h b) i rfl ⟨?_, ?_, ?_, ?_, ?_, ?_, ?_, ?_, ?_, ?_, ?_, ?_, ?_⟩ ?_ ?_ ?_ ?_ ?_ ?_ ?_ ?_ ?_
  · obtain ⟨x, h1, h2⟩ := g.glob; exact ⟨x, ⟨up _ _ h1.1, h1.2⟩, h2⟩
  · obtain ⟨x, h1, h2⟩ := g.cur; exact ⟨x, ⟨up _ _ h1.1, h1.2⟩, h2⟩
  · intro a x hx; exact g.lt a x ⟨down _ _ hx.2 hx.1, hx.2⟩
  · intro a x og hx h2 h3
    obtain ⟨y, h4, _⟩ := g.glob
    have h5 := (up _ _ h4.1).symm.trans h3
    cases h5
    exact g.top a x _ ⟨down _ _ hx.2 hx.1, hx.2⟩ h2 h4.1
  · intro a x c y hx hy; exact g.inj a x c y ⟨down _ _ hx.2 hx.1, hx.2⟩ ⟨down _ _ hy.2 hy.1, hy.2⟩
  · intro a x hx; exact g.next a x ⟨down _ _ hx.2 hx.1, hx.2⟩
  · intro a x hx; exact g.retired a x ⟨down _ _ hx.2 hx.1, hx.2⟩
  · intro a x hx; exact g.old a x ⟨down _ _ hx.2 hx.1, hx.2⟩
  · intro a x hx; exact g.prev a x ⟨down _ _ hx.2 hx.1, hx.2⟩
  · intro x c hx hn
    obtain ⟨y, h4, _⟩ := g.glob
    have h5 := (up _ _ h4.1).symm.trans hx
    cases h5
    obtain ⟨ob, h1, h2⟩ := g.succ _ c h4.1 hn
    exact ⟨ob, ⟨up _ _ h1.1, h1.2⟩, h2⟩
  · intro a x hx hn
    simp only [] at hx
    by_cases e : a = b
    · subst e; rw [upd_same] at hx; cases hx; rfl
    · rw [upd_ne _ _ e] at hx; exact g.calm a x hx hn
  · intro a x hx hn
    simp only [] at hx
    by_cases e : a = b
    · subst e; rw [upd_same] at hx; cases hx; rfl
    · rw [upd_ne _ _ e] at hx; exact g.priv a x hx hn
  · intro a x k hx hn
    simp only [] at hx
    by_cases e : a = b
    · subst e; rw [upd_same] at hx; cases hx; cases hn
    · rw [upd_ne _ _ e] at hx; exact g.finc a x k hx hn
  · obtain ⟨x, h1, h2, h3⟩ := hh
    have := ho.symm.trans h1.1
    cases this
    refine ⟨⟨o, ⟨up _ _ h1.1, h1.2⟩, h2, h3⟩, ⟨o.ver + 1, n, 0, fun _ => false, none, false, true⟩, ?_, rfl, ?_,
      rfl, rfl⟩
    · simp only []; rw [upd_same]
    · simp only []; rw [h2]
  · intro t' e
    refine ⟨fun a x _ hx => ⟨x, ⟨up _ _ hx.1, hx.2⟩, OLe.refl _, fun _ _ _ _ => rfl, fun _ _ => rfl⟩,
      Nat.le_refl _, Nat.le_refl _, ?_, ?_, fun _ _ _ => ⟨rfl, rfl⟩⟩
    · intro c x x' _ _ _ hle hn
      rcases hn with hn | hn
      · exact .inl hn
      · exact .inr (hle.next _ hn)
    · intro b' hb'
      obtain ⟨ob, h1, _⟩ := (i.t t').new hb'
      simp only []
      rw [upd_ne _ _ (hne _ _ h1)]
  · intro x hx t' e hx'
    simp only [PC.own, Option.some.injEq] at hx
    subst hx
    obtain ⟨ob, h1, _⟩ := (i.t t').new hx'
    rw [hb] at h1; cases h1
  · intro h' hh'; cases hh'
  · intro c hc; cases hc
  · intro t1 t2 h' c _ _ h1 h2 h3; exact i.cross t1 t2 h' c h1 h2 h3
  · exact helpers_same (s := s) (t := t) rfl i.helpers (by rw [hp]; rfl) rfl
  · intro a x k h1 h2 h3
    rcases i.blocks a x k ⟨down _ _ h1.2 h1.1, h1.2⟩ h2 h3 with h' | ⟨t', h'⟩
    · exact .inl h'
    · refine .inr (.inr ⟨t', ?_, h'⟩)
      intro e; subst e; rw [hp] at h'; cases h'
  · intro hne'
    obtain ⟨t', h', hp'⟩ := i.pub hne'
    refine .inr ⟨t', h', ?_, hp'⟩
    intro e; subst e; rw [hp] at hp'; cases hp'

/-- Objects disappear, except those that the invariant needs. -/
theorem GInv.drop {s : St T A} (g : GInv s) {a : A} (hgl : a ≠ s.glob) (hcu : a ≠ s.cur)
    (hnx : ∀ o, s.heap s.glob = some o → o.next ≠ some a) {pc : T → PC A} :
    GInv { s with heap := upd s.heap a none, pc := pc } := by
  have down : ∀ x o, upd s.heap a none x = some o → s.heap x = some o := by
    intro x o hx
    by_cases e : x = a
    · subst e; rw [upd_same] at hx; cases hx
    · rw [upd_ne _ _ e] at hx; exact hx
  have dp : ∀ x o, Pub ({ s with heap := upd s.heap a none, pc := pc } : St T A) x o → Pub s x o :=
    fun x o h => ⟨down _ _ h.1, h.2⟩
  have up : ∀ x o, x ≠ a → Pub s x o → Pub ({ s with heap := upd s.heap a none, pc := pc } : St T A) x o := by
    intro x o hx h
    refine ⟨?_, h.2⟩
    simp only []
    rw [upd_ne _ _ hx]; exact h.1
  refine ⟨?_, ?_, ?_, ?_, ?_, ?_, ?_, ?_, ?_, ?_, ?_, ?_, ?_⟩
  · obtain ⟨x, h1, h2⟩ := g.glob; exact ⟨x, up _ _ (Ne.symm hgl) h1, h2⟩
  · obtain ⟨x, h1, h2⟩ := g.cur; exact ⟨x, up _ _ (Ne.symm hcu) h1, h2⟩
  · intro x o h; exact g.lt x o (dp _ _ h)
  · intro x o og h h2 h3; exact g.top x o og (dp _ _ h) h2 (down _ _ h3)
  · intro x o y oy h h'; exact g.inj x o y oy (dp _ _ h) (dp _ _ h')
  · intro x o h; exact g.next x o (dp _ _ h)
  · intro x o h; exact g.retired x o (dp _ _ h)
  · intro x o h; exact g.old x o (dp _ _ h)
  · intro x o h; exact g.prev x o (dp _ _ h)
  · intro o b h hn
    obtain ⟨ob, h1, h2⟩ := g.succ o b (down _ _ h) hn
    refine ⟨ob, up _ _ ?_ h1, h2⟩
    intro e; subst e; exact hnx o (down _ _ h) hn
  · intro x o h; exact g.calm x o (down _ _ h)
  · intro x o h; exact g.priv x o (down _ _ h)
  · intro x o k h; exact g.finc x o k (down _ _ h)

theorem Frame.drop {s : St T A} {a : A} {p : PC A} (hm : ∀ o, Pub s a o → a ∉ p.prot)
    (hnew : p.own ≠ some (.new a)) {pc : T → PC A} :
    Frame s { s with heap := upd s.heap a none, pc := pc } p := by
  refine ⟨?_, Nat.le_refl _, Nat.le_refl _, ?_, ?_, fun _ _ _ => ⟨rfl, rfl⟩⟩
  · intro x o hx h
    refine ⟨o, ⟨?_, h.2⟩, OLe.refl _, fun _ _ _ _ => rfl, fun _ _ => rfl⟩
    simp only []
    rw [upd_ne _ _ (show x ≠ a from fun e => by subst e; exact hm o h hx)]
    exact h.1
  · intro c x x' _ _ _ hle hn
    rcases hn with hn | hn
    · exact .inl hn
    · exact .inr (hle.next _ hn)
  · intro b hb
    simp only []
    rw [upd_ne _ _ (show b ≠ a from fun e => by subst e; exact hnew hb)]

theorem inv_grDel {s : St T A} {t : T} {h : Hd A} {b : A} (i : Inv s) (hp : s.pc t = .gr3 h b) :
    Inv { s with heap := upd s.heap b none, pc := upd s.pc t (.mg0 (some h)) } := by
  have ht := i.t t
  rw [hp] at ht
  obtain ⟨hN, ob, hb, hpv, _⟩ := ht
  have notpub : ∀ o, ¬ Pub s b o := by
    intro o ho
    have := hb.symm.trans ho.1
    cases this
    have := ho.2
    rw [hpv] at this; cases this
  have g := i.g
  have hgl : b ≠ s.glob := by
    intro e; obtain ⟨o, h1, _⟩ := g.glob; exact notpub o (e ▸ h1)
  have hcu : b ≠ s.cur := by
    intro e; obtain ⟨o, h1, _⟩ := g.cur; exact notpub o (e ▸ h1)
  have hf : ∀ t', t' ≠ t → Frame s { s with heap := upd s.heap b none, pc := upd s.pc t (.mg0 (some h)) } (s.pc t') := by
    intro t' e
    refine Frame.drop (fun o ho => absurd ho (notpub o)) ?_
    intro hx
    exact e (i.own t' t _ hx (by rw [hp]; rfl))
  refine Inv.mk' (t := t) (p := .mg0 (some h)) i rfl (g.drop hgl hcu ?_) ?_ hf ?_ ?_ ?_ ?_ ?_ ?_ ?_
  · intro o ho hn
    obtain ⟨ob', h1, _⟩ := g.succ o b ho hn
    exact notpub _ h1
  · intro h' e
    cases e
    have fr : Frame s { s with heap := upd s.heap b none, pc := upd s.pc t (.mg0 (some h)) } (.idle h) :=
      Frame.drop (fun o ho => absurd ho (notpub o)) (by intro hx; cases hx)
    exact fr.holdN (List.mem_singleton.2 rfl) hN
  · intro x hx; cases hx
  · intro h' hh'; cases hh'
  · intro c hc; cases hc
  · intro t1 t2 h' c _ _ h1 h2 h3; exact i.cross t1 t2 h' c h1 h2 h3
  · exact helpers_same (s := s) (t := t) rfl i.helpers (by rw [hp]; rfl) rfl
  · intro a x k h1 h2 h3
    have h1' := h1.1
    simp only [] at h1'
    have hab : a ≠ b := by intro e; subst e; rw [upd_same] at h1'; cases h1'
    rw [upd_ne _ _ hab] at h1'
    rcases i.blocks a x k ⟨h1', h1.2⟩ h2 h3 with h' | ⟨t', h'⟩
    · exact .inl h'
    · refine .inr (.inr ⟨t', ?_, h'⟩)
      intro e; subst e; rw [hp] at h'; cases h'
  · intro hne'
    obtain ⟨t', h', hp'⟩ := i.pub hne'
    refine .inr ⟨t', h', ?_, hp'⟩
    intro e; subst e; rw [hp] at hp'; cases hp'

theorem inv_free {s : St T A} {a : A} {o : Obj A} (i : Inv s) (ho : s.heap a = some o)
    (hr : o.retired = true) (hn : ∀ t, a ∉ (s.pc t).prot) : Inv { s with heap := upd s.heap a none } := by
  have g := i.g
  have hpv : o.priv = false := by
    cases h : o.priv
    · rfl
    · have := g.priv a o ho h; rw [hr] at this; cases this
  have hpub : Pub s a o := ⟨ho, hpv⟩
  have hlt := g.retired a o hpub hr
  have hvg := vg_bounds s
  have hgl : a ≠ s.glob := by
    intro e
    have := (g.globP (by rw [← e]; exact ho)).2
    omega
  have hcu : a ≠ s.cur := by
    intro e
    have := (g.curP (by rw [← e]; exact ho)).2
    omega
  have hf : ∀ t', Frame s { s with heap := upd s.heap a none } (s.pc t') := by
    intro t'
    exact Frame.drop (pc := s.pc) (fun _ _ => hn t') (i.not_new hpub t')
  refine ⟨g.drop (pc := s.pc) hgl hcu ?_, fun t => (hf t).tinv (i.t t), i.own, i.cross, i.helpers, ?_, i.pub⟩
  · intro og hog hnx
    obtain ⟨ob, h1, h2⟩ := g.succ og a hog hnx
    have := ho.symm.trans h1.1
    cases this
    omega
  · intro b x k h1 h2 h3
    have h1' := h1.1
    simp only [] at h1'
    have hab : b ≠ a := by intro e; subst e; rw [upd_same] at h1'; cases h1'
    rw [upd_ne _ _ hab] at h1'
    exact i.blocks b x k ⟨h1', h1.2⟩ h2 h3

/-- A new successor is attached only to the current table, which is the table of the epoch. -/
theorem attach_at {s : St T A} (g : GInv s) {h : Hd A} (hh : Hold s h) {o : Obj A}
    (ho : s.heap h.tab = some o) (hn : o.next = none) :
    h.tab = s.glob ∧ s.glob = s.cur ∧ o.ver = s.epoch ∧ s.vg = s.epoch ∧ o.priv = false := by
  obtain ⟨x, h1, h2, h3⟩ := hh
  have := ho.symm.trans h1.1
  cases this
  have hv : ¬ o.ver < s.vg := fun hlt => (g.old _ _ h1 hlt).1 hn
  have hb := vg_bounds s
  have e1 : s.vg = s.epoch := by omega
  have e2 := vg_eq (Nat.le_of_eq e1)
  obtain ⟨og, g1, g2⟩ := g.glob
  exact ⟨g.inj _ _ _ _ h1 g1 (by omega), e2, by omega, e1, h1.2⟩

theorem inv_grCas {s : St T A} {t : T} {h : Hd A} {b : A} {o ob : Obj A} (i : Inv s)
    (hp : s.pc t = .gr2 h b) (ho : s.heap h.tab = some o) (hn : o.next = none) (hb : s.heap b = some ob) :
    Inv { s with
        heap := upd (upd s.heap b (some { ob with priv := false })) h.tab (some { o with next := some b })
        pc := upd s.pc t (.mg0 (some h)) } := by
  have ht := i.t t
  rw [hp] at ht
  obtain ⟨hh, ob', hb', hpv, hbv, hbn, hbr⟩ := ht
  rw [hb] at hb'; cases hb'
  have g := i.g
  obtain ⟨e1, e2, e3, e4, e5⟩ := attach_at g hh ho hn
  have hep : h.ep = s.epoch := by
    obtain ⟨x, h1, h2, h3⟩ := hh
    have := ho.symm.trans h1.1
    cases this
    omega
  have hbt : b ≠ h.tab := by
    intro e; rw [e, ho] at hb; cases hb; rw [e5] at hpv; cases hpv
  generalize hH : upd (upd s.heap b (some { ob with priv := false })) h.tab (some { o with next := some b }) = H
  have Ht : H h.tab = some { o with next := some b } := by rw [← hH, upd_same]
  have Hb : H b = some { ob with priv := false } := by rw [← hH, upd_ne _ _ hbt, upd_same]
  have Ho : ∀ x, x ≠ h.tab → x ≠ b → H x = s.heap x := by
    intro x h1 h2; rw [← hH, upd_ne _ _ h1, upd_ne _ _ h2]
  have hpubt : Pub s h.tab o := ⟨ho, e5⟩
  -- objects after the step
  have back : ∀ x ox, Pub ({ s with heap := H, pc := upd s.pc t (.mg0 (some h)) } : St T A) x ox →
      (x = h.tab ∧ ox = { o with next := some b }) ∨ (x = b ∧ ox = { ob with priv := false }) ∨
      (x ≠ h.tab ∧ x ≠ b ∧ Pub s x ox) := by
    intro x ox hx
    have h1 := hx.1
    simp only [] at h1
    by_cases c1 : x = h.tab
    · subst c1; rw [Ht] at h1; cases h1; exact .inl ⟨rfl, rfl⟩
    · by_cases c2 : x = b
      · subst c2; rw [Hb] at h1; cases h1; exact .inr (.inl ⟨rfl, rfl⟩)
      · rw [Ho x c1 c2] at h1; exact .inr (.inr ⟨c1, c2, h1, hx.2⟩)
  have forth : ∀ x ox, Pub s x ox → ∃ ox',
      Pub ({ s with heap := H, pc := upd s.pc t (.mg0 (some h)) } : St T A) x ox' ∧ OLe ox ox' ∧
        ox'.fin = ox.fin ∧ ox'.retired = ox.retired := by
    intro x ox hx
    by_cases c1 : x = h.tab
    · subst c1
      have := ho.symm.trans hx.1
      cases this
      exact ⟨_, ⟨Ht, e5⟩, ⟨rfl, rfl, Nat.le_refl _, fun _ h => h, fun c hc => by rw [hn] at hc; cases hc⟩, rfl, rfl⟩
    · have c2 : x ≠ b := by
        intro e; subst e
        have := hb.symm.trans hx.1
        cases this
        have := hx.2
        rw [hpv] at this; cases this
      exact ⟨ox, ⟨by simp only []; rw [Ho x c1 c2]; exact hx.1, hx.2⟩, OLe.refl _, rfl, rfl⟩
  have hnotop : ∀ x ox, Pub s x ox → ox.ver ≠ s.vg + 1 := by
    intro x ox hx hv
    have := g.top x ox o hx hv (by rw [← e1]; exact ho)
    rw [hn] at this; cases this
  have frame : ∀ p : PC A, p.own ≠ some (.new b) → (p.own ≠ some (.new h.tab)) →
      Frame s { s with heap := H, pc := upd s.pc t (.mg0 (some h)) } p := by
    intro p hnb hnt
    refine ⟨?_, Nat.le_refl _, Nat.le_refl _, ?_, ?_, fun _ _ _ => ⟨rfl, rfl⟩⟩
    · intro x ox _ hx
      obtain ⟨ox', f1, f2, f3, f4⟩ := forth x ox hx
      exact ⟨ox', f1, f2, fun _ _ _ _ => by rw [f3], fun _ _ => f4⟩
    · intro c x x' _ _ _ hle hnr
      rcases hnr with hnr | hnr
      · exact .inl hnr
      · exact .inr (hle.next _ hnr)
    · intro b' hb'
      simp only []
      exact Ho _ (fun e => hnt (e ▸ hb')) (fun e => hnb (e ▸ hb'))
  refine Inv.mk' (t := t) (p := .mg0 (some h)) i rfl ⟨?_, ?_, ?_, ?_, ?_, ?_, ?_, ?_, ?_, ?_, ?_, ?_, ?_⟩ ?_ ?_ ?_ ?_ ?_ ?_ ?_ ?_ ?_
  · obtain ⟨x, h1, h2⟩ := g.glob
    obtain ⟨x', f1, f2, _⟩ := forth _ _ h1
    exact ⟨x', f1, by rw [f2.ver]; exact h2⟩
  · obtain ⟨x, h1, h2⟩ := g.cur
    obtain ⟨x', f1, f2, _⟩ := forth _ _ h1
    exact ⟨x', f1, by rw [f2.ver]; exact h2⟩
  · intro x ox hx
    show ox.ver ≤ s.vg + 1
    rcases back x ox hx with ⟨_, e⟩ | ⟨_, e⟩ | ⟨_, _, h'⟩
    · rw [e]; simp only []; omega
    · rw [e]; simp only []; omega
    · exact g.lt x ox h'
  · intro x ox og hx hv hog
    change ox.ver = s.vg + 1 at hv
    change H s.glob = some og at hog
    rw [← e1, Ht] at hog
    cases hog
    rcases back x ox hx with ⟨_, e⟩ | ⟨e', e⟩ | ⟨_, _, h'⟩
    · rw [e] at hv; simp only [] at hv; omega
    · rw [e']
    · exact absurd hv (hnotop x ox h')
  · intro x ox y oy hx hy hv
    rcases back x ox hx with ⟨a1, a2⟩ | ⟨a1, a2⟩ | ⟨a1, a1', a2⟩ <;>
      rcases back y oy hy with ⟨b1, b2⟩ | ⟨b1, b2⟩ | ⟨b1, b1', b2⟩
    · rw [a1, b1]
    · rw [a2, b2] at hv; simp only [] at hv; omega
    · rw [a2] at hv; simp only [] at hv
      rw [a1]; exact g.inj _ _ _ _ hpubt b2 hv
    · rw [a2, b2] at hv; simp only [] at hv; omega
    · rw [a1, b1]
    · rw [a2] at hv; simp only [] at hv
      exact absurd (by omega) (hnotop y oy b2)
    · rw [b2] at hv; simp only [] at hv
      rw [b1]; exact g.inj _ _ _ _ a2 hpubt hv
    · rw [b2] at hv; simp only [] at hv
      exact absurd (by omega) (hnotop x ox a2)
    · exact g.inj _ _ _ _ a2 b2 hv
  · intro x ox hx hnx
    show ox.ver ≤ s.epoch
    rcases back x ox hx with ⟨_, e⟩ | ⟨_, e⟩ | ⟨_, _, h'⟩
    · rw [e]; simp only []; omega
    · rw [e] at hnx; exact absurd hbn hnx
    · exact g.next x ox h' hnx
  · intro x ox hx hrt
    show ox.ver < s.epoch
    rcases back x ox hx with ⟨_, e⟩ | ⟨_, e⟩ | ⟨_, _, h'⟩
    · rw [e] at hrt ⊢; exact g.retired h.tab o hpubt hrt
    · rw [e] at hrt; simp only [] at hrt; rw [hbr] at hrt; cases hrt
    · exact g.retired x ox h' hrt
  · intro x ox hx hlt
    change ox.ver < s.vg at hlt
    rcases back x ox hx with ⟨_, e⟩ | ⟨_, e⟩ | ⟨_, _, h'⟩
    · rw [e] at hlt; simp only [] at hlt; omega
    · rw [e] at hlt; simp only [] at hlt; omega
    · exact g.old x ox h' hlt
  · intro x ox hx hlt
    change ox.ver + 1 = s.vg at hlt
    rcases back x ox hx with ⟨_, e⟩ | ⟨_, e⟩ | ⟨_, _, h'⟩
    · rw [e] at hlt; simp only [] at hlt; omega
    · rw [e] at hlt; simp only [] at hlt; omega
    · exact g.prev x ox h' hlt
  · intro og c hog hnx
    change H s.glob = some og at hog
    rw [← e1, Ht] at hog
    cases hog
    cases hnx
    refine ⟨_, ⟨Hb, rfl⟩, ?_⟩
    show ob.ver = s.vg + 1
    omega
  · intro x ox hx hnx
    change H x = some ox at hx
    by_cases c1 : x = h.tab
    · subst c1; rw [Ht] at hx; cases hx; cases hnx
    · by_cases c2 : x = b
      · subst c2; rw [Hb] at hx; cases hx; exact g.calm x ob hb hbn
      · rw [Ho x c1 c2] at hx; exact g.calm x ox hx hnx
  · intro x ox hx hnx
    change H x = some ox at hx
    by_cases c1 : x = h.tab
    · subst c1; rw [Ht] at hx; cases hx; simp only [] at hnx; rw [e5] at hnx; cases hnx
    · by_cases c2 : x = b
      · subst c2; rw [Hb] at hx; cases hx; cases hnx
      · rw [Ho x c1 c2] at hx; exact g.priv x ox hx hnx
  · intro x ox k hx hf
    change H x = some ox at hx
    by_cases c1 : x = h.tab
    · subst c1; rw [Ht] at hx; cases hx; exact g.finc _ o k ho hf
    · by_cases c2 : x = b
      · subst c2; rw [Hb] at hx; cases hx; exact g.finc _ ob k hb hf
      · rw [Ho x c1 c2] at hx; exact g.finc x ox k hx hf
  · intro h' e
    cases e
    refine ⟨_, ⟨Ht, e5⟩, ?_, ?_, ?_⟩
    · show o.ver = h.ep; omega
    · show h.ep ≤ s.epoch; omega
    · intro hx; cases hx
  · intro t' e
    refine frame _ ?_ (i.not_new hpubt t')
    intro hx
    exact e (i.own t' t _ hx (by rw [hp]; rfl))
  · intro x hx; cases hx
  · intro h' hh'; cases hh'
  · intro c hc; cases hc
  · intro t1 t2 h' c _ _ h1 h2 h3; exact i.cross t1 t2 h' c h1 h2 h3
  · exact helpers_same (s := s) (t := t) rfl i.helpers (by rw [hp]; rfl) rfl
  · intro x ox k hx h2 h3
    rcases back x ox hx with ⟨a1, e⟩ | ⟨_, e⟩ | ⟨_, _, h'⟩
    · have hc := g.calm _ _ ho hn
      rw [e] at h2; simp only [] at h2; omega
    · have hc := g.calm _ _ hb hbn
      rw [e] at h2; simp only [] at h2; omega
    · rcases i.blocks x ox k h' h2 h3 with h'' | ⟨t', h''⟩
      · exact .inl h''
      · refine .inr (.inr ⟨t', ?_, h''⟩)
        intro e; subst e; rw [hp] at h''; cases h''
  · intro hne'
    exact absurd e2 hne'

/-- The state in which the current table can be exchanged. -/
theorem publish_at {s : St T A} (g : GInv s) {h : Hd A} {n : A} (hh : HoldD s h (fun x => x = some n))
    (hgl : s.glob = h.tab) : ∃ o on, Pub s h.tab o ∧ o.ver = s.epoch ∧ h.ep = s.epoch ∧ s.vg = s.epoch ∧
      s.glob = s.cur ∧ o.next = some n ∧ o.blocks ≤ o.claimed ∧ (∀ k, k < o.blocks → o.fin k = true) ∧
      Pub s n on ∧ on.ver = s.epoch + 1 ∧ n ≠ s.cur := by
  obtain ⟨o, h1, h2, h3, h4, h5, h6, h7⟩ := hh
  have hv := (g.globP (by rw [hgl]; exact h1.1)).2
  have hb := vg_bounds s
  have e1 : s.vg = s.epoch := by omega
  have e2 := vg_eq (Nat.le_of_eq e1)
  obtain ⟨on, n1, n2⟩ := g.succ o n (by rw [hgl]; exact h1.1) h7
  refine ⟨o, on, h1, by omega, by omega, e1, e2, h7, h5, h6, n1, by omega, ?_⟩
  intro e
  have := (g.curP (by rw [← e]; exact n1.1)).2
  omega

theorem inv_egCas {s : St T A} {t : T} {h : Hd A} {n : A} (i : Inv s) (hp : s.pc t = .eg3 h (some n))
    (hgl : s.glob = h.tab) : Inv { s with glob := n, pc := upd s.pc t (.eg4 h n) } := by
  have ht := i.t t
  rw [hp] at ht
  have g := i.g
  obtain ⟨o, on, ho, hov, hep, hvg, hgc, hnx, hcl, hfin, hn, hnv, hnc⟩ := publish_at g ht hgl
  have hvg' : ∀ pc : T → PC A, ({ s with glob := n, pc := pc } : St T A).vg = s.epoch + 1 := by
    intro pc
    unfold St.vg
    simp only []
    rw [if_neg hnc]
  have no4 : ∀ t' h' n', s.pc t' ≠ .eg4 h' n' := by
    intro t' h' n' e
    have := i.t t'
    rw [e] at this
    exact this.2.2.2 hgc
  have hlow : ∀ x ox, Pub s x ox → ox.ver ≤ s.epoch + 1 := by
    intro x ox hx; have := g.lt x ox hx; omega
  refine Inv.mk' (t := t) (p := .eg4 h n) i rfl ⟨?_, ?_, ?_, ?_, ?_, ?_, ?_, ?_, ?_, ?_, ?_, ?_, ?_⟩ ?_ ?_ ?_ ?_ ?_ ?_ ?_ ?_ ?_
  · exact ⟨on, hn, by rw [hvg']; exact hnv⟩
  · exact g.cur
  · intro x ox hx; rw [hvg']; have := hlow x ox hx; omega
  · intro x ox og hx hv; rw [hvg'] at hv; have := hlow x ox hx; omega
  · exact g.inj
  · exact g.next
  · exact g.retired
  · intro x ox hx hv
    rw [hvg'] at hv
    by_cases e : ox.ver = s.epoch
    · have hxt : x = h.tab := g.inj _ _ _ _ hx ho (by omega)
      subst hxt
      have := ho.1.symm.trans hx.1
      cases this
      exact ⟨(by rw [hnx]; intro h; cases h), hcl, hfin⟩
    · exact g.old x ox hx (by omega)
  · intro x ox hx hv
    rw [hvg'] at hv
    have hxt : x = h.tab := g.inj _ _ _ _ hx ho (by omega)
    subst hxt
    have := ho.1.symm.trans hx.1
    cases this
    exact hnx
  · intro og c hog hc
    have := hn.1.symm.trans hog
    cases this
    have := g.next n _ hn (by rw [hc]; intro h; cases h)
    omega
  · exact g.calm
  · exact g.priv
  · exact g.finc
  · exact ⟨⟨o, ho, by omega, by show h.ep ≤ s.epoch; omega⟩, rfl, by rw [← hgl]; exact hgc.symm, hnc⟩
  · intro t' e
    refine ⟨fun x ox _ hx => ⟨ox, hx, OLe.refl _, fun _ _ _ _ => rfl, fun _ _ => rfl⟩, Nat.le_refl _,
      (by rw [hvg', hvg]; exact Nat.le_succ _), ?_, fun _ _ => rfl, fun h' n' e' => absurd e' (no4 t' h' n')⟩
    intro c x x' hs hx _ hle _
    have hc : c = s.glob := i.cross t t' h c (by rw [hp]; rfl) hs hgl.symm
    rw [hc, hgl] at hx
    have := ho.1.symm.trans hx.1
    cases this
    exact .inr (hle.next _ hnx)
  · intro x hx t' e hx'
    simp only [PC.own, Option.some.injEq] at hx
    subst hx
    have hi := i.t t'
    cases hq : s.pc t' with
    | eg4 h' n' => exact no4 _ _ _ hq
    | eg5 h' =>
      rw [hq] at hx' hi
      simp only [PC.own, Option.some.injEq, Own.ret.injEq] at hx'
      obtain ⟨o', q1, q2, q3, _⟩ := hi
      rw [hx'] at q1
      have := ho.1.symm.trans q1.1
      cases this
      omega
    | _ => rw [hq] at hx'; simp [PC.own] at hx'
  · intro h' hh'; cases hh'
  · intro c hc; cases hc
  · intro t1 t2 h' c _ _ h1 _ h3
    have hi := i.t t1
    simp only [] at h3
    have hX : HoldX s h' := by
      cases hq : s.pc t1 with
      | eg2 h'' => rw [hq] at h1 hi; cases h1; exact HoldD.holdX (q := fun _ => True) hi
      | eg3 h'' nx => rw [hq] at h1 hi; cases h1; exact HoldD.holdX (q := fun x => x = nx) hi
      | _ => rw [hq] at h1; cases h1
    obtain ⟨o', q1, q2, q3, _⟩ := hX
    rw [h3] at q1
    have := hn.1.symm.trans q1.1
    cases this
    omega
  · exact helpers_same (s := s) (t := t) rfl i.helpers (by rw [hp]; rfl) rfl
  · intro x ox k hx h2 h3
    rcases i.blocks x ox k hx h2 h3 with h'' | ⟨t', h''⟩
    · exact .inl h''
    · refine .inr (.inr ⟨t', ?_, h''⟩)
      intro e; subst e; rw [hp] at h''; cases h''
  · intro _; exact .inl ⟨h, rfl⟩

theorem inv_egEpoch {s : St T A} {t : T} {h : Hd A} {n : A} {o : Obj A} (i : Inv s) (hp : s.pc t = .eg4 h n)
    (ho : s.heap n = some o) : Inv { s with epoch := o.ver, cur := n, pc := upd s.pc t (.eg5 h) } := by
  have ht := i.t t
  rw [hp] at ht
  obtain ⟨hh, hgl, hcu, hne⟩ := ht
  have g := i.g
  have hvg : s.vg = s.epoch + 1 := by unfold St.vg; rw [if_neg hne]
  have hov : o.ver = s.epoch + 1 := by rw [← hvg]; exact (g.globP (by rw [hgl]; exact ho)).2
  have hop : Pub s n o := by
    have := (g.globP (by rw [hgl]; exact ho)).1
    rw [hgl] at this; exact this
  have hvg' : ∀ pc : T → PC A, ({ s with epoch := o.ver, cur := n, pc := pc } : St T A).vg = s.vg := by
    intro pc
    unfold St.vg
    simp only []
    rw [if_pos hgl, if_neg hne, hov]
  refine Inv.mk' (t := t) (p := .eg5 h) i rfl ⟨?_, ?_, ?_, ?_, ?_, ?_, ?_, ?_, ?_, ?_, ?_, ?_, ?_⟩ ?_ ?_ ?_ ?_ ?_ ?_ ?_ ?_ ?_
  · rw [hvg']; exact g.glob
  · exact ⟨o, hop, rfl⟩
  · rw [hvg']; exact g.lt
  · rw [hvg']; exact g.top
  · exact g.inj
  · intro x ox hx hnx
    have := g.next x ox hx hnx
    show ox.ver ≤ o.ver; omega
  · intro x ox hx hr
    have := g.retired x ox hx hr
    show ox.ver < o.ver; omega
  · rw [hvg']; exact g.old
  · rw [hvg']; exact g.prev
  · rw [hvg']; exact g.succ
  · exact g.calm
  · exact g.priv
  · exact g.finc
  · obtain ⟨x, h1, h2, h3⟩ := hh
    have hxv : x.ver = s.epoch := (g.curP (by rw [hcu]; exact h1.1)).2
    refine ⟨x, h1, h2, by show h.ep < o.ver; omega, ?_⟩
    cases hr : x.retired
    · rfl
    · have := g.retired _ _ h1 hr; omega
  · intro t' e
    refine ⟨fun x ox _ hx => ⟨ox, hx, OLe.refl _, fun _ _ _ _ => rfl, fun _ _ => rfl⟩, by show s.epoch ≤ o.ver; omega,
      Nat.le_of_eq (hvg' _).symm, ?_, fun _ _ => rfl, ?_⟩
    · intro c x x' _ _ _ hle hn
      rcases hn with hn | hn
      · exact .inl hn
      · exact .inr (hle.next _ hn)
    · intro h' n' e'
      exfalso
      have hi := i.t t'
      rw [e'] at hi
      refine e (i.own t' t (.ret s.cur) ?_ ?_)
      · rw [e', hi.2.2.1]; rfl
      · rw [hp, hcu]; rfl
  · intro x hx t' e hx'
    exact e (i.own t' t x hx' (by rw [hp]; exact hx))
  · intro h' hh'; cases hh'
  · intro c hc; cases hc
  · intro t1 t2 h' c _ _ h1 h2 h3; exact i.cross t1 t2 h' c h1 h2 h3
  · exact helpers_same (s := s) (t := t) rfl i.helpers (by rw [hp]; rfl) rfl
  · intro x ox k hx h2 h3
    rcases i.blocks x ox k hx h2 h3 with h'' | ⟨t', h''⟩
    · exact .inl h''
    · refine .inr (.inr ⟨t', ?_, h''⟩)
      intro e; subst e; rw [hp] at h''; cases h''
  · intro h'; exact absurd hgl h'

theorem inv_claim {s : St T A} {t : T} {u : Option (Hd A)} {c n : A} {o : Obj A} (i : Inv s)
    (hp : s.pc t = .mg4 u c n) (ho : s.heap c = some o) (hk : o.claimed < o.blocks) :
    Inv { s with
        heap := upd s.heap c (some { o with claimed := o.claimed + 1 })
        pc := upd s.pc t (.mg5 u c n o.claimed) } := by
  have ht := i.t t
  rw [hp] at ht
  obtain ⟨oc, hc, hnear, hle, hnx⟩ := ht.2.1
  have := ho.symm.trans hc.1
  cases this
  have hl : OLe o { o with claimed := o.claimed + 1 } := ⟨rfl, rfl, Nat.le_succ _, fun _ h => h, fun _ h => h⟩
  have unowned : ∀ t', (s.pc t').own ≠ some (.blk c o.claimed) := by
    intro t' hx
    have hi := i.t t'
    cases hq : s.pc t' with
    | mg5 u' c' n' k' =>
      rw [hq] at hx hi
      simp only [PC.own, Option.some.injEq, Own.blk.injEq] at hx
      obtain ⟨e1, e2⟩ := hx
      subst e1; subst e2
      obtain ⟨o', q1, _, _, _, q5, _⟩ := hi.2.1
      have := ho.symm.trans q1.1
      cases this
      omega
    | _ => rw [hq] at hx; simp [PC.own] at hx
  have unfin : o.fin o.claimed = false := by
    -- blocks are finished by their owners only
    cases hf : o.fin o.claimed
    · rfl
    · exact absurd (i.g.finc c o o.claimed hc.1 hf) (Nat.lt_irrefl _)
  refine Inv.setObj (t := t) i hc hc.2 hl rfl (fun h => i.g.retired _ _ hc h)
    (fun h => by rw [hnx] at h; cases h) (fun k h => Nat.lt_succ_of_lt (i.g.finc c o k hc.1 h)) (fun _ _ _ _ _ _ => rfl) (fun _ _ _ _ _ => rfl) ?_ ?_ rfl ?_ ?_ ?_ ?_ ?_
  · have fr : Frame s { s with
        heap := upd s.heap c (some { o with claimed := o.claimed + 1 })
        pc := upd s.pc t (.mg5 u c n o.claimed) } (.mg4 u c n) :=
      Frame.set (nh := s.nHelper) (p := .mg4 u c n) (o' := { o with claimed := o.claimed + 1 }) hc hc.2 hl
        (fun _ _ _ _ => rfl) (fun _ _ _ => rfl) (by intro h; cases h)
    have h1 := fr.tinv ht
    refine ⟨h1.1, ?_, h1.2.2⟩
    obtain ⟨o', q1, q2, q3, q4⟩ := h1.2.1
    have q0 := q1.1
    simp only [] at q0
    rw [upd_same] at q0
    cases q0
    exact ⟨_, q1, q2, q3, q4, Nat.lt_succ_self _, hk, unfin⟩
  · intro x hx t' _
    simp only [PC.own, Option.some.injEq] at hx
    subst hx
    exact unowned t'
  · intro c' hc'; rw [hp]; exact hc'
  · rw [hp]; rfl
  · intro h n; rw [hp]; intro h; cases h
  · intro k h1 h2
    by_cases e : k = o.claimed
    · subst e; exact .inr (.inl rfl)
    · simp only [] at h1 h2
      rcases i.blocks c o k hc (by omega) h2 with h' | ⟨t', h'⟩
      · exact .inl h'
      · refine .inr (.inr ⟨t', ?_, h'⟩)
        intro e; subst e; rw [hp] at h'; cases h'
  · intro b k _ h; rw [hp] at h; cases h

theorem inv_leave {s : St T A} {t : T} {u : Option (Hd A)} {c n : A} {o : Obj A} (i : Inv s)
    (hp : s.pc t = .mg4 u c n) (ho : s.heap c = some o) (hk : o.blocks ≤ o.claimed) :
    Inv { s with
        heap := upd s.heap c (some { o with claimed := o.claimed + 1 })
        pc := upd s.pc t (.mg6 u c n) } := by
  have ht := i.t t
  rw [hp] at ht
  obtain ⟨oc, hc, hnear, hle, hnx⟩ := ht.2.1
  have := ho.symm.trans hc.1
  cases this
  have hl : OLe o { o with claimed := o.claimed + 1 } := ⟨rfl, rfl, Nat.le_succ _, fun _ h => h, fun _ h => h⟩
  refine Inv.setObj (t := t) i hc hc.2 hl rfl (fun h => i.g.retired _ _ hc h)
    (fun h => by rw [hnx] at h; cases h) (fun k h => Nat.lt_succ_of_lt (i.g.finc c o k hc.1 h))
    (fun _ _ _ _ _ _ => rfl) (fun _ _ _ _ _ => rfl) ?_ ?_ rfl ?_ ?_ ?_ ?_ ?_
  · have fr : Frame s { s with
        heap := upd s.heap c (some { o with claimed := o.claimed + 1 })
        pc := upd s.pc t (.mg6 u c n) } (.mg6 u c n) :=
      Frame.set (nh := s.nHelper) (p := .mg6 u c n) (o' := { o with claimed := o.claimed + 1 }) hc hc.2 hl
        (fun _ _ _ _ => rfl) (fun _ _ _ => rfl) (by intro h; cases h)
    exact fr.tinv ⟨hold_taken i.g hc ht.1 hle (.inr hk) hnear, ht.2⟩
  · intro x hx; cases hx
  · intro c' hc'; rw [hp]; exact hc'
  · rw [hp]; rfl
  · intro h n; rw [hp]; intro h; cases h
  · intro k h1 h2
    simp only [] at h1 h2
    rcases i.blocks c o k hc (by omega) h2 with h' | ⟨t', h'⟩
    · exact .inl h'
    · refine .inr (.inr ⟨t', ?_, h'⟩)
      intro e; subst e; rw [hp] at h'; cases h'
  · intro b k _ h; rw [hp] at h; cases h

theorem inv_done {s : St T A} {t : T} {u : Option (Hd A)} {c n : A} {k : Nat} {o : Obj A} (i : Inv s)
    (hp : s.pc t = .mg5 u c n k) (ho : s.heap c = some o) :
    Inv { s with
        heap := upd s.heap c (some { o with fin := upd o.fin k true })
        pc := upd s.pc t (.mg4 u c n) } := by
  have ht := i.t t
  rw [hp] at ht
  obtain ⟨oc, hc, hnear, hle, hnx, hkc, hkb, hkf⟩ := ht.2.1
  have := ho.symm.trans hc.1
  cases this
  have hfm : ∀ j, o.fin j = true → upd o.fin k true j = true := by
    intro j hj
    by_cases e : j = k
    · subst e; rw [upd_same]
    · rw [upd_ne _ _ e]; exact hj
  have hl : OLe o { o with fin := upd o.fin k true } := ⟨rfl, rfl, Nat.le_refl _, hfm, fun _ h => h⟩
  refine Inv.setObj (t := t) i hc hc.2 hl rfl (fun h => i.g.retired _ _ hc h)
    (fun h => by rw [hnx] at h; cases h) ?_ ?_ (fun _ _ _ _ _ => rfl) ?_ ?_ rfl ?_ ?_ ?_ ?_ ?_
  · intro j hj
    simp only [] at hj ⊢
    by_cases e : j = k
    · subst e; exact hkc
    · rw [upd_ne _ _ e] at hj; exact i.g.finc c o j hc.1 hj
  · intro t' u' n' k' e hq
    simp only []
    refine upd_ne _ _ ?_
    intro e'; subst e'
    exact e (i.own t' t (.blk c k') (by rw [hq]; rfl) (by rw [hp]; rfl))
  · have fr : Frame s { s with
        heap := upd s.heap c (some { o with fin := upd o.fin k true })
        pc := upd s.pc t (.mg4 u c n) } (.mg4 u c n) :=
      Frame.set (nh := s.nHelper) (p := .mg4 u c n) (o' := { o with fin := upd o.fin k true }) hc hc.2 hl
        (fun _ _ _ h => by cases h) (fun _ _ _ => rfl) (by intro h; cases h)
    exact fr.tinv ⟨ht.1, ⟨o, hc, hnear, hle, hnx⟩, ht.2.2⟩
  · intro x hx; cases hx
  · intro c' hc'; rw [hp]; exact hc'
  · rw [hp]; rfl
  · intro h n; rw [hp]; intro h; cases h
  · intro j h1 h2
    simp only [] at h1 h2 ⊢
    by_cases e : j = k
    · subst e; exact .inl (upd_same _ _ _)
    · rcases i.blocks c o j hc h1 h2 with h' | ⟨t', h'⟩
      · exact .inl (hfm j h')
      · refine .inr (.inr ⟨t', ?_, h'⟩)
        intro e'; subst e'; rw [hp] at h'; cases h'; exact e rfl
  · intro b j e h; rw [hp] at h; cases h; exact e rfl

theorem inv_retire {s : St T A} {t : T} {h : Hd A} {o : Obj A} (i : Inv s) (hp : s.pc t = .eg5 h)
    (ho : s.heap h.tab = some o) :
    Inv { s with
        heap := upd s.heap h.tab (some { o with retired := true })
        pc := upd s.pc t (.ldU .idle h) } := by
  have ht := i.t t
  rw [hp] at ht
  obtain ⟨oc, hc, hv, hlt, hr⟩ := ht
  have := ho.symm.trans hc.1
  cases this
  have hl : OLe o { o with retired := true } := ⟨rfl, rfl, Nat.le_refl _, fun _ h => h, fun _ h => h⟩
  refine Inv.setObj (t := t) i hc hc.2 hl rfl (fun _ => by omega)
    (fun h' => i.g.calm h.tab o ho h') (fun k h' => i.g.finc h.tab o k ho h') (fun _ _ _ _ _ _ => rfl) ?_ ?_ ?_ rfl ?_ ?_ ?_ ?_ ?_
  · intro t' h' e hq ht'
    exact absurd (i.own t' t (.ret h.tab) (by rw [hq, ← ht']; rfl) (by rw [hp]; rfl)) e
  · have fr : Frame s { s with
        heap := upd s.heap h.tab (some { o with retired := true })
        pc := upd s.pc t (.ldU .idle h) } (.ldU .idle h) :=
      Frame.set (nh := s.nHelper) (p := .ldU .idle h) (o' := { o with retired := true }) hc hc.2 hl
        (fun _ _ _ _ => rfl) (fun _ h' => by cases h') (by intro h'; cases h')
    exact fr.tinv (p := .ldU .idle h) ⟨o, hc, hv, Nat.le_of_lt hlt⟩
  · intro x hx; cases hx
  · intro c' hc'; cases hc'
  · rw [hp]; rfl
  · intro h n; rw [hp]; intro h; cases h
  · intro j h1 h2
    rcases i.blocks _ o j hc h1 h2 with h' | ⟨t', h'⟩
    · exact .inl h'
    · refine .inr (.inr ⟨t', ?_, h'⟩)
      intro e'; subst e'; rw [hp] at h'; cases h'
  · intro b j _ h'; rw [hp] at h'; cases h'

/-- Every step keeps the invariant. -/
theorem Inv.step {s s' : St T A} {e : Lab T A} (i : Inv s) (hs : Step s e s') : Inv s' := by
  have g := i.g
  have tp : ∀ {t : T} {p : PC A}, s.pc t = p → TInv s p := fun {t} {p} h => by rw [← h]; exact i.t t
  have nocl : ∀ {p q : PC A}, p.cleared = none → ∀ h, p.cleared = some h →
      q.cleared = some h ∨ ∀ t', (s.pc t').src = none := fun h1 h h2 => by rw [h1] at h2; cases h2
  have nosrc : ∀ {p q : PC A}, p.src = none → ∀ c, p.src = some c → q.src = some c ∨ c = s.glob :=
    fun h1 h h2 => by rw [h1] at h2; cases h2
  cases hs with
  | create hp => exact i.at' hp (Nat.zero_le _) rfl (nocl rfl) (nosrc rfl) nofun rfl
  | pool hp => exact i.at' hp trivial rfl (nocl rfl) (nosrc rfl) nofun rfl
  | poolGo hp => exact i.at' hp (fun _ h => by cases h) rfl (nocl rfl) (nosrc rfl) nofun rfl
  | destroy hp => exact i.at' hp (by have := tp hp; exact this) rfl (nocl rfl) (nosrc rfl) nofun rfl
  | unprot hp =>
    refine i.at' hp ?_ rfl (nocl rfl) (nosrc rfl) nofun rfl
    obtain ⟨_, _, _, h3⟩ := tp hp
    exact h3
  | prot hp ho =>
    exact i.at' hp ⟨(by have := tp hp; exact this), _, (g.globP ho).1, Nat.le_of_eq (g.globP ho).2⟩ rfl (nocl rfl) (nosrc rfl) nofun rfl
  | ldWait hp ho hv => exact i
  | ldDone hp ho hv hc =>
    refine i.at' hp ?_ rfl (nocl rfl) (nosrc rfl) nofun rfl
    obtain ⟨_, o', h1, _⟩ := tp hp
    have := ho.symm.trans h1.1
    cases this
    exact ⟨_, h1, rfl, Nat.le_of_eq hv⟩
  | ldUse hp ho hv =>
    refine i.at' hp ?_ rfl (nocl rfl) (nosrc rfl) nofun rfl
    obtain ⟨_, o', h1, _⟩ := tp hp
    have := ho.symm.trans h1.1
    cases this
    exact ⟨_, h1, rfl, Nat.le_of_eq hv⟩
  | gtOk hp he => exact i.at' hp (by have := tp hp; exact this) rfl (nocl rfl) (nosrc rfl) nofun rfl
  | gtOld hp he => exact i.at' hp (by have := tp hp; exact this) rfl (nocl rfl) (nosrc rfl) nofun rfl
  | op hp ho => exact i
  | exitDone hp => exact i.at' hp (by have := tp hp; exact this) rfl (nocl rfl) (nosrc rfl) nofun rfl
  | exitGrow hp => exact i.at' hp (by have := tp hp; exact this) rfl (nocl rfl) (nosrc rfl) nofun rfl
  | exitHelp hp ho hn =>
    refine i.at' hp ?_ rfl (nocl rfl) (nosrc rfl) nofun rfl
    intro h' e
    cases e
    obtain ⟨o', h1, h2, h3⟩ := tp hp
    have := ho.symm.trans h1.1
    cases this
    exact ⟨_, h1, h2, h3, hn⟩
  | grMake n hp ho hb => exact inv_grMake i hp ho hb
  | grCas hp ho hn hb => exact inv_grCas i hp ho hn hb
  | grFail hp ho hn =>
    refine i.at' hp ?_ rfl (nocl rfl) (nosrc rfl) nofun rfl
    obtain ⟨⟨o', h1, h2, h3⟩, h4⟩ := tp hp
    have := ho.symm.trans h1.1
    cases this
    exact ⟨⟨_, h1, h2, h3, hn⟩, h4⟩
  | grDel hp => exact inv_grDel i hp
  | mgIn hp =>
    rename_i t u
    refine Inv.quiet (t := t) (p := .mg1 u) i rfl rfl rfl rfl rfl (by have := tp hp; exact this) (by rw [hp]; rfl) (nocl rfl) (nosrc rfl) (by rw [hp]; nofun) ?_
    exact helpers_in (s := s) rfl i.helpers rfl (by rw [hp]; rfl) rfl
  | mgProt hp ho =>
    refine i.at' hp ⟨(by have := tp hp; exact this), _, (g.globP ho).1, .inl rfl, ?_, trivial⟩ rfl (nocl rfl) ?_ nofun rfl
    · intro h' e
      obtain ⟨_, h1, h2, h3, _⟩ := (show OptH _ (HoldN s) from (by have := tp hp; exact this)) h' e
      show h'.ep ≤ _
      rw [(g.globP ho).2]
      exact Nat.le_trans h3 (vg_bounds s).1
    · intro c hc; cases hc; exact .inr rfl
  | mgNull hp ho hn =>
    obtain ⟨h1, o', h2, h3, h4, _⟩ := tp hp
    have := ho.symm.trans h2.1
    cases this
    exact i.at' hp ⟨hold_taken g h2 h1 h4 (.inl hn) h3, _, h2, h3, h4, trivial⟩ rfl (nocl rfl)
      (fun c hc => .inl hc) nofun rfl
  | mgSome hp ho hn =>
    obtain ⟨h1, o', h2, h3, h4, _⟩ := tp hp
    have := ho.symm.trans h2.1
    cases this
    exact i.at' hp ⟨h1, _, h2, h3, h4, hn⟩ rfl (nocl rfl) (fun c hc => .inl hc) nofun rfl
  | mgNext hp ho hn hon =>
    obtain ⟨h1, o', h2, h3, h4, _⟩ := tp hp
    have := ho.symm.trans h2.1
    cases this
    exact i.at' hp ⟨h1, ⟨_, h2, h3, h4, hn⟩, near_next g h2 h3 hn⟩ rfl (nocl rfl) (fun c hc => .inl hc) nofun rfl
  | claim hp ho hk => exact inv_claim i hp ho hk
  | leave hp ho hk => exact inv_leave i hp ho hk
  | work hp ho hon => exact i
  | done hp ho => exact inv_done i hp ho
  | mgOut hp =>
    rename_i t u c n
    obtain ⟨h1, ⟨o', h2, _⟩, h3⟩ := tp hp
    refine Inv.quiet (t := t) (p := .mg7 u c n) i rfl rfl rfl rfl rfl ⟨h1, ⟨o', h2⟩, h3⟩ (by rw [hp]; rfl) (nocl rfl) (nosrc rfl) (by rw [hp]; nofun) ?_
    exact helpers_out (s := s) rfl i.helpers rfl (by rw [hp]; rfl) rfl
  | mgUn hp hon =>
    obtain ⟨h1, _, h3⟩ := tp hp
    exact i.at' hp ⟨h1, h3⟩ rfl (nocl rfl) (nosrc rfl) nofun rfl
  | mgUn2 hp =>
    rename_i t u n
    obtain ⟨h1, h3⟩ := tp hp
    have e := after_own u
    exact i.at' hp (tinv_after h1) e.1 (nocl e.2.1) (nosrc e.2.2.1) nofun e.2.2.2
  | mgNo hp =>
    rename_i t u c
    obtain ⟨h1, ⟨o', h2, _⟩⟩ := tp hp
    refine Inv.quiet (t := t) (p := .mg9 u c) i rfl rfl rfl rfl rfl ⟨h1, o', h2⟩ (by rw [hp]; rfl) (nocl rfl) (nosrc rfl) (by rw [hp]; nofun) ?_
    exact helpers_out (s := s) rfl i.helpers rfl (by rw [hp]; rfl) rfl
  | mgNoUn hp ho =>
    rename_i t u c o
    obtain ⟨h1, h3⟩ := tp hp
    have e := after_own u
    exact i.at' hp (tinv_after h1) e.1 (nocl e.2.1) (nosrc e.2.2.1) nofun e.2.2.2
  | egWait hp hn => exact i
  | egGo hp hn =>
    obtain ⟨o, h1, h2, h3, h4, h5⟩ := tp hp
    refine i.at' hp ⟨o, h1, h2, h3, h4, h5, ?_, trivial⟩ rfl ?_ (nosrc rfl) nofun rfl
    · intro k hk
      rcases i.blocks _ o k h1 (Nat.lt_of_lt_of_le hk h5) hk with h | ⟨t', h⟩
      · exact h
      · have := no_src_of_zero i hn t'
        rw [PC.blk_zone h] at this; cases this
    · intro _ _
      exact .inr (fun t' => PC.src_zone (no_src_of_zero i hn t'))
  | egNext hp ho =>
    obtain ⟨o', h1, h2, h3, h4, h5, h6, _⟩ := tp hp
    have := ho.symm.trans h1.1
    cases this
    exact i.at' hp ⟨_, h1, h2, h3, h4, h5, h6, rfl⟩ rfl (fun h hh => .inl hh) (nosrc rfl) nofun rfl
  | egCas hp hg => exact inv_egCas i hp hg
  | egFail hp hg =>
    obtain ⟨o', h1, h2, h3, _⟩ := tp hp
    exact i.at' hp ⟨_, h1, h2, h3⟩ rfl (nocl rfl) (nosrc rfl) nofun rfl
  | egEpoch hp ho => exact inv_egEpoch i hp ho
  | egRetire hp ho => exact inv_retire i hp ho
  | free ho hr hn => exact inv_free i ho hr hn

theorem Inv.reach {a : A} {n : Nat} {l : List (Lab T A)} {s : St T A} (h : Reach a n l s) : Inv s := by
  induction h with
  | init => exact Inv.init a n
  | step _ hs ih => exact ih.step hs

/-- How a step changes an object that exists before and after it. -/
theorem step_ole {s s' : St T A} {e : Lab T A} (hs : Step s e s') {x : A} {o o' : Obj A}
    (ho : s.heap x = some o) (ho' : s'.heap x = some o') : OLe o o' := by
  have same : s.heap x = some o' → OLe o o' := by
    intro hp
    rw [ho] at hp; cases hp
    exact OLe.refl o
  have set : ∀ {c : A} {oc oc' : Obj A}, s.heap c = some oc → OLe oc oc' →
      upd s.heap c (some oc') x = some o' → OLe o o' := by
    intro c oc oc' hc hl hx
    by_cases e : x = c
    · subst e
      rw [upd_same] at hx; cases hx
      rw [ho] at hc; cases hc
      exact hl
    · rw [upd_ne _ _ e] at hx; exact same hx
  have drop : ∀ {c : A}, upd s.heap c none x = some o' → OLe o o' := by
    intro c hx
    by_cases e : x = c
    · subst e; rw [upd_same] at hx; cases hx
    · rw [upd_ne _ _ e] at hx; exact same hx
  cases hs <;> first | exact same ho' | skip
  case grMake =>
    rename_i t hd b oh n hp hoh hb
    simp only [] at ho'
    by_cases e : x = b
    · subst e; rw [ho] at hb; cases hb
    · rw [upd_ne _ _ e] at ho'; exact same ho'
  case grCas =>
    rename_i t hd b oh ob hp hoh hn2 hb
    simp only [] at ho'
    by_cases e1 : x = hd.tab
    · subst e1
      rw [upd_same] at ho'; cases ho'
      rw [ho] at hoh; cases hoh
      exact ⟨rfl, rfl, Nat.le_refl _, fun _ h => h, fun c hc => by rw [hn2] at hc; cases hc⟩
    · rw [upd_ne _ _ e1] at ho'
      exact set (oc' := { ob with priv := false }) hb ⟨rfl, rfl, Nat.le_refl _, fun _ h => h, fun _ h => h⟩ ho'
  case grDel => exact drop ho'
  case claim =>
    rename_i t u c n oc hp hoc hk
    exact set (oc' := { oc with claimed := oc.claimed + 1 }) hoc
      ⟨rfl, rfl, Nat.le_succ _, fun _ h => h, fun _ h => h⟩ ho'
  case leave =>
    rename_i t u c n oc hp hoc hk
    exact set (oc' := { oc with claimed := oc.claimed + 1 }) hoc
      ⟨rfl, rfl, Nat.le_succ _, fun _ h => h, fun _ h => h⟩ ho'
  case done =>
    rename_i t u c n j oc hp hoc
    refine set (oc' := { oc with fin := upd oc.fin j true }) hoc ⟨rfl, rfl, Nat.le_refl _, fun k hk => ?_, fun _ h => h⟩ ho'
    by_cases e : k = j
    · subst e; exact upd_same _ _ _
    · simp only []; rw [upd_ne _ _ e]; exact hk
  case egRetire =>
    rename_i t hd oc hp hoc
    exact set (oc' := { oc with retired := true }) hoc ⟨rfl, rfl, Nat.le_refl _, fun _ h => h, fun _ h => h⟩ ho'
  case free => exact drop ho'

end
end Async
end Growt
