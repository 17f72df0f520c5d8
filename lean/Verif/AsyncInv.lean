import Verif.Async

/-! # Asynchronous growth: the invariant of the protocol -/

set_option linter.unusedSectionVars false

namespace Growt
namespace Async
section
variable {T A : Type} [DecidableEq T] [DecidableEq A]

@[simp] theorem upd_same {I X : Type} [DecidableEq I] (f : I → X) (i : I) (x : X) : upd f i x i = x := by
  simp [upd]

theorem upd_ne {I X : Type} [DecidableEq I] (f : I → X) {i j : I} (x : X) (h : j ≠ i) :
    upd f i x j = f j := by
  simp [upd, h]

/-- A table that threads other than its creator may know. (proof, no code) -/
def Pub (s : St T A) (a : A) (o : Obj A) : Prop := s.heap a = some o ∧ o.priv = false

/-- The version of the current table. (proof, no code) -/
def St.vg (s : St T A) : Nat := if s.glob = s.cur then s.epoch else s.epoch + 1

/-- How an object may change while it exists. (proof, no code) -/
structure OLe (o o' : Obj A) : Prop where
  ver : o'.ver = o.ver
  blocks : o'.blocks = o.blocks
  claimed : o.claimed ≤ o'.claimed
  fin : ∀ k, o.fin k = true → o'.fin k = true
  next : ∀ b, o.next = some b → o'.next = some b

theorem OLe.refl (o : Obj A) : OLe o o := ⟨rfl, rfl, Nat.le_refl _, fun _ h => h, fun _ h => h⟩

/-- The objects. (proof, no code) -/
structure GInv (s : St T A) : Prop where
  glob : ∃ o, Pub s s.glob o ∧ o.ver = s.vg
  cur : ∃ o, Pub s s.cur o ∧ o.ver = s.epoch
  lt : ∀ a o, Pub s a o → o.ver ≤ s.vg + 1
  top : ∀ a o og, Pub s a o → o.ver = s.vg + 1 → s.heap s.glob = some og → og.next = some a
  inj : ∀ a o b ob, Pub s a o → Pub s b ob → o.ver = ob.ver → a = b
  next : ∀ a o, Pub s a o → o.next ≠ none → o.ver ≤ s.epoch
  retired : ∀ a o, Pub s a o → o.retired = true → o.ver < s.epoch
  old : ∀ a o, Pub s a o → o.ver < s.vg →
    o.next ≠ none ∧ o.blocks ≤ o.claimed ∧ ∀ k, k < o.blocks → o.fin k = true
  prev : ∀ a o, Pub s a o → o.ver + 1 = s.vg → o.next = some s.glob
  succ : ∀ o b, s.heap s.glob = some o → o.next = some b → ∃ ob, Pub s b ob ∧ ob.ver = s.vg + 1
  calm : ∀ a o, s.heap a = some o → o.next = none → o.claimed = 0
  priv : ∀ a o, s.heap a = some o → o.priv = true → o.retired = false
  finc : ∀ a o k, s.heap a = some o → o.fin k = true → k < o.claimed

/-- The handle has a table with this version. (proof, no code) -/
def Hold (s : St T A) (h : Hd A) : Prop := ∃ o, Pub s h.tab o ∧ o.ver = h.ep ∧ h.ep ≤ s.epoch

/-- … and the table has a successor. (proof, no code) -/
def HoldN (s : St T A) (h : Hd A) : Prop :=
  ∃ o, Pub s h.tab o ∧ o.ver = h.ep ∧ h.ep ≤ s.epoch ∧ o.next ≠ none

/-- … and all its blocks are taken. (proof, no code) -/
def HoldX (s : St T A) (h : Hd A) : Prop :=
  ∃ o, Pub s h.tab o ∧ o.ver = h.ep ∧ h.ep ≤ s.epoch ∧ o.next ≠ none ∧ o.blocks ≤ o.claimed

/-- … and all its blocks are migrated. (proof, no code) -/
def HoldD (s : St T A) (h : Hd A) (q : Option A → Prop) : Prop :=
  ∃ o, Pub s h.tab o ∧ o.ver = h.ep ∧ h.ep ≤ s.epoch ∧ o.next ≠ none ∧ o.blocks ≤ o.claimed ∧
    (∀ k, k < o.blocks → o.fin k = true) ∧ q o.next

/-- The same for the handle of a migrating thread, if it has one. (proof, no code) -/
def OptH (u : Option (Hd A)) (p : Hd A → Prop) : Prop := ∀ h, u = some h → p h

/-- The current table or its predecessor. (proof, no code) -/
def Near (s : St T A) (c : A) (o : Obj A) : Prop := c = s.glob ∨ o.next = some s.glob

/-- The table that a thread migrates. (proof, no code) -/
def Src (s : St T A) (u : Option (Hd A)) (c : A) (q : Obj A → Prop) : Prop :=
  ∃ o, Pub s c o ∧ Near s c o ∧ OptH u (fun h => h.ep ≤ o.ver) ∧ q o

/-- What is known about a thread. (proof, no code) -/
def TInv (s : St T A) : PC A → Prop
  | .fresh | .pool => True
  | .idle h | .gone h | .ldU _ h | .use h | .gr1 h => Hold s h
  | .ldP _ v => v ≤ s.epoch
  | .ldW _ v a => v ≤ s.epoch ∧ ∃ o, Pub s a o ∧ o.ver ≤ s.vg
  | .gr2 h b => Hold s h ∧ ∃ ob, s.heap b = some ob ∧ ob.priv = true ∧ ob.ver = h.ep + 1 ∧
      ob.next = none ∧ ob.retired = false
  | .gr3 h b => HoldN s h ∧ ∃ ob, s.heap b = some ob ∧ ob.priv = true ∧ ob.ver = h.ep + 1 ∧
      ob.next = none ∧ ob.retired = false
  | .mg0 u | .mg1 u => OptH u (HoldN s)
  | .mg2 u c => OptH u (HoldN s) ∧ Src s u c (fun _ => True)
  | .mg3 u c => OptH u (HoldN s) ∧ Src s u c (fun o => o.next ≠ none)
  | .mg4 u c n => OptH u (HoldN s) ∧ Src s u c (fun o => o.next = some n) ∧ ∃ on, Pub s n on
  | .mg5 u c n k => OptH u (HoldN s) ∧
      Src s u c (fun o => o.next = some n ∧ k < o.claimed ∧ k < o.blocks ∧ o.fin k = false) ∧
      ∃ on, Pub s n on
  | .mg6 u c n => OptH u (HoldX s) ∧ Src s u c (fun o => o.next = some n) ∧ ∃ on, Pub s n on
  | .mg7 u c n => OptH u (HoldX s) ∧ (∃ o, Pub s c o) ∧ ∃ on, Pub s n on
  | .mg7b u n => OptH u (HoldX s) ∧ ∃ on, Pub s n on
  | .mg8 u c => OptH u (HoldX s) ∧ Src s u c (fun _ => True)
  | .mg9 u c => OptH u (HoldX s) ∧ ∃ o, Pub s c o
  | .eg1 h => HoldX s h
  | .eg2 h => HoldD s h (fun _ => True)
  | .eg3 h nx => HoldD s h (fun x => x = nx)
  | .eg4 h n => Hold s h ∧ s.glob = n ∧ s.cur = h.tab ∧ s.glob ≠ s.cur
  | .eg5 h => ∃ o, Pub s h.tab o ∧ o.ver = h.ep ∧ h.ep < s.epoch ∧ o.retired = false

/-- What only one thread may own: a new table, the right to retire a table, a block. (proof, no code) -/
inductive Own (A : Type) where
  | new (b : A)
  | ret (a : A)
  | blk (c : A) (k : Nat)

/-- Proof, no code. -/
def PC.own : PC A → Option (Own A)
  | .gr2 _ b | .gr3 _ b => some (.new b)
  | .eg4 h _ | .eg5 h => some (.ret h.tab)
  | .mg5 _ c _ k => some (.blk c k)
  | _ => none

/-- Counted in `_n_helper`. (proof, no code) -/
def PC.zone : PC A → Bool
  | .mg1 _ | .mg2 _ _ | .mg3 _ _ | .mg4 _ _ _ | .mg5 _ _ _ _ | .mg6 _ _ _ | .mg8 _ _ => true
  | _ => false

/-- The table that a counted thread has protected. (proof, no code) -/
def PC.src : PC A → Option A
  | .mg2 _ c | .mg3 _ c | .mg4 _ c _ | .mg5 _ c _ _ | .mg6 _ c _ | .mg8 _ c => some c
  | _ => none

/-- Threads that have seen `_n_helper == 0`. (proof, no code) -/
def PC.cleared : PC A → Option (Hd A)
  | .eg2 h | .eg3 h _ => some h
  | _ => none

/-- The invariant. (proof, no code) -/
structure Inv (s : St T A) : Prop where
  g : GInv s
  t : ∀ t, TInv s (s.pc t)
  own : ∀ t t' x, (s.pc t).own = some x → (s.pc t').own = some x → t = t'
  cross : ∀ t t' h c, (s.pc t).cleared = some h → (s.pc t').src = some c → h.tab = s.glob → c = s.glob
  helpers : ∃ l : List T, l.Nodup ∧ (∀ t, t ∈ l ↔ (s.pc t).zone = true) ∧ l.length = s.nHelper
  blocks : ∀ a o k, Pub s a o → k < o.claimed → k < o.blocks → o.fin k = true ∨
    ∃ t, (s.pc t).own = some (.blk a k)
  pub : s.glob ≠ s.cur → ∃ t h, s.pc t = .eg4 h s.glob

theorem Hold.vle {s : St T A} {h : Hd A} (hh : Hold s h) : h.ep ≤ s.vg := by
  obtain ⟨_, _, _, h3⟩ := hh
  unfold St.vg; split <;> omega

theorem vg_bounds (s : St T A) : s.epoch ≤ s.vg ∧ s.vg ≤ s.epoch + 1 := by
  unfold St.vg; split <;> omega

theorem Inv.init (a : A) (n : Nat) : Inv (St.init a n : St T A) := by
  have hp : ∀ b o, Pub (St.init a n : St T A) b o →
      b = a ∧ o = ⟨0, n, 0, fun _ => false, none, false, false⟩ := by
    intro b o hb
    have h1 := hb.1
    simp only [St.init] at h1
    by_cases e : b = a
    · rw [if_pos e] at h1; exact ⟨e, (Option.some.inj h1).symm⟩
    · rw [if_neg e] at h1; cases h1
  have hv : (St.init a n : St T A).vg = 0 := by simp [St.vg, St.init]
  have hpa : Pub (St.init a n : St T A) a ⟨0, n, 0, fun _ => false, none, false, false⟩ :=
    ⟨by simp [St.init], rfl⟩
  refine ⟨⟨⟨_, hpa, hv.symm⟩, ⟨_, hpa, rfl⟩, ?_, ?_, ?_, ?_, ?_, ?_, ?_, ?_, ?_, ?_, ?_⟩, fun _ => trivial, ?_, ?_, ?_,
    ?_, fun h => absurd rfl h⟩
  · intro b o hb; rw [(hp b o hb).2]; exact Nat.zero_le _
  · intro b o og hb hv'; rw [(hp b o hb).2, hv] at hv'; cases hv'
  · intro b o c oc hb hc _; rw [(hp b o hb).1, (hp c oc hc).1]
  · intro b o hb hn; rw [(hp b o hb).2] at hn; exact absurd rfl hn
  · intro b o hb hn; rw [(hp b o hb).2] at hn; cases hn
  · intro b o hb hn; rw [hv] at hn; exact absurd hn (Nat.not_lt_zero _)
  · intro b o hb hn; rw [hv] at hn; cases hn
  · intro o b ho hn
    have := hpa.1.symm.trans ho
    cases this; cases hn
  · intro b o hb _
    simp only [St.init] at hb
    split at hb
    · cases hb; rfl
    · cases hb
  · intro b o hb hq
    simp only [St.init] at hb
    split at hb
    · cases hb; rfl
    · cases hb
  · intro b o k hb hq
    simp only [St.init] at hb
    split at hb
    · cases hb; cases hq
    · cases hb
  · intro t t' x h; cases h
  · intro t t' h c hh; cases hh
  · exact ⟨[], List.nodup_nil, fun t => ⟨fun h => (by cases h), fun h => (by cases h)⟩, rfl⟩
  · intro b o k hb hk; rw [(hp b o hb).2] at hk; exact absurd hk (Nat.not_lt_zero _)

/-! ## Steps of other threads -/

/-- What a step leaves in place for the other threads. (proof, no code) -/
structure Frame (s s' : St T A) (p : PC A) : Prop where
  pub : ∀ a o, a ∈ p.prot → Pub s a o → ∃ o', Pub s' a o' ∧ OLe o o' ∧
    (∀ u n k, p = .mg5 u a n k → o'.fin k = o.fin k) ∧ (∀ h, p = .eg5 h → o'.retired = o.retired)
  epoch : s.epoch ≤ s'.epoch
  vg : s.vg ≤ s'.vg
  near : ∀ c o o', p.src = some c → Pub s c o → Pub s' c o' → OLe o o' → Near s c o → Near s' c o'
  new : ∀ b, p.own = some (.new b) → s'.heap b = s.heap b
  ret : ∀ h n, p = .eg4 h n → s'.glob = s.glob ∧ s'.cur = s.cur

theorem OLe.next_ne {o o' : Obj A} (h : OLe o o') (hn : o.next ≠ none) : o'.next ≠ none := by
  cases e : o.next with
  | none => exact absurd e hn
  | some b => rw [h.next b e]; intro h; cases h

theorem OLe.next_eq {o o' : Obj A} (h : OLe o o') (hn : o.next ≠ none) : o'.next = o.next := by
  cases e : o.next with
  | none => exact absurd e hn
  | some b => exact h.next b e

theorem Frame.hold {s s' : St T A} {p : PC A} (f : Frame s s' p) {h : Hd A} (hm : h.tab ∈ p.prot)
    (hh : Hold s h) : Hold s' h := by
  obtain ⟨o, h1, h2, h3⟩ := hh
  obtain ⟨o', p1, p2, _⟩ := f.pub _ _ hm h1
  exact ⟨o', p1, by rw [p2.ver]; exact h2, Nat.le_trans h3 f.epoch⟩

theorem Frame.holdN {s s' : St T A} {p : PC A} (f : Frame s s' p) {h : Hd A} (hm : h.tab ∈ p.prot)
    (hh : HoldN s h) : HoldN s' h := by
  obtain ⟨o, h1, h2, h3, h4⟩ := hh
  obtain ⟨o', p1, p2, _⟩ := f.pub _ _ hm h1
  exact ⟨o', p1, by rw [p2.ver]; exact h2, Nat.le_trans h3 f.epoch, p2.next_ne h4⟩

theorem Frame.holdX {s s' : St T A} {p : PC A} (f : Frame s s' p) {h : Hd A} (hm : h.tab ∈ p.prot)
    (hh : HoldX s h) : HoldX s' h := by
  obtain ⟨o, h1, h2, h3, h4, h5⟩ := hh
  obtain ⟨o', p1, p2, _⟩ := f.pub _ _ hm h1
  exact ⟨o', p1, by rw [p2.ver]; exact h2, Nat.le_trans h3 f.epoch, p2.next_ne h4,
    by rw [p2.blocks]; exact Nat.le_trans h5 p2.claimed⟩

theorem Frame.holdD {s s' : St T A} {p : PC A} (f : Frame s s' p) {h : Hd A} (hm : h.tab ∈ p.prot)
    {q : Option A → Prop} (hh : HoldD s h q) : HoldD s' h q := by
  obtain ⟨o, h1, h2, h3, h4, h5, h6, h7⟩ := hh
  obtain ⟨o', p1, p2, _⟩ := f.pub _ _ hm h1
  exact ⟨o', p1, by rw [p2.ver]; exact h2, Nat.le_trans h3 f.epoch, p2.next_ne h4,
    by rw [p2.blocks]; exact Nat.le_trans h5 p2.claimed,
    fun k hk => p2.fin k (h6 k (by rw [← p2.blocks]; exact hk)), by rw [p2.next_eq h4]; exact h7⟩

theorem mem_utab {h : Hd A} {u : Option (Hd A)} (hu : u = some h) : h.tab ∈ utab u := by
  subst hu; exact List.mem_singleton.2 rfl

theorem Frame.src {s s' : St T A} {p : PC A} (f : Frame s s' p) {u : Option (Hd A)} {c : A}
    (hm : c ∈ p.prot) (hc : p.src = some c) {q q' : Obj A → Prop}
    (hq : ∀ o o', OLe o o' → (∀ u n k, p = .mg5 u c n k → o'.fin k = o.fin k) → q o → q' o')
    (hh : Src s u c q) : Src s' u c q' := by
  obtain ⟨o, h1, h2, h3, h4⟩ := hh
  obtain ⟨o', p1, p2, p3, _⟩ := f.pub _ _ hm h1
  exact ⟨o', p1, f.near _ _ _ hc h1 p1 p2 h2, fun h hu => by rw [p2.ver]; exact h3 h hu, hq _ _ p2 p3 h4⟩

theorem Frame.ex {s s' : St T A} {p : PC A} (f : Frame s s' p) {c : A} (hm : c ∈ p.prot)
    (hh : ∃ o, Pub s c o) : ∃ o, Pub s' c o := by
  obtain ⟨o, h1⟩ := hh
  obtain ⟨o', p1, _⟩ := f.pub _ _ hm h1
  exact ⟨o', p1⟩

theorem Frame.tinv {s s' : St T A} {p : PC A} (f : Frame s s' p) (h : TInv s p) : TInv s' p := by
  have one : ∀ x : A, x ∈ [x] := fun x => List.mem_singleton.2 rfl
  have c1 : ∀ (x : A) l, x ∈ x :: l := fun x l => List.mem_cons_self
  have c2 : ∀ (x y : A) l, y ∈ x :: y :: l := fun x y l => List.mem_cons_of_mem _ List.mem_cons_self
  have u1 : ∀ (x : A) {h : Hd A} {u}, u = some h → h.tab ∈ x :: utab u :=
    fun x _ _ hu => List.mem_cons_of_mem _ (mem_utab hu)
  have u2 : ∀ (x y : A) {h : Hd A} {u}, u = some h → h.tab ∈ x :: y :: utab u :=
    fun x y _ _ hu => List.mem_cons_of_mem _ (List.mem_cons_of_mem _ (mem_utab hu))
  have nx : ∀ n (o o' : Obj A), OLe o o' → o.next = some n → o'.next = some n :=
    fun n o o' hl hn => hl.next n hn
  cases p with
  | fresh => trivial
  | pool => trivial
  | idle h' => exact f.hold (one _) h
  | gone h' => exact f.hold (one _) h
  | ldU c h' => exact f.hold (one _) h
  | use h' => exact f.hold (one _) h
  | gr1 h' => exact f.hold (one _) h
  | ldP c v => exact Nat.le_trans h f.epoch
  | ldW c v a =>
    obtain ⟨h0, o, h1, h2⟩ := h
    obtain ⟨o', p1, p2, _⟩ := f.pub _ _ (one _) h1
    exact ⟨Nat.le_trans h0 f.epoch, o', p1, by rw [p2.ver]; exact Nat.le_trans h2 f.vg⟩
  | gr2 h' b => exact ⟨f.hold (one _) h.1, by rw [f.new b rfl]; exact h.2⟩
  | gr3 h' b => exact ⟨f.holdN (one _) h.1, by rw [f.new b rfl]; exact h.2⟩
  | mg0 u => exact fun h' hu => f.holdN (mem_utab hu) (h h' hu)
  | mg1 u => exact fun h' hu => f.holdN (mem_utab hu) (h h' hu)
  | mg2 u c => exact ⟨fun h' hu => f.holdN (u1 c hu) (h.1 h' hu), f.src (c1 c _) rfl (fun _ _ _ _ _ => trivial) h.2⟩
  | mg3 u c => exact ⟨fun h' hu => f.holdN (u1 c hu) (h.1 h' hu),
      f.src (c1 c _) rfl (fun _ _ hl _ hn => hl.next_ne hn) h.2⟩
  | mg4 u c n => exact ⟨fun h' hu => f.holdN (u2 c n hu) (h.1 h' hu),
      f.src (c1 c _) rfl (fun _ _ hl _ hn => nx _ _ _ hl hn) h.2.1, f.ex (c2 c n _) h.2.2⟩
  | mg5 u c n k => exact ⟨fun h' hu => f.holdN (u2 c n hu) (h.1 h' hu),
      f.src (c1 c _) rfl (fun o o' hl hf hn => ⟨nx _ _ _ hl hn.1, Nat.lt_of_lt_of_le hn.2.1 hl.claimed,
        by rw [hl.blocks]; exact hn.2.2.1, by rw [hf u n k rfl]; exact hn.2.2.2⟩) h.2.1,
      f.ex (c2 c n _) h.2.2⟩
  | mg6 u c n => exact ⟨fun h' hu => f.holdX (u2 c n hu) (h.1 h' hu),
      f.src (c1 c _) rfl (fun _ _ hl _ hn => nx _ _ _ hl hn) h.2.1, f.ex (c2 c n _) h.2.2⟩
  | mg7 u c n => exact ⟨fun h' hu => f.holdX (u2 c n hu) (h.1 h' hu), f.ex (c1 c _) h.2.1, f.ex (c2 c n _) h.2.2⟩
  | mg7b u n => exact ⟨fun h' hu => f.holdX (u1 n hu) (h.1 h' hu), f.ex (c1 n _) h.2⟩
  | mg8 u c => exact ⟨fun h' hu => f.holdX (u1 c hu) (h.1 h' hu), f.src (c1 c _) rfl (fun _ _ _ _ _ => trivial) h.2⟩
  | mg9 u c => exact ⟨fun h' hu => f.holdX (u1 c hu) (h.1 h' hu), f.ex (c1 c _) h.2⟩
  | eg1 h' => exact f.holdX (one _) h
  | eg2 h' => exact f.holdD (one _) (q := fun _ => True) h
  | eg3 h' nx => exact f.holdD (one _) (q := fun x => x = nx) h
  | eg4 h' n =>
    have e := f.ret h' n rfl
    exact ⟨f.hold (one _) h.1, by rw [e.1]; exact h.2.1, by rw [e.2]; exact h.2.2.1, by rw [e.1, e.2]; exact h.2.2.2⟩
  | eg5 h' =>
    obtain ⟨o, h1, h2, h3, h4⟩ := h
    obtain ⟨o', p1, p2, _, p4⟩ := f.pub _ _ (one _) h1
    exact ⟨o', p1, by rw [p2.ver]; exact h2, Nat.lt_of_lt_of_le h3 f.epoch, by rw [p4 h' rfl]; exact h4⟩

/-! ## Putting the parts together -/

theorem PC.not_both (p : PC A) {h : Hd A} {c : A} (h1 : p.cleared = some h) (h2 : p.src = some c) : False := by
  cases p <;> simp_all [PC.cleared, PC.src]

theorem helpers_same {s s' : St T A} {t : T} {p : PC A} (hpc : s'.pc = upd s.pc t p)
    (hh : ∃ l : List T, l.Nodup ∧ (∀ t, t ∈ l ↔ (s.pc t).zone = true) ∧ l.length = s.nHelper)
    (hz : p.zone = (s.pc t).zone) (hn : s'.nHelper = s.nHelper) :
    ∃ l : List T, l.Nodup ∧ (∀ t, t ∈ l ↔ (s'.pc t).zone = true) ∧ l.length = s'.nHelper := by
  obtain ⟨l, h1, h2, h3⟩ := hh
  refine ⟨l, h1, fun x => ?_, by rw [hn]; exact h3⟩
  rw [hpc]
  by_cases e : x = t
  · subst e; rw [upd_same, hz]; exact h2 x
  · rw [upd_ne _ _ e]; exact h2 x

theorem helpers_in {s s' : St T A} {t : T} {p : PC A} (hpc : s'.pc = upd s.pc t p)
    (hh : ∃ l : List T, l.Nodup ∧ (∀ t, t ∈ l ↔ (s.pc t).zone = true) ∧ l.length = s.nHelper)
    (hz : p.zone = true) (ho : (s.pc t).zone = false) (hn : s'.nHelper = s.nHelper + 1) :
    ∃ l : List T, l.Nodup ∧ (∀ t, t ∈ l ↔ (s'.pc t).zone = true) ∧ l.length = s'.nHelper := by
  obtain ⟨l, h1, h2, h3⟩ := hh
  have hm : t ∉ l := fun h => by rw [h2, ho] at h; cases h
  refine ⟨t :: l, List.nodup_cons.2 ⟨hm, h1⟩, fun x => ?_, by rw [hn, List.length_cons, h3]⟩
  rw [hpc]
  by_cases e : x = t
  · subst e; rw [upd_same]; simp [hz]
  · rw [upd_ne _ _ e, List.mem_cons, h2 x]; simp [e]

theorem helpers_out {s s' : St T A} {t : T} {p : PC A} (hpc : s'.pc = upd s.pc t p)
    (hh : ∃ l : List T, l.Nodup ∧ (∀ t, t ∈ l ↔ (s.pc t).zone = true) ∧ l.length = s.nHelper)
    (hz : p.zone = false) (ho : (s.pc t).zone = true) (hn : s'.nHelper = s.nHelper - 1) :
    ∃ l : List T, l.Nodup ∧ (∀ t, t ∈ l ↔ (s'.pc t).zone = true) ∧ l.length = s'.nHelper := by
  obtain ⟨l, h1, h2, h3⟩ := hh
  have hm : t ∈ l := (h2 t).2 ho
  refine ⟨l.erase t, h1.erase t, fun x => ?_, by rw [hn, List.length_erase_of_mem hm, h3]⟩
  rw [hpc]
  by_cases e : x = t
  · subst e; rw [upd_same, hz]; simp [h1.not_mem_erase]
  · rw [upd_ne _ _ e, List.mem_erase_of_ne e]; exact h2 x

/-- All parts of the invariant after a step of thread `t`. -/
theorem Inv.mk' {s s' : St T A} {t : T} {p : PC A} (i : Inv s) (hpc : s'.pc = upd s.pc t p)
    (hg : GInv s') (hp : TInv s' p) (hf : ∀ t', t' ≠ t → Frame s s' (s.pc t'))
    (hown : ∀ x, p.own = some x → ∀ t', t' ≠ t → (s.pc t').own ≠ some x)
    (hcl : ∀ h, p.cleared = some h → h.tab = s'.glob → ∀ t' c, t' ≠ t → (s.pc t').src = some c → c = s'.glob)
    (hsrc : ∀ c, p.src = some c → ∀ t' h, t' ≠ t → (s.pc t').cleared = some h → h.tab = s'.glob → c = s'.glob)
    (hcr : ∀ t1 t2 h c, t1 ≠ t → t2 ≠ t → (s.pc t1).cleared = some h → (s.pc t2).src = some c →
      h.tab = s'.glob → c = s'.glob)
    (hh : ∃ l : List T, l.Nodup ∧ (∀ t, t ∈ l ↔ (s'.pc t).zone = true) ∧ l.length = s'.nHelper)
    (hb : ∀ a o k, Pub s' a o → k < o.claimed → k < o.blocks → o.fin k = true ∨
      p.own = some (.blk a k) ∨ ∃ t', t' ≠ t ∧ (s.pc t').own = some (.blk a k))
    (hpub : s'.glob ≠ s'.cur → (∃ h, p = .eg4 h s'.glob) ∨ ∃ t' h, t' ≠ t ∧ s.pc t' = .eg4 h s'.glob) :
    Inv s' := by
  refine ⟨hg, ?_, ?_, ?_, hh, ?_, ?_⟩
  · intro x
    rw [hpc]
    by_cases e : x = t
    · subst e; rw [upd_same]; exact hp
    · rw [upd_ne _ _ e]; exact (hf x e).tinv (i.t x)
  · intro x y z hx hy
    rw [hpc] at hx hy
    by_cases ex : x = t <;> by_cases ey : y = t
    · rw [ex, ey]
    · subst ex; rw [upd_same] at hx; rw [upd_ne _ _ ey] at hy; exact absurd hy (hown z hx y ey)
    · subst ey; rw [upd_same] at hy; rw [upd_ne _ _ ex] at hx; exact absurd hx (hown z hy x ex)
    · rw [upd_ne _ _ ex] at hx; rw [upd_ne _ _ ey] at hy; exact i.own x y z hx hy
  · intro x y h c hx hy hgl
    rw [hpc] at hx hy
    by_cases ex : x = t <;> by_cases ey : y = t
    · subst ex; subst ey; rw [upd_same] at hx hy; exact (PC.not_both _ hx hy).elim
    · subst ex; rw [upd_same] at hx; rw [upd_ne _ _ ey] at hy; exact hcl h hx hgl y c ey hy
    · subst ey; rw [upd_same] at hy; rw [upd_ne _ _ ex] at hx; exact hsrc c hy x h ex hx hgl
    · rw [upd_ne _ _ ex] at hx; rw [upd_ne _ _ ey] at hy; exact hcr x y h c ex ey hx hy hgl
  · intro a o k h1 h2 h3
    rcases hb a o k h1 h2 h3 with h | h | ⟨t', e, h⟩
    · exact .inl h
    · exact .inr ⟨t, by rw [hpc, upd_same]; exact h⟩
    · exact .inr ⟨t', by rw [hpc, upd_ne _ _ e]; exact h⟩
  · intro hne
    rcases hpub hne with ⟨h, e⟩ | ⟨t', h, e, h2⟩
    · exact ⟨t, h, by rw [hpc, upd_same]; exact e⟩
    · exact ⟨t', h, by rw [hpc, upd_ne _ _ e]; exact h2⟩

/-- A step that changes at most the number of helpers. -/
theorem Frame.same {s s' : St T A} (hh : s'.heap = s.heap) (hgl : s'.glob = s.glob) (hc : s'.cur = s.cur)
    (he : s'.epoch = s.epoch) (p : PC A) : Frame s s' p := by
  have hp : ∀ a o, Pub s a o → Pub s' a o := fun a o h => ⟨by rw [hh]; exact h.1, h.2⟩
  refine ⟨fun a o _ h => ⟨o, hp a o h, OLe.refl o, fun _ _ _ _ => rfl, fun _ _ => rfl⟩, Nat.le_of_eq he.symm,
    (by unfold St.vg; rw [hgl, hc, he]; exact Nat.le_refl _), ?_,
    fun b _ => by rw [hh], fun _ _ _ => ⟨hgl, hc⟩⟩
  intro c o o' _ _ _ hl hn
  rcases hn with hn | hn
  · exact .inl (by rw [hgl]; exact hn)
  · exact .inr (by rw [hgl]; exact hl.next _ hn)

theorem GInv.same {s s' : St T A} (g : GInv s) (hh : s'.heap = s.heap) (hgl : s'.glob = s.glob)
    (hc : s'.cur = s.cur) (he : s'.epoch = s.epoch) : GInv s' := by
  obtain ⟨g1, e1, n1, p1, h1, c1⟩ := s
  obtain ⟨g2, e2, n2, p2, h2, c2⟩ := s'
  simp only at hh hgl hc he
  subst hh hgl hc he
  exact ⟨g.glob, g.cur, g.lt, g.top, g.inj, g.next, g.retired, g.old, g.prev, g.succ, g.calm, g.priv, g.finc⟩

/-- A step of `t` that leaves the tables alone. -/
theorem Inv.quiet {s s' : St T A} {t : T} {p : PC A} (i : Inv s) (hpc : s'.pc = upd s.pc t p)
    (hh : s'.heap = s.heap) (hgl : s'.glob = s.glob) (hc : s'.cur = s.cur) (he : s'.epoch = s.epoch)
    (hp : TInv s' p) (hown : p.own = (s.pc t).own)
    (hcl : ∀ h, p.cleared = some h → (s.pc t).cleared = some h ∨ ∀ t', (s.pc t').src = none)
    (hsrc : ∀ c, p.src = some c → (s.pc t).src = some c ∨ c = s.glob)
    (h4 : ∀ h n, s.pc t ≠ .eg4 h n)
    (hz : ∃ l : List T, l.Nodup ∧ (∀ t, t ∈ l ↔ (s'.pc t).zone = true) ∧ l.length = s'.nHelper) : Inv s' := by
  refine Inv.mk' i hpc (i.g.same hh hgl hc he) hp (fun _ _ => Frame.same hh hgl hc he _) ?_ ?_ ?_ ?_ hz ?_ ?_
  · intro x hx t' e hx'
    exact e (i.own t' t x hx' (by rw [← hown]; exact hx))
  · intro h hx htab t' c e hs
    rw [hgl] at *
    rcases hcl h hx with h1 | h1
    · exact i.cross t t' h c h1 hs htab
    · rw [h1 t'] at hs; cases hs
  · intro c hx t' h e hs htab
    rw [hgl] at *
    rcases hsrc c hx with h1 | h1
    · exact i.cross t' t h c hs h1 htab
    · exact h1
  · intro t1 t2 h c _ _ h1 h2 h3
    rw [hgl] at *
    exact i.cross t1 t2 h c h1 h2 h3
  · intro a o k h1 h2 h3
    rcases i.blocks a o k ⟨by rw [← hh]; exact h1.1, h1.2⟩ h2 h3 with h | ⟨t', h⟩
    · exact .inl h
    · by_cases e : t' = t
      · subst e; exact .inr (.inl (by rw [hown]; exact h))
      · exact .inr (.inr ⟨t', e, h⟩)
  · intro hne
    rw [hgl, hc] at hne
    obtain ⟨t', h, hp'⟩ := i.pub hne
    refine .inr ⟨t', h, ?_, by rw [hgl]; exact hp'⟩
    intro e; subst e; exact h4 _ _ hp'

theorem Inv.at' {s : St T A} {t : T} {p q : PC A} (i : Inv s) (hq : s.pc t = q) (hp : TInv s p)
    (hown : p.own = q.own) (hcl : ∀ h, p.cleared = some h → q.cleared = some h ∨ ∀ t', (s.pc t').src = none)
    (hsrc : ∀ c, p.src = some c → q.src = some c ∨ c = s.glob) (h4 : ∀ h n, q ≠ .eg4 h n)
    (hz : p.zone = q.zone) : Inv (s.at t p) := by
  subst hq
  exact Inv.quiet (s' := s.at t p) i rfl rfl rfl rfl rfl hp hown hcl hsrc h4 (helpers_same rfl i.helpers hz rfl)

/-- A change of one public object. -/
theorem GInv.set {s : St T A} (g : GInv s) {a : A} {o o' : Obj A} (ho : Pub s a o) (hp : o'.priv = false)
    (hv : o'.ver = o.ver) (hb : o'.blocks = o.blocks) (hc : o.claimed ≤ o'.claimed)
    (hf : ∀ k, o.fin k = true → o'.fin k = true) (hn : o'.next = o.next)
    (hr : o'.retired = true → o.ver < s.epoch) (hcalm : o.next = none → o'.claimed = 0)
    (hfc : ∀ k, o'.fin k = true → k < o'.claimed)
    {pc : T → PC A} {nh : Nat} :
    GInv { s with heap := upd s.heap a (some o'), pc := pc, nHelper := nh } := by
  -- every public object comes from one before the step
  have back : ∀ b ob, Pub ({ s with heap := upd s.heap a (some o'), pc := pc, nHelper := nh } : St T A) b ob →
      ∃ o0, Pub s b o0 ∧ ob.ver = o0.ver ∧ ob.blocks = o0.blocks ∧ o0.claimed ≤ ob.claimed ∧
        (∀ k, o0.fin k = true → ob.fin k = true) ∧ ob.next = o0.next ∧
        (ob.retired = true → o0.ver < s.epoch) := by
    intro b ob hb'
    have h1 := hb'.1
    simp only [] at h1
    by_cases e : b = a
    · subst e
      rw [upd_same] at h1
      cases h1
      exact ⟨o, ho, hv, hb, hc, hf, hn, hr⟩
    · rw [upd_ne _ _ e] at h1
      exact ⟨ob, ⟨h1, hb'.2⟩, rfl, rfl, Nat.le_refl _, fun _ h => h, rfl, fun h => g.retired b ob ⟨h1, hb'.2⟩ h⟩
  have forth : ∀ b ob, Pub s b ob → ∃ o1,
      Pub ({ s with heap := upd s.heap a (some o'), pc := pc, nHelper := nh } : St T A) b o1 ∧
        o1.ver = ob.ver ∧ o1.next = ob.next := by
    intro b ob hb'
    by_cases e : b = a
    · subst e
      have := ho.1.symm.trans hb'.1
      cases this
      exact ⟨o', ⟨by simp only []; rw [upd_same], hp⟩, hv, hn⟩
    · exact ⟨ob, ⟨by simp only []; rw [upd_ne _ _ e]; exact hb'.1, hb'.2⟩, rfl, rfl⟩
  have gl : ∀ og, upd s.heap a (some o') s.glob = some og → ∃ o0, s.heap s.glob = some o0 ∧ og.next = o0.next := by
    intro og h
    by_cases e : s.glob = a
    · rw [e, upd_same] at h; cases h; exact ⟨o, by rw [e]; exact ho.1, hn⟩
    · rw [upd_ne _ _ e] at h; exact ⟨og, h, rfl⟩
  refine ⟨?_, ?_, ?_, ?_, ?_, ?_, ?_, ?_, ?_, ?_, ?_, ?_, ?_⟩
  · obtain ⟨og, h1, h2⟩ := g.glob
    obtain ⟨o1, p1, p2, _⟩ := forth _ _ h1
    exact ⟨o1, p1, p2.trans h2⟩
  · obtain ⟨og, h1, h2⟩ := g.cur
    obtain ⟨o1, p1, p2, _⟩ := forth _ _ h1
    exact ⟨o1, p1, p2.trans h2⟩
  · intro b ob h1
    obtain ⟨o0, p0, p1, _⟩ := back b ob h1
    rw [p1]; exact g.lt b o0 p0
  · intro b ob og h1 h2 h3
    obtain ⟨o0, p0, p1, _⟩ := back b ob h1
    obtain ⟨o3, p3, p4⟩ := gl og h3
    rw [p4]; exact g.top b o0 o3 p0 (by rw [← p1]; exact h2) p3
  · intro b ob c oc h1 h2 h3
    obtain ⟨o0, p0, p1, _⟩ := back b ob h1
    obtain ⟨o2, p2, p3, _⟩ := back c oc h2
    exact g.inj b o0 c o2 p0 p2 (by rw [← p1, ← p3]; exact h3)
  · intro b ob h1 h2
    obtain ⟨o0, p0, p1, _, _, _, p5, _⟩ := back b ob h1
    rw [p1]; exact g.next b o0 p0 (by rw [← p5]; exact h2)
  · intro b ob h1 h2
    obtain ⟨o0, p0, p1, _, _, _, _, p6⟩ := back b ob h1
    rw [p1]; exact p6 h2
  · intro b ob h1 h2
    obtain ⟨o0, p0, p1, p2, p3, p4, p5, _⟩ := back b ob h1
    have h := g.old b o0 p0 (by rw [← p1]; exact h2)
    exact ⟨by rw [p5]; exact h.1, by rw [p2]; exact Nat.le_trans h.2.1 p3,
      fun k hk => p4 k (h.2.2 k (by rw [← p2]; exact hk))⟩
  · intro b ob h1 h2
    obtain ⟨o0, p0, p1, _, _, _, p5, _⟩ := back b ob h1
    rw [p5]; exact g.prev b o0 p0 (by rw [← p1]; exact h2)
  · intro og b h1 h2
    obtain ⟨o3, p3, p4⟩ := gl og h1
    obtain ⟨ob, q1, q2⟩ := g.succ o3 b p3 (by rw [← p4]; exact h2)
    obtain ⟨o1, r1, r2, _⟩ := forth _ _ q1
    exact ⟨o1, r1, r2.trans q2⟩
  · intro b ob h1 h2
    simp only [] at h1
    by_cases e : b = a
    · subst e
      rw [upd_same] at h1; cases h1
      exact hcalm (by rw [← hn]; exact h2)
    · rw [upd_ne _ _ e] at h1; exact g.calm b ob h1 h2
  · intro b ob h1 h2
    simp only [] at h1
    by_cases e : b = a
    · subst e
      rw [upd_same] at h1; cases h1
      rw [hp] at h2; cases h2
    · rw [upd_ne _ _ e] at h1; exact g.priv b ob h1 h2
  · intro b ob k h1 h2
    simp only [] at h1
    by_cases e : b = a
    · subst e
      rw [upd_same] at h1; cases h1
      exact hfc k h2
    · rw [upd_ne _ _ e] at h1; exact g.finc b ob k h1 h2

/-- The frame of such a change. -/
theorem Frame.set {s : St T A} {a : A} {o o' : Obj A} (ho : Pub s a o) (hp : o'.priv = false)
    (hl : OLe o o') {pc : T → PC A} {nh : Nat} {p : PC A}
    (hf : ∀ u n k, p = .mg5 u a n k → o'.fin k = o.fin k) (hr : ∀ h, p = .eg5 h → h.tab = a → o'.retired = o.retired)
    (hnew : p.own ≠ some (.new a)) :
    Frame s { s with heap := upd s.heap a (some o'), pc := pc, nHelper := nh } p := by
  refine ⟨?_, Nat.le_refl _, Nat.le_refl _, ?_, ?_, fun _ _ _ => ⟨rfl, rfl⟩⟩
  · intro b ob hm hb
    by_cases e : b = a
    · subst e
      have := ho.1.symm.trans hb.1
      cases this
      refine ⟨o', ⟨by simp only []; rw [upd_same], hp⟩, hl, hf, ?_⟩
      intro h hh
      refine hr h hh ?_
      subst hh
      exact (List.mem_singleton.1 hm).symm
    · exact ⟨ob, ⟨by simp only []; rw [upd_ne _ _ e]; exact hb.1, hb.2⟩, OLe.refl _, fun _ _ _ _ => rfl,
        fun _ _ => rfl⟩
  · intro c oc oc' _ _ _ hle hn
    rcases hn with hn | hn
    · exact .inl hn
    · exact .inr (hle.next _ hn)
  · intro b hb
    by_cases e : b = a
    · subst e; exact absurd hb hnew
    · simp only []; rw [upd_ne _ _ e]

/-! ## The steps -/

theorem TInv.new {s : St T A} {p : PC A} (h : TInv s p) {b : A} (ho : p.own = some (.new b)) :
    ∃ ob, s.heap b = some ob ∧ ob.priv = true := by
  cases p <;> simp only [PC.own, Option.some.injEq, Own.new.injEq, reduceCtorEq] at ho
  · subst ho; obtain ⟨_, ob, h1, h2, _⟩ := h; exact ⟨ob, h1, h2⟩
  · subst ho; obtain ⟨_, ob, h1, h2, _⟩ := h; exact ⟨ob, h1, h2⟩

theorem Inv.not_new {s : St T A} (i : Inv s) {a : A} {o : Obj A} (ha : Pub s a o) (t : T) :
    (s.pc t).own ≠ some (.new a) := by
  intro h
  obtain ⟨ob, h1, h2⟩ := (i.t t).new h
  rw [ha.1] at h1; cases h1
  rw [ha.2] at h2; cases h2

theorem GInv.globP {s : St T A} (g : GInv s) {o : Obj A} (h : s.heap s.glob = some o) :
    Pub s s.glob o ∧ o.ver = s.vg := by
  obtain ⟨o', h1, h2⟩ := g.glob
  have := h.symm.trans h1.1
  cases this
  exact ⟨h1, h2⟩

theorem GInv.curP {s : St T A} (g : GInv s) {o : Obj A} (h : s.heap s.cur = some o) :
    Pub s s.cur o ∧ o.ver = s.epoch := by
  obtain ⟨o', h1, h2⟩ := g.cur
  have := h.symm.trans h1.1
  cases this
  exact ⟨h1, h2⟩

theorem vg_eq {s : St T A} (h : s.vg ≤ s.epoch) : s.glob = s.cur := by
  unfold St.vg at h
  split at h
  · assumption
  · omega

theorem no_src_of_zero {s : St T A} (i : Inv s) (hn : s.nHelper = 0) (t : T) : (s.pc t).zone = false := by
  obtain ⟨l, _, h2, h3⟩ := i.helpers
  have : l = [] := List.length_eq_zero_iff.1 (h3.trans hn)
  subst this
  cases h : (s.pc t).zone
  · rfl
  · exact absurd ((h2 t).2 h) (by simp)

theorem PC.src_zone {p : PC A} (h : p.zone = false) : p.src = none := by
  cases p <;> simp_all [PC.zone, PC.src]

theorem PC.blk_zone {p : PC A} {a : A} {k : Nat} (h : p.own = some (.blk a k)) : p.zone = true := by
  cases p <;> simp_all [PC.zone, PC.own]

/-- The successor of a table near the current one exists. -/
theorem near_next {s : St T A} (g : GInv s) {c n : A} {o : Obj A} (hc : Pub s c o) (hn : Near s c o)
    (hnx : o.next = some n) : ∃ on, Pub s n on := by
  rcases hn with h | h
  · subst h
    obtain ⟨ob, h1, _⟩ := g.succ o n hc.1 hnx
    exact ⟨ob, h1⟩
  · rw [hnx] at h; cases h
    obtain ⟨og, h1, _⟩ := g.glob
    exact ⟨og, h1⟩

/-- At the end of a migration all blocks of the handle's table are taken. -/
theorem hold_taken {s : St T A} (g : GInv s) {u : Option (Hd A)} {c : A} {o : Obj A} (hc : Pub s c o)
    (hu : OptH u (HoldN s)) (hle : OptH u (fun h => h.ep ≤ o.ver))
    (hx : (o.next = none) ∨ o.blocks ≤ o.claimed) (hnear : Near s c o) : OptH u (HoldX s) := by
  intro h e
  obtain ⟨oh, h1, h2, h3, h4⟩ := hu h e
  refine ⟨oh, h1, h2, h3, h4, ?_⟩
  by_cases hv : o.ver = h.ep
  · have : h.tab = c := g.inj _ _ _ _ h1 hc (by rw [h2, hv])
    subst this
    have := h1.1.symm.trans hc.1
    cases this
    rcases hx with hx | hx
    · exact absurd hx h4
    · exact hx
  · have hlt : h.ep < o.ver := Nat.lt_of_le_of_ne (hle h e) (fun h => hv h.symm)
    refine (g.old _ _ h1 ?_).2.1
    have : o.ver ≤ s.vg := by
      rcases hnear with hh | hh
      · subst hh; rw [(g.globP hc.1).2]; exact Nat.le_refl _
      · exact Nat.le_trans (g.next _ _ hc (by rw [hh]; intro h; cases h)) (vg_bounds s).1
    omega

theorem OptH.imp {u : Option (Hd A)} {p q : Hd A → Prop} (h : OptH u p) (f : ∀ h, p h → q h) : OptH u q :=
  fun x hx => f x (h x hx)

theorem HoldN.hold {s : St T A} {h : Hd A} (hh : HoldN s h) : Hold s h := by
  obtain ⟨o, h1, h2, h3, _⟩ := hh; exact ⟨o, h1, h2, h3⟩

theorem HoldX.holdN {s : St T A} {h : Hd A} (hh : HoldX s h) : HoldN s h := by
  obtain ⟨o, h1, h2, h3, h4, _⟩ := hh; exact ⟨o, h1, h2, h3, h4⟩

theorem HoldD.holdX {s : St T A} {h : Hd A} {q} (hh : HoldD s h q) : HoldX s h := by
  obtain ⟨o, h1, h2, h3, h4, h5, _⟩ := hh; exact ⟨o, h1, h2, h3, h4, h5⟩

theorem tinv_after {s : St T A} {u : Option (Hd A)} (h : OptH u (HoldX s)) : TInv s (PC.after u) := by
  cases u with
  | none => trivial
  | some h' => exact h h' rfl

theorem after_own (u : Option (Hd A)) : (PC.after u).own = none ∧ (PC.after u).cleared = none ∧
    (PC.after u).src = none ∧ (PC.after u).zone = false := by
  cases u <;> exact ⟨rfl, rfl, rfl, rfl⟩

/-- An object update by thread `t` that leaves `next` and `priv` alone. -/
theorem Inv.setObj {s : St T A} {t : T} {p : PC A} {a : A} {o o' : Obj A} (i : Inv s) (ho : Pub s a o)
    (hp : o'.priv = false) (hl : OLe o o') (hn : o'.next = o.next)
    (hr : o'.retired = true → o.ver < s.epoch) (hcalm : o.next = none → o'.claimed = 0)
    (hfc : ∀ k, o'.fin k = true → k < o'.claimed)
    (hf : ∀ t' u n k, t' ≠ t → s.pc t' = .mg5 u a n k → o'.fin k = o.fin k)
    (hret : ∀ t' h, t' ≠ t → s.pc t' = .eg5 h → h.tab = a → o'.retired = o.retired)
    (hpt : TInv { s with heap := upd s.heap a (some o'), pc := upd s.pc t p } p)
    (hown : ∀ x, p.own = some x → ∀ t', t' ≠ t → (s.pc t').own ≠ some x)
    (hcl : p.cleared = none) (hsrc : ∀ c, p.src = some c → (s.pc t).src = some c)
    (hz : p.zone = (s.pc t).zone) (h4 : ∀ h n, s.pc t ≠ .eg4 h n)
    (hb : ∀ k, k < o'.claimed → k < o'.blocks → o'.fin k = true ∨
      p.own = some (.blk a k) ∨ ∃ t', t' ≠ t ∧ (s.pc t').own = some (.blk a k))
    (hold : ∀ b k, b ≠ a → (s.pc t).own ≠ some (.blk b k)) :
    Inv { s with heap := upd s.heap a (some o'), pc := upd s.pc t p } := by
  refine Inv.mk' (t := t) (p := p) i rfl
    (i.g.set (nh := s.nHelper) (pc := upd s.pc t p) ho hp hl.ver hl.blocks hl.claimed hl.fin hn hr hcalm hfc) hpt ?_ hown ?_ ?_ ?_ ?_ ?_ ?_
  · intro t' e
    exact Frame.set (nh := s.nHelper) (pc := upd s.pc t p) ho hp hl (fun u n k h => hf t' u n k e h)
      (fun h hh ht => hret t' h e hh ht) (i.not_new ho t')
  · intro h hh; rw [hcl] at hh; cases hh
  · intro c hc t' h _ hh ht
    exact i.cross t' t h c hh (hsrc c hc) ht
  · intro t1 t2 h c _ _ h1 h2 h3
    exact i.cross t1 t2 h c h1 h2 h3
  · exact helpers_same (s := s) rfl i.helpers hz rfl
  · intro b ob k h1 h2 h3
    have h1' := h1.1
    simp only [] at h1'
    by_cases e : b = a
    · subst e
      rw [upd_same] at h1'; cases h1'
      exact hb k h2 h3
    · rw [upd_ne _ _ e] at h1'
      rcases i.blocks b ob k ⟨h1', h1.2⟩ h2 h3 with h | ⟨t', h⟩
      · exact .inl h
      · refine .inr (.inr ⟨t', ?_, h⟩)
        intro et; subst et; exact hold b k e h
  · intro hne
    obtain ⟨t', h, hp'⟩ := i.pub hne
    refine .inr ⟨t', h, ?_, hp'⟩
    intro et; subst et; exact h4 _ _ hp'

theorem pub_set {s : St T A} {a : A} {o' : Obj A} (hp : o'.priv = false) {pc : T → PC A} :
    Pub ({ s with heap := upd s.heap a (some o'), pc := pc } : St T A) a o' := by
  refine ⟨?_, hp⟩
  simp only []
  rw [upd_same]

end
end Async
end Growt
