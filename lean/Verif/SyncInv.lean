import Verif.Sync

/-! # Synchronised growth: the invariant of the protocol -/

set_option linter.unusedSectionVars false

namespace Growt
namespace Sync
section
variable {T A : Type} [DecidableEq T] [DecidableEq A]

/-- The handle of a thread. (proof, no code) -/
def PC.hd : PC A → Option Hd
  | .idle h => some h
  | .gt1 h => some h
  | .gt2 h _ => some h
  | .gt3 h _ => some h
  | .gt4 h => some h
  | .op h _ _ => some h
  | .gr1 h _ => some h
  | .gr2 h _ _ => some h
  | .gr3 h => some h
  | .gr4 h _ _ => some h
  | .gr5 h _ _ => some h
  | .gr6 h _ _ _ => some h
  | .gr7 h _ _ _ _ _ => some h
  | .gr8 h _ _ _ => some h
  | .gr10 h _ _ _ => some h
  | .gr11 h _ _ _ => some h
  | .gr12 h _ _ _ _ _ => some h
  | .gr13 h _ _ _ => some h
  | .gr14 h _ _ => some h
  | .mg1 h _ => some h
  | .mg2 h _ _ _ => some h
  | .mg3 h _ _ _ => some h
  | .mg4 h _ _ _ _ => some h
  | .mg5 h _ _ _ _ _ => some h
  | .mg6 h _ _ _ _ => some h
  | .hg h => some h
  | _ => none

theorem PC.flags_of_hd {p : PC A} {h : Hd} (hh : p.hd = some h) : p.flags = some h.i := by
  cases p <;> simp_all [PC.hd, PC.flags]

/-- A registered handle. (proof, no code) -/
structure Base (s : St T A) (h : Hd) : Prop where
  used : s.used h.i = true
  max : h.i < maxHandles
  last : h.i < s.last
  shell : h.shell = false

/-- The part of a thread's invariant about its own flags. (proof, no code) -/
structure Local (s : St T A) (p : PC A) : Prop where
  base : ∀ h, p.hd = some h → Base s h
  reg : ∀ i, p.flags = some i → s.used i = true ∧ i < maxHandles
  try_ : ∀ i, p = .regTry i → i < maxHandles
  cas : ∀ i n, p = .regCas i n → n ≤ s.last
  gt3 : ∀ h a, p = .gt3 h a → s.ops h.i = some a
  op : ∀ h a v, p = .op h a v → s.ops h.i = some a
  mg3 : ∀ h c a v, p = .mg3 h c a v → s.mig h.i = some a
  mg4 : ∀ h c a v b, p = .mg4 h c a v b → s.mig h.i = some a
  mg5 : ∀ h c a v b k, p = .mg5 h c a v b k → s.mig h.i = some a
  mg6 : ∀ h c a v b, p = .mg6 h c a v b → s.mig h.i = some a

theorem Local.frame {s s' : St T A} {p : PC A} (h : Local s p)
    (hu : ∀ i, p.flags = some i → s'.used i = s.used i ∧ s'.ops i = s.ops i ∧ s'.mig i = s.mig i)
    (hl : s.last ≤ s'.last) : Local s' p := by
  constructor
  · intro hd hh
    have hb := h.base hd hh
    have := hu hd.i (PC.flags_of_hd hh)
    exact ⟨by rw [this.1]; exact hb.used, hb.max, Nat.lt_of_lt_of_le hb.last hl, hb.shell⟩
  · intro i hi
    have := h.reg i hi
    rw [(hu i hi).1]; exact this
  · exact h.try_
  · intro i n hp; exact Nat.le_trans (h.cas i n hp) hl
  · intro hd a hp; rw [(hu hd.i (by rw [hp]; rfl)).2.1]; exact h.gt3 hd a hp
  · intro hd a v hp; rw [(hu hd.i (by rw [hp]; rfl)).2.1]; exact h.op hd a v hp
  · intro hd c a v hp; rw [(hu hd.i (by rw [hp]; rfl)).2.2]; exact h.mg3 hd c a v hp
  · intro hd c a v b hp; rw [(hu hd.i (by rw [hp]; rfl)).2.2]; exact h.mg4 hd c a v b hp
  · intro hd c a v b k hp; rw [(hu hd.i (by rw [hp]; rfl)).2.2]; exact h.mg5 hd c a v b k hp
  · intro hd c a v b hp; rw [(hu hd.i (by rw [hp]; rfl)).2.2]; exact h.mg6 hd c a v b hp

/-- An object that nobody grows yet. (proof, no code) -/
def Obj.fresh (o : Obj A) : Prop := o.next = none ∧ o.claimed = 0

/-- An object all blocks of which have been handed out. (proof, no code) -/
def Obj.old (o : Obj A) : Prop := o.next ≠ none ∧ o.blocks ≤ o.claimed

/-- The highest version a thread may want to grow. (proof, no code) -/
def St.cap (s : St T A) : Int :=
  match s.phase with
  | .quiet => s.epoch + 1
  | _ => s.epoch

/-- Operations: on the current table, and if it is marked, the growing thread still has to look at
these flags. (proof, no code) -/
def St.opOK (s : St T A) (i : Nat) (a : A) : Prop :=
  s.table = .clear a ∨ s.table = .mark a ∧
    match s.phase with
    | .marked _ _ => True
    | .made _ _ _ => True
    | .waitOps _ _ _ n j => j ≤ i ∧ i < n
    | _ => False

/-- Helpers that migrate a block: the growing thread still has to look at these flags. (proof, no code) -/
def St.migOK (s : St T A) (i : Nat) (a : A) (v : Nat) (b : A) : Prop :=
  match s.phase with
  | .migrating a' v' b' => a' = a ∧ v' = v ∧ b' = b
  | .drained a' v' b' => a' = a ∧ v' = v ∧ b' = b
  | .nulled a' v' b' => a' = a ∧ v' = v ∧ b' = b
  | .waitMig a' v' b' n j => (a' = a ∧ v' = v ∧ b' = b) ∧ j ≤ i ∧ i < n
  | _ => False

/-- The growing thread inside `migrate`. (proof, no code) -/
def ContOK (s : St T A) (c : Cont A) : Prop := ∀ a v b, c = .grow a v b → s.phase = .migrating a v b

/-- The table that is being replaced. (proof, no code) -/
def Phase.old : Phase A → Option A
  | .marked a _ => some a
  | .made a _ _ => some a
  | .waitOps a _ _ _ _ => some a
  | .ready a _ _ => some a
  | .migrating a _ _ => some a
  | .drained a _ _ => some a
  | .nulled a _ _ => some a
  | .waitMig a _ _ _ _ => some a
  | .empty a _ _ => some a
  | _ => none

/-- The part of a thread's invariant about the tables. (proof, no code) -/
def Core (s : St T A) : PC A → Prop
  | .op h a v => (∃ o, s.heap a = some o ∧ o.ver = v) ∧ s.opOK h.i a ∧ (v : Int) ≤ s.cap
  | .gr1 _ v => (v : Int) ≤ s.cap
  | .gr2 _ v _ => (v : Int) ≤ s.cap
  | .gr3 _ => s.phase = .begun
  | .gr4 _ a v => s.phase = .begun ∧ s.table = .clear a ∧ ∃ o, s.heap a = some o ∧ o.ver = v
  | .gr5 _ a v => s.phase = .marked a v
  | .gr6 _ a v b => s.phase = .made a v b
  | .gr7 _ a v b n j => s.phase = .waitOps a v b n j
  | .gr8 _ a v b => s.phase = .ready a v b
  | .gr10 _ a v b => s.phase = .drained a v b
  | .gr11 _ a v b => s.phase = .nulled a v b
  | .gr12 _ a v b n j => s.phase = .waitMig a v b n j
  | .gr13 _ a v b => s.phase = .empty a v b
  | .gr14 _ a v => (∃ o, s.heap a = some o ∧ o.ver = v ∧ o.old) ∧ s.table ≠ .clear a ∧
      s.table ≠ .mark a ∧ s.phase.old ≠ some a
  | .mg1 _ c => ContOK s c
  | .mg2 _ c a v => (v : Int) ≤ s.epoch ∧ ∀ a' v' b', c = .grow a' v' b' → s.phase = .migrating a' v' b' ∧ a' = a ∧ v' = v
  | .mg3 _ c a v => (v : Int) ≤ s.epoch ∧ ∀ a' v' b', c = .grow a' v' b' → s.phase = .migrating a' v' b' ∧ a' = a ∧ v' = v
  | .mg4 _ c a v b => (v : Int) ≤ s.epoch ∧ (∀ o, s.heap a = some o → o.ver = v → o.next = some b) ∧
      ∀ a' v' b', c = .grow a' v' b' → s.phase = .migrating a' v' b' ∧ a' = a ∧ v' = v
  | .mg5 h c a v b _ => s.migOK h.i a v b ∧
      ∀ a' v' b', c = .grow a' v' b' → s.phase = .migrating a' v' b' ∧ a' = a ∧ v' = v
  | .mg6 _ c a v b => ∀ a' v' b', c = .grow a' v' b' → s.phase = .migrating a' v' b' ∧ a' = a ∧ v' = v ∧
      ∃ o, s.heap a = some o ∧ o.blocks ≤ o.claimed ∧ o.next = some b
  | _ => True

/-- The growing thread. (proof, no code) -/
def PC.grower : PC A → Bool
  | .gr3 _ => true
  | .gr4 _ _ _ => true
  | .gr5 _ _ _ => true
  | .gr6 _ _ _ _ => true
  | .gr7 _ _ _ _ _ _ => true
  | .gr8 _ _ _ _ => true
  | .gr10 _ _ _ _ => true
  | .gr11 _ _ _ _ => true
  | .gr12 _ _ _ _ _ _ => true
  | .gr13 _ _ _ _ => true
  | .mg1 _ (.grow _ _ _) => true
  | .mg2 _ (.grow _ _ _) _ _ => true
  | .mg3 _ (.grow _ _ _) _ _ => true
  | .mg4 _ (.grow _ _ _) _ _ _ => true
  | .mg5 _ (.grow _ _ _) _ _ _ _ => true
  | .mg6 _ (.grow _ _ _) _ _ _ => true
  | _ => false

/-- The table that a thread is about to delete. (proof, no code) -/
def PC.deletes : PC A → Option A
  | .gr14 _ a _ => some a
  | _ => none

/-- The old and the new table of a growth step. (proof, no code) -/
def St.two (s : St T A) (a : A) (v : Nat) (b : A) (P : Obj A → Prop) : Prop :=
  s.epoch = v ∧ a ≠ b ∧ (∃ o, s.heap a = some o ∧ o.ver = v ∧ P o) ∧
    ∃ o, s.heap b = some o ∧ o.ver = v + 1 ∧ o.fresh

/-- The global part of the invariant. (proof, no code) -/
def Glob (s : St T A) : Prop :=
  match s.phase with
  | .quiet => ∃ a o, s.table = .clear a ∧ s.heap a = some o ∧ o.fresh ∧ s.epoch + 1 = o.ver
  | .begun => ∃ a o, s.table = .clear a ∧ s.heap a = some o ∧ o.fresh ∧ s.epoch = o.ver
  | .marked a v => s.table = .mark a ∧ s.epoch = v ∧ ∃ o, s.heap a = some o ∧ o.ver = v ∧ o.fresh
  | .made a v b => s.table = .mark a ∧ s.two a v b Obj.fresh
  | .waitOps a v b _ _ => s.table = .mark a ∧ s.two a v b Obj.fresh
  | .ready a v b => s.table = .mark a ∧ s.two a v b Obj.fresh
  | .migrating a v b => s.table = .mark a ∧ s.two a v b fun o => o.next = some b
  | .drained a v b => s.table = .mark a ∧ s.two a v b fun o => o.next = some b ∧ o.blocks ≤ o.claimed
  | .nulled a v b => s.table = .null ∧ s.two a v b fun o => o.next = some b ∧ o.blocks ≤ o.claimed
  | .waitMig a v b _ _ => s.table = .null ∧ s.two a v b fun o => o.next = some b ∧ o.blocks ≤ o.claimed
  | .empty a v b => s.table = .null ∧ s.two a v b fun o => o.next = some b ∧ o.blocks ≤ o.claimed

/-- The invariant. (proof, no code) -/
structure SInv (s : St T A) : Prop where
  loc : ∀ t, Local s (s.pc t)
  core : ∀ t, Core s (s.pc t)
  flags : ∀ t t' i, (s.pc t).flags = some i → (s.pc t').flags = some i → t = t'
  grower : ∀ t t', (s.pc t).grower = true → (s.pc t').grower = true → t = t'
  deletes : ∀ t t' a, (s.pc t).deletes = some a → (s.pc t').deletes = some a → t = t'
  glob : Glob s
  heap : ∀ a o, s.heap a = some o → o.next ≠ none → o.claimed < o.blocks →
    ∃ v b, s.phase = .migrating a v b

theorem SInv.build {s s' : St T A} (hI : SInv s) {t : T} {p : PC A} (hpc : s'.pc = upd s.pc t p)
    (hfl : p.flags = none ∨ p.flags = (s.pc t).flags ∨ ∀ i, p.flags = some i → s.used i = false)
    (hgr : p.grower = true → ∀ t', t' ≠ t → (s.pc t').grower = false)
    (hdl : ∀ a, p.deletes = some a → ∀ t', t' ≠ t → (s.pc t').deletes ≠ some a)
    (hloc : Local s' p) (hcore : Core s' p)
    (holoc : ∀ t', t' ≠ t → Local s' (s.pc t'))
    (hocore : ∀ t', t' ≠ t → Core s' (s.pc t'))
    (hglob : Glob s')
    (hheap : ∀ a o, s'.heap a = some o → o.next ≠ none → o.claimed < o.blocks →
      ∃ v b, s'.phase = .migrating a v b) : SInv s' := by
  have hat : s'.pc t = p := by rw [hpc]; simp [upd]
  have hne : ∀ t', t' ≠ t → s'.pc t' = s.pc t' := fun t' h => by rw [hpc]; simp [upd, h]
  have hown : ∀ i, p.flags = some i → ∀ t', t' ≠ t → (s.pc t').flags ≠ some i := by
    intro i hi t' hn hf
    rcases hfl with h | h | h
    · rw [h] at hi; cases hi
    · rw [h] at hi; exact hn (hI.flags _ _ _ hf hi)
    · have := ((hI.loc t').reg i hf).1
      rw [h i hi] at this; cases this
  constructor
  · intro t'
    by_cases h : t' = t
    · subst h; rw [hat]; exact hloc
    · rw [hne t' h]; exact holoc t' h
  · intro t'
    by_cases h : t' = t
    · subst h; rw [hat]; exact hcore
    · rw [hne t' h]; exact hocore t' h
  · intro t1 t2 i h1 h2
    by_cases e1 : t1 = t <;> by_cases e2 : t2 = t
    · rw [e1, e2]
    · subst e1; rw [hat] at h1; rw [hne t2 e2] at h2; exact absurd h2 (hown i h1 t2 e2)
    · subst e2; rw [hat] at h2; rw [hne t1 e1] at h1; exact absurd h1 (hown i h2 t1 e1)
    · rw [hne t1 e1] at h1; rw [hne t2 e2] at h2; exact hI.flags _ _ _ h1 h2
  · intro t1 t2 h1 h2
    by_cases e1 : t1 = t <;> by_cases e2 : t2 = t
    · rw [e1, e2]
    · subst e1; rw [hat] at h1; rw [hne t2 e2, hgr h1 t2 e2] at h2; cases h2
    · subst e2; rw [hat] at h2; rw [hne t1 e1, hgr h2 t1 e1] at h1; cases h1
    · rw [hne t1 e1] at h1; rw [hne t2 e2] at h2; exact hI.grower _ _ h1 h2
  · intro t1 t2 a h1 h2
    by_cases e1 : t1 = t <;> by_cases e2 : t2 = t
    · rw [e1, e2]
    · subst e1; rw [hat] at h1; rw [hne t2 e2] at h2; exact absurd h2 (hdl a h1 t2 e2)
    · subst e2; rw [hat] at h2; rw [hne t1 e1] at h1; exact absurd h1 (hdl a h2 t1 e1)
    · rw [hne t1 e1] at h1; rw [hne t2 e2] at h2; exact hI.deletes _ _ _ h1 h2
  · exact hglob
  · exact hheap

/-- Only one thread grows. -/
theorem SInv.others {s : St T A} (hI : SInv s) {t : T} (h : (s.pc t).grower = true) (t' : T)
    (hne : t' ≠ t) : (s.pc t').grower = false := by
  cases hg : (s.pc t').grower with
  | false => rfl
  | true => exact absurd (hI.grower _ _ hg h) hne

/-- Steps that only move one thread, and perhaps change its flags. -/
theorem SInv.quiet {s s' : St T A} (hI : SInv s) {t : T} {p : PC A} (hpc : s'.pc = upd s.pc t p)
    (htab : s'.table = s.table) (hep : s'.epoch = s.epoch) (hhp : s'.heap = s.heap)
    (hph : s'.phase = s.phase) (hl : s.last ≤ s'.last)
    (hown : ∀ i, (s.pc t).flags = some i ∨ s'.used i = s.used i ∧ s'.ops i = s.ops i ∧ s'.mig i = s.mig i)
    (hfl : p.flags = none ∨ p.flags = (s.pc t).flags)
    (hgr : p.grower = true → (s.pc t).grower = true)
    (hdl : ∀ a, p.deletes = some a → (s.pc t).deletes = some a)
    (hloc : Local s' p) (hcore : Core s p) : SInv s' := by
  have hco : ∀ q, Core s q → Core s' q := by
    intro q hq
    cases q <;> simp only [Core, St.opOK, St.migOK, St.cap, ContOK] at hq ⊢ <;>
      simp only [htab, hep, hhp, hph] <;> exact hq
  have hgl : Glob s' := by
    have := hI.glob
    unfold Glob St.two at this ⊢
    simp only [htab, hep, hhp, hph]; exact this
  refine hI.build hpc (by rcases hfl with h | h; exact .inl h; exact .inr (.inl h)) ?_ ?_ hloc
    (hco _ hcore) ?_ (fun t' _ => hco _ (hI.core t')) hgl ?_
  · intro h; exact hI.others (hgr h)
  · intro a h t' hn hd; exact hn (hI.deletes _ _ _ hd (hdl a h))
  · intro t' hn
    refine (hI.loc t').frame ?_ hl
    intro i hi
    rcases hown i with h | h
    · exact absurd (hI.flags _ _ _ hi h) hn
    · exact h
  · rw [hhp, hph]; exact hI.heap


/-- Threads whose invariant says something about `ops_protect` or `mig_protect`. (proof, no code) -/
def PC.special : PC A → Bool
  | .gt3 _ _ => true
  | .op _ _ _ => true
  | .mg3 _ _ _ _ => true
  | .mg4 _ _ _ _ _ => true
  | .mg5 _ _ _ _ _ _ => true
  | .mg6 _ _ _ _ _ => true
  | _ => false

theorem Local.simple {s : St T A} {p : PC A} {h : Hd} (hp : p.hd = some h) (hb : Base s h)
    (hs : p.special = false) : Local s p := by
  have hf := PC.flags_of_hd hp
  constructor
  · intro h' hh; rw [hp] at hh; cases hh; exact hb
  · intro i hi; rw [hf] at hi; cases hi; exact ⟨hb.used, hb.max⟩
  all_goals
    intros
    subst_vars
    first
      | (simp [PC.hd] at hp; done)
      | (simp [PC.special] at hs; done)

theorem Local.gt3' {s : St T A} {h : Hd} {a : A} (hb : Base s h) (ho : s.ops h.i = some a) :
    Local s (.gt3 h a) := by
  have h1 := hb.used
  have h2 := hb.max
  constructor <;> intros <;> simp_all [PC.hd, PC.flags]

theorem Local.op' {s : St T A} {h : Hd} {a : A} {v : Nat} (hb : Base s h) (ho : s.ops h.i = some a) :
    Local s (.op h a v) := by
  have h1 := hb.used
  have h2 := hb.max
  constructor <;> intros <;> simp_all [PC.hd, PC.flags]

theorem Local.mg3' {s : St T A} {h : Hd} {c : Cont A} {a : A} {v : Nat} (hb : Base s h)
    (ho : s.mig h.i = some a) : Local s (.mg3 h c a v) := by
  have h1 := hb.used
  have h2 := hb.max
  constructor <;> intros <;> simp_all [PC.hd, PC.flags]

theorem Local.mg4' {s : St T A} {h : Hd} {c : Cont A} {a b : A} {v : Nat} (hb : Base s h)
    (ho : s.mig h.i = some a) : Local s (.mg4 h c a v b) := by
  have h1 := hb.used
  have h2 := hb.max
  constructor <;> intros <;> simp_all [PC.hd, PC.flags]

theorem Local.mg5' {s : St T A} {h : Hd} {c : Cont A} {a b : A} {v k : Nat} (hb : Base s h)
    (ho : s.mig h.i = some a) : Local s (.mg5 h c a v b k) := by
  have h1 := hb.used
  have h2 := hb.max
  constructor <;> intros <;> simp_all [PC.hd, PC.flags]

theorem Local.mg6' {s : St T A} {h : Hd} {c : Cont A} {a b : A} {v : Nat} (hb : Base s h)
    (ho : s.mig h.i = some a) : Local s (.mg6 h c a v b) := by
  have h1 := hb.used
  have h2 := hb.max
  constructor <;> intros <;> simp_all [PC.hd, PC.flags]

theorem Local.none {s : St T A} {p : PC A} (hp : p = .out ∨ (∃ i, p = .reg i) ∨ p = .lost) : Local s p := by
  rcases hp with rfl | ⟨i, rfl⟩ | rfl <;> constructor <;> intros <;> simp_all [PC.hd, PC.flags]

/-- The handle of a thread is registered. -/
theorem SInv.base {s : St T A} (hI : SInv s) {t : T} {p : PC A} {h : Hd} (hp : s.pc t = p)
    (hh : p.hd = some h) : Base s h := (hI.loc t).base h (by rw [hp]; exact hh)

/-- A step that only moves one thread. -/
theorem SInv.goto {s : St T A} (hI : SInv s) {t : T} {p q : PC A} (hp : s.pc t = q)
    (hfl : p.flags = Option.none ∨ p.flags = q.flags)
    (hgr : p.grower = true → q.grower = true)
    (hdl : ∀ a, p.deletes = some a → q.deletes = some a)
    (hloc : Local s p) (hcore : Core s p) : SInv (s.at t p) := by
  subst hp
  exact hI.quiet rfl rfl rfl rfl rfl (Nat.le_refl _) (fun i => .inr ⟨rfl, rfl, rfl⟩) hfl hgr hdl
    (hloc.frame (fun _ _ => ⟨rfl, rfl, rfl⟩) (Nat.le_refl _)) hcore

theorem Base.at {s : St T A} {h : Hd} (hb : Base s h) (t : T) (p : PC A) : Base (s.at t p) h :=
  ⟨hb.used, hb.max, hb.last, hb.shell⟩

theorem upd_self {X Y : Type} [DecidableEq X] (f : X → Y) (x : X) (y : Y) : upd f x y x = y := by
  simp [upd]

theorem upd_ne {X Y : Type} [DecidableEq X] (f : X → Y) {x z : X} (y : Y) (h : z ≠ x) :
    upd f x y z = f z := by simp [upd, h]

/-- Steps of the growing thread, seen from the other threads. -/
theorem Core.other {s s' : St T A} {q : PC A} (hq : Core s q) (hg : q.grower = false)
    (hop : ∀ h a v, q = .op h a v → (∃ o, s'.heap a = some o ∧ o.ver = v) ∧ s'.opOK h.i a)
    (hcap : s.cap ≤ s'.cap) (hep : s.epoch ≤ s'.epoch)
    (hde : ∀ h a v, q = .gr14 h a v → Core s' q)
    (h4 : ∀ a (v : Nat) b, (v : Int) ≤ s.epoch → (∀ o, s.heap a = some o → o.ver = v → o.next = some b) →
      ∀ o, s'.heap a = some o → o.ver = v → o.next = some b)
    (h5 : ∀ h c a v b k, q = .mg5 h c a v b k → s.migOK h.i a v b → s'.migOK h.i a v b) :
    Core s' q := by
  cases q with
  | op h a v => exact ⟨(hop h a v rfl).1, (hop h a v rfl).2, Int.le_trans hq.2.2 hcap⟩
  | gr1 h v => exact Int.le_trans hq hcap
  | gr2 h v e => exact Int.le_trans hq hcap
  | gr14 h a v => exact hde h a v rfl
  | mg1 h c => cases c with
    | help => intro a v b h; cases h
    | grow a v b => cases hg
  | mg2 h c a v => cases c with
    | help => exact ⟨Int.le_trans hq.1 hep, fun _ _ _ h => by cases h⟩
    | grow a v b => cases hg
  | mg3 h c a v => cases c with
    | help => exact ⟨Int.le_trans hq.1 hep, fun _ _ _ h => by cases h⟩
    | grow a v b => cases hg
  | mg4 h c a v b => cases c with
    | help => exact ⟨Int.le_trans hq.1 hep, h4 a v b hq.1 hq.2.1, fun _ _ _ h => by cases h⟩
    | grow a v b => cases hg
  | mg5 h c a v b k => cases c with
    | help => exact ⟨h5 _ _ _ _ _ _ rfl hq.1, fun _ _ _ h => by cases h⟩
    | grow a v b => cases hg
  | mg6 h c a v b => cases c with
    | help => intro _ _ _ h; cases h
    | grow a v b => cases hg
  | gr3 | gr4 | gr5 | gr6 | gr7 | gr8 | gr10 | gr11 | gr12 | gr13 => cases hg
  | _ => trivial


theorem Base.copy {s s' : St T A} {h : Hd} (hb : Base s h) (hu : s'.used = s.used)
    (hl : s.last ≤ s'.last) : Base s' h :=
  ⟨by rw [hu]; exact hb.used, hb.max, Nat.lt_of_lt_of_le hb.last hl, hb.shell⟩

/-- Without a growth step there is no growing thread. -/
theorem SInv.grower_none {s : St T A} (hI : SInv s) (hq : s.phase = .quiet) (t : T) :
    (s.pc t).grower = false := by
  have hc := hI.core t
  generalize s.pc t = q at hc
  cases q with
  | mg1 h c => cases c with
    | help => rfl
    | grow a v b => have := hc _ _ _ rfl; rw [hq] at this; cases this
  | mg2 h c a v => cases c with
    | help => rfl
    | grow a v b => have := (hc.2 _ _ _ rfl).1; rw [hq] at this; cases this
  | mg3 h c a v => cases c with
    | help => rfl
    | grow a v b => have := (hc.2 _ _ _ rfl).1; rw [hq] at this; cases this
  | mg4 h c a v b => cases c with
    | help => rfl
    | grow a v b => have := (hc.2.2 _ _ _ rfl).1; rw [hq] at this; cases this
  | mg5 h c a v b k => cases c with
    | help => rfl
    | grow a v b => have := (hc.2 _ _ _ rfl).1; rw [hq] at this; cases this
  | mg6 h c a v b => cases c with
    | help => rfl
    | grow a v b => have := (hc _ _ _ rfl).1; rw [hq] at this; cases this
  | gr4 => have := hc.1; rw [hq] at this; cases this
  | gr3 | gr5 | gr6 | gr7 | gr8 | gr10 | gr11 | gr12 | gr13 =>
    simp only [Core, hq] at hc; cases hc
  | _ => rfl

/-- Steps of the growing thread that only move it to another stage of the same growth step. -/
theorem SInv.stage {s s' : St T A} (hI : SInv s) {t : T} {p q : PC A} (hp : s.pc t = q)
    (hgq : q.grower = true)
    (hpc : s'.pc = upd s.pc t p)
    (htab : s'.table = s.table) (hep : s'.epoch = s.epoch) (hhp : s'.heap = s.heap)
    (hus : s'.used = s.used) (hops : s'.ops = s.ops) (hmig : s'.mig = s.mig) (hl : s'.last = s.last)
    (hfl : p.flags = q.flags)
    (hdl : ∀ a, p.deletes = some a → False)
    (hloc : Local s' p) (hcore : Core s' p) (hglob : Glob s')
    (hq1 : s.phase ≠ .quiet) (hq2 : s'.cap = s.epoch)
    (hmg : ∀ a v b, s.phase ≠ .migrating a v b)
    (hold : s'.phase.old = s.phase.old)
    (hopok : ∀ i a, i < s.last → s.ops i = some a → s.opOK i a → s'.opOK i a)
    (hmigok : ∀ i a v b, i < s.last → s.mig i = some a → s.migOK i a v b → s'.migOK i a v b) : SInv s' := by
  subst hp
  have hcap : s.cap = s.epoch := by
    unfold St.cap
    cases h : s.phase <;> simp_all
  refine hI.build hpc (.inr (.inl hfl)) (fun _ => hI.others hgq) (fun a h => (hdl a h).elim) hloc hcore
    (fun t' _ => (hI.loc t').frame (fun _ _ => by simp [hus, hops, hmig]) (by simp [hl])) ?_ hglob ?_
  · intro t' hn
    have hb := (hI.loc t').base
    refine (hI.core t').other (hI.others hgq t' hn) ?_ (by rw [hcap, hq2]; exact Int.le_refl _)
      (by rw [hep]; exact Int.le_refl _) ?_ ?_ ?_
    · intro h a v hq'
      have hc := hI.core t'
      rw [hq'] at hc
      rw [hhp]
      exact ⟨hc.1, hopok _ _ (hb h (by rw [hq']; rfl)).last ((hI.loc t').op h a v hq') hc.2.1⟩
    · intro h a v hq'
      have hc := hI.core t'
      rw [hq'] at hc ⊢
      simp only [Core] at hc ⊢
      rw [hhp, htab, hold]; exact hc
    · rw [hhp]; intro _ _ _ _ h; exact h
    · intro h c a v b k hq' hm
      exact hmigok _ _ _ _ (hb h (by rw [hq']; rfl)).last ((hI.loc t').mg5 h c a v b k hq') hm
  · intro a o h1 h2 h3
    rw [hhp] at h1
    obtain ⟨v, b, h4⟩ := hI.heap a o h1 h2 h3
    exact absurd h4 (hmg a v b)

/-- A marked table is the one being grown. -/
theorem SInv.marked {s : St T A} (hI : SInv s) {a : A} {o : Obj A} (ht : s.table = .mark a)
    (ho : s.heap a = some o) : s.epoch = o.ver := by
  have hg := hI.glob
  unfold Glob St.two at hg
  cases hph : s.phase <;> simp only [hph, ht] at hg
  case marked =>
    obtain ⟨g1, g2, o', g3, g4, -⟩ := hg
    cases g1; rw [ho] at g3; cases g3; omega
  case quiet => obtain ⟨_, _, h, -⟩ := hg; cases h
  case begun => obtain ⟨_, _, h, -⟩ := hg; cases h
  all_goals
    obtain ⟨g1, g2, -, ⟨o', g3, g4, -⟩, -⟩ := hg
    cases g1
    try (rw [ho] at g3; cases g3; omega)

/-- Handing out a block, seen from the other threads. -/
theorem Core.claimed {s s' : St T A} {q : PC A} (hq : Core s q)
    (htab : s'.table = s.table) (hep : s'.epoch = s.epoch) (hph : s'.phase = s.phase)
    (hkeep : ∀ x o1, s.heap x = some o1 → ∃ o2, s'.heap x = some o2 ∧ o2.ver = o1.ver ∧
      o2.next = o1.next ∧ o2.blocks = o1.blocks ∧ o1.claimed ≤ o2.claimed)
    (hback : ∀ x o2, s'.heap x = some o2 → ∃ o1, s.heap x = some o1) : Core s' q := by
  have hcap : s'.cap = s.cap := by unfold St.cap; rw [hph, hep]
  have hopk : ∀ i x, s.opOK i x → s'.opOK i x := by
    intro i x h; unfold St.opOK at h ⊢; rw [htab, hph]; exact h
  have hmk : ∀ i x v y, s.migOK i x v y → s'.migOK i x v y := by
    intro i x v y h; unfold St.migOK at h ⊢; rw [hph]; exact h
  cases q with
  | op h x v =>
    obtain ⟨⟨o1, h1, h2⟩, h3, h4⟩ := hq
    obtain ⟨o2, r1, r2, -⟩ := hkeep x o1 h1
    exact ⟨⟨o2, r1, by omega⟩, hopk _ _ h3, by rw [hcap]; exact h4⟩
  | gr1 h v => simp only [Core] at hq ⊢; rw [hcap]; exact hq
  | gr2 h v e => simp only [Core] at hq ⊢; rw [hcap]; exact hq
  | gr4 h x v =>
    obtain ⟨h0, h3, ⟨o1, h1, h2⟩⟩ := hq
    obtain ⟨o2, r1, r2, -⟩ := hkeep x o1 h1
    exact ⟨by rw [hph]; exact h0, by rw [htab]; exact h3, o2, r1, by omega⟩
  | gr14 h x v =>
    obtain ⟨⟨o1, h1, h2, h3⟩, h4⟩ := hq
    obtain ⟨o2, r1, r2, r3, r4, r5⟩ := hkeep x o1 h1
    refine ⟨⟨o2, r1, by omega, by rw [r3]; exact h3.1, ?_⟩, by rw [htab, hph]; exact h4⟩
    have := h3.2; omega
  | mg1 h c => intro x v y h; rw [hph]; exact hq x v y h
  | mg2 h c x v => simp only [Core] at hq ⊢; rw [hep, hph]; exact hq
  | mg3 h c x v => simp only [Core] at hq ⊢; rw [hep, hph]; exact hq
  | mg4 h c x v y =>
    simp only [Core] at hq ⊢; rw [hep, hph]
    refine ⟨hq.1, ?_, hq.2.2⟩
    intro o2 h1 h2
    obtain ⟨o1, h3⟩ := hback _ _ h1
    obtain ⟨o3, r1, r2, r3, -⟩ := hkeep x o1 h3
    rw [h1] at r1; cases r1
    rw [r3]; exact hq.2.1 o1 h3 (by omega)
  | mg5 h c x v y k =>
    refine ⟨hmk _ _ _ _ hq.1, ?_⟩
    rw [hph]; exact hq.2
  | mg6 h c x v y =>
    intro a' v' b' hc
    obtain ⟨h1, h2, h3, o1, h4, h5, h6⟩ := hq a' v' b' hc
    obtain ⟨o2, r1, r2, r3, r4, r5⟩ := hkeep x o1 h4
    exact ⟨by rw [hph]; exact h1, h2, h3, o2, r1, by omega, by rw [r3]; exact h6⟩
  | gr3 | gr5 | gr6 | gr7 | gr8 | gr10 | gr11 | gr12 | gr13 =>
    simp only [Core] at hq ⊢; rw [hph]; exact hq
  | _ => trivial


/-- The invariant is preserved. -/
theorem step_inv {s s' : St T A} {l : Lbl T A} (hI : SInv s) (hs : Step false s l s') : SInv s' := by
  cases hs with
  | create hp =>
    exact hI.goto hp (.inl rfl) (by simp [PC.grower]) (by simp [PC.deletes])
      (.none (.inr (.inl ⟨_, rfl⟩))) trivial
  | regUsed hp hi hu =>
    exact hI.goto hp (.inl rfl) (by simp [PC.grower]) (by simp [PC.deletes])
      (.none (.inr (.inl ⟨_, rfl⟩))) trivial
  | regFree hp hi hu =>
    refine hI.goto hp (.inl rfl) (by simp [PC.grower]) (by simp [PC.deletes]) ?_ trivial
    constructor <;> intros <;> simp_all [PC.hd, PC.flags]
  | regNone hp hi =>
    exact hI.goto hp (.inl rfl) (by simp [PC.grower]) (by simp [PC.deletes])
      (.none (.inr (.inr rfl))) trivial
  | @reserve t i hp hu =>
    have hfl : ∀ t', (s.pc t').flags ≠ some i := by
      intro t' hf
      have := ((hI.loc t').reg i hf).1
      rw [hu] at this; cases this
    have hco : ∀ q, Core s q → Core { s.at t (.regLast i) with used := upd s.used i true } q := by
      intro q hq; cases q <;> exact hq
    refine hI.build (t := t) (p := .regLast i) rfl (.inr (.inr ?_)) (by simp [PC.grower])
      (by simp [PC.deletes]) ?_ trivial ?_ (fun t' _ => hco _ (hI.core t')) hI.glob hI.heap
    · intro j hj; cases hj; exact hu
    · have hmax := (hI.loc t).try_ i hp
      constructor <;> intros <;> simp_all [PC.hd, PC.flags, upd]
    · intro t' hn
      refine (hI.loc t').frame ?_ (Nat.le_refl _)
      intro j hj
      have : j ≠ i := by rintro rfl; exact hfl t' hj
      exact ⟨upd_ne _ _ this, rfl, rfl⟩
  | reserveFail hp hu =>
    exact hI.goto hp (.inl rfl) (by simp [PC.grower]) (by simp [PC.deletes])
      (.none (.inr (.inl ⟨_, rfl⟩))) trivial
  | @regLoad t i hp =>
    refine hI.goto hp (.inr rfl) (by simp [PC.grower]) (by simp [PC.deletes]) ?_ trivial
    have := (hI.loc t).reg i (by rw [hp]; rfl)
    constructor <;> intros <;> simp_all [PC.hd, PC.flags]
  | @regCas t i n hp hn hl =>
    refine hI.quiet (t := t) (p := s.pc t) ?_ rfl rfl rfl rfl (by show s.last ≤ i + 1; omega)
      (fun i => .inr ⟨rfl, rfl, rfl⟩) (.inr rfl) id (fun _ => id) ?_ (hI.core t)
    · funext t'; simp only [upd]; split <;> simp_all
    · exact (hI.loc t).frame (fun _ _ => ⟨rfl, rfl, rfl⟩) (by show s.last ≤ i + 1; omega)
  | @regCasFail t i n hp hn =>
    refine hI.goto hp (.inr rfl) (by simp [PC.grower]) (by simp [PC.deletes]) ?_ trivial
    have := (hI.loc t).reg i (by rw [hp]; rfl)
    constructor <;> intros <;> simp_all [PC.hd, PC.flags]
  | @regEnd t i n hp hn =>
    refine hI.goto hp (.inr rfl) (by simp [PC.grower]) (by simp [PC.deletes]) ?_ trivial
    have h1 := (hI.loc t).reg i (by rw [hp]; rfl)
    have h2 := (hI.loc t).cas i n hp
    exact .simple rfl ⟨h1.1, h1.2, by show i < s.last; omega, rfl⟩ rfl
  | @destroy t h hp hsh =>
    refine hI.quiet (t := t) (p := .out) rfl rfl rfl rfl rfl (Nat.le_refl _) ?_ (.inl rfl)
      (by simp [PC.grower]) (by simp [PC.deletes]) (.none (.inl rfl)) trivial
    intro i
    by_cases hi : i = h.i
    · left; rw [hp, hi]; rfl
    · right; exact ⟨upd_ne _ _ hi, rfl, rfl⟩
  | call hp =>
    exact hI.goto hp (.inr rfl) (by simp [PC.grower]) (by simp [PC.deletes])
      (.simple rfl (hI.base hp rfl) rfl) trivial
  | gtNull hp ht => exact hI
  | gtMark hp ht =>
    exact hI.goto hp (.inr rfl) (by simp [PC.grower]) (by simp [PC.deletes])
      (.simple rfl (hI.base hp rfl) rfl) (by simp [Core, ContOK])
  | gtLoad hp ht =>
    exact hI.goto hp (.inr rfl) (by simp [PC.grower]) (by simp [PC.deletes])
      (.simple rfl (hI.base hp rfl) rfl) trivial
  | @gtStore t h a hp =>
    have hb := hI.base hp rfl
    refine hI.quiet (t := t) (p := .gt3 h a) rfl rfl rfl rfl rfl (Nat.le_refl _) ?_
      (.inr (by rw [hp]; rfl)) (by simp [PC.grower]) (by simp [PC.deletes]) ?_ trivial
    · intro i
      by_cases hi : i = h.i
      · left; rw [hp, hi]; rfl
      · right; exact ⟨rfl, upd_ne _ _ hi, rfl⟩
    · exact .gt3' ⟨hb.used, hb.max, hb.last, hb.shell⟩ (upd_self ..)
  | @gtSame t h a o hp ht ho =>
    refine hI.goto hp (.inr rfl) (by simp [PC.grower]) (by simp [PC.deletes])
      (.op' (hI.base hp rfl) ((hI.loc t).gt3 h a hp)) ⟨⟨o, ho, rfl⟩, .inl ht, ?_⟩
    have hg := hI.glob
    unfold St.cap
    unfold Glob at hg
    cases hph : s.phase <;> simp only [hph] at hg ⊢
    case quiet => obtain ⟨a', o', h1, h2, -, h4⟩ := hg; rw [ht] at h1; cases h1; rw [ho] at h2; cases h2; omega
    case begun => obtain ⟨a', o', h1, h2, -, h4⟩ := hg; rw [ht] at h1; cases h1; rw [ho] at h2; cases h2; omega
    all_goals rw [ht] at hg; exact absurd hg.1 (by simp)
  | gtOther hp ht =>
    exact hI.goto hp (.inr rfl) (by simp [PC.grower]) (by simp [PC.deletes])
      (.simple rfl (hI.base hp rfl) rfl) trivial
  | @gtClear t h hp =>
    have hb := hI.base hp rfl
    refine hI.quiet (t := t) (p := .gt1 h) rfl rfl rfl rfl rfl (Nat.le_refl _) ?_
      (.inr (by rw [hp]; rfl)) (by simp [PC.grower]) (by simp [PC.deletes]) ?_ trivial
    · intro i
      by_cases hi : i = h.i
      · left; rw [hp, hi]; rfl
      · right; exact ⟨rfl, upd_ne _ _ hi, rfl⟩
    · exact .simple rfl ⟨hb.used, hb.max, hb.last, hb.shell⟩ rfl
  | opStep => exact hI
  | @opEnd t h a v hp x =>
    have hb := hI.base hp rfl
    have hx : (Exit.next h v x : PC A).hd = some h ∧ (Exit.next h v x : PC A).special = false ∧
        (Exit.next h v x : PC A).grower = false ∧ (Exit.next h v x : PC A).deletes = Option.none ∧
        Core s (Exit.next h v x) := by
      have hc := hI.core t
      rw [hp] at hc
      unfold Exit.next
      rw [hb.shell]
      cases x <;> refine ⟨rfl, rfl, rfl, rfl, ?_⟩
      · trivial
      · exact hc.2.2
      · intro a v b h; cases h
    obtain ⟨h1, h2, h3, h4, h5⟩ := hx
    refine hI.quiet (t := t) (p := Exit.next h v x) rfl rfl rfl rfl rfl (Nat.le_refl _) ?_
      (.inr (by rw [hp, PC.flags_of_hd h1]; rfl)) (by simp [h3]) (by simp [h4]) ?_ h5
    · intro i
      by_cases hi : i = h.i
      · left; rw [hp, hi]; rfl
      · right; exact ⟨rfl, upd_ne _ _ hi, rfl⟩
    · exact .simple h1 ⟨hb.used, hb.max, hb.last, hb.shell⟩ h2
  | @move t t' h hp hsh hp' =>
    have hb := hI.base hp rfl
    have htt : t' ≠ t := by rintro rfl; rw [hp] at hp'; cases hp'
    have h1 : SInv { s.at t .out with used := upd s.used h.i false } := by
      refine hI.quiet (t := t) (p := .out) rfl rfl rfl rfl rfl (Nat.le_refl _) ?_ (.inl rfl)
        (by simp [PC.grower]) (by simp [PC.deletes]) (.none (.inl rfl)) trivial
      intro i
      by_cases hi : i = h.i
      · left; rw [hp, hi]; rfl
      · right; exact ⟨upd_ne _ _ hi, rfl, rfl⟩
    have hco : ∀ q, Core { s.at t .out with used := upd s.used h.i false } q →
        Core ((s.at t .out).at t' (.idle h)) q := by
      intro q hq; cases q <;> exact hq
    refine h1.build (t := t') (p := .idle h) rfl (.inr (.inr ?_)) (by simp [PC.grower])
      (by simp [PC.deletes]) ?_ trivial ?_ (fun t'' _ => hco _ (h1.core t'')) hI.glob hI.heap
    · intro j hj; cases hj; exact upd_self ..
    · exact .simple rfl ⟨hb.used, hb.max, hb.last, hb.shell⟩ rfl
    · intro t'' hn
      refine (h1.loc t'').frame ?_ (Nat.le_refl _)
      intro j hj
      have : j ≠ h.i := by
        rintro rfl
        have := ((h1.loc t'').reg h.i hj).1
        simp only [upd_self] at this; cases this
      exact ⟨(upd_ne _ _ this).symm, rfl, rfl⟩
  | @grEpoch t h v hp =>
    have hc := hI.core t
    rw [hp] at hc
    refine hI.goto hp (.inr rfl) (by simp [PC.grower]) (by simp [PC.deletes])
      (.simple rfl (hI.base hp rfl) rfl) hc
  | grNot hp he =>
    exact hI.goto hp (.inr rfl) (by simp [PC.grower]) (by simp [PC.deletes])
      (.simple rfl (hI.base hp rfl) rfl) trivial
  | @grCas t h v e hp hv he =>
    have hc : (v : Int) ≤ s.cap := by have := hI.core t; rw [hp] at this; exact this
    have hq : s.phase = .quiet := by
      unfold St.cap at hc
      cases hph : s.phase <;> simp only [hph] at hc <;> first | rfl | (exfalso; omega)
    have hg := hI.glob
    simp only [Glob, hq] at hg
    simp only [St.cap, hq] at hc
    have hno := hI.grower_none hq
    refine hI.build (t := t) (p := .gr3 h) rfl (.inr (.inl (by rw [hp]; rfl))) (fun _ t' _ => hno t')
      (by simp [PC.deletes]) (.simple rfl ((hI.base hp rfl).copy rfl (Nat.le_refl _)) rfl) rfl
      (fun t' _ => (hI.loc t').frame (fun _ _ => ⟨rfl, rfl, rfl⟩) (Nat.le_refl _)) ?_ ?_ ?_
    · intro t' hn
      refine (hI.core t').other (hno t') ?_ ?_ ?_ ?_ (fun _ _ _ _ h => h) ?_
      · intro h a v hq'
        have := hI.core t'
        rw [hq'] at this
        refine ⟨this.1, ?_⟩
        rcases this.2.1 with h | h
        · exact .inl h
        · rw [hq] at h; exact h.2.elim
      · simp only [St.cap, hq]; omega
      · show s.epoch ≤ v; omega
      · intro h a v' hq'
        have := hI.core t'
        rw [hq'] at this ⊢
        exact ⟨this.1, this.2.1, this.2.2.1, by simp [Phase.old]⟩
      · intro h c a v b k hq' hm
        simp only [St.migOK, hq] at hm
    · obtain ⟨a, o, h1, h2, h3, h4⟩ := hg
      exact ⟨a, o, h1, h2, h3, by show (v : Int) = o.ver; omega⟩
    · intro a o h1 h2 h3
      obtain ⟨v, b, h4⟩ := hI.heap a o h1 h2 h3
      rw [hq] at h4; cases h4
  | @grLoad t h a o hp ht ho =>
    have hc : s.phase = .begun := by have := hI.core t; rw [hp] at this; exact this
    exact hI.goto hp (.inr rfl) (fun _ => rfl) (by simp [PC.deletes])
      (.simple rfl (hI.base hp rfl) rfl) ⟨hc, ht, o, ho, rfl⟩
  | grLoadMark hp ht =>
    exact hI.goto hp (.inr rfl) (by simp [PC.grower]) (by simp [PC.deletes])
      (.simple rfl (hI.base hp rfl) rfl) trivial
  | @grMark t h a v hp ht =>
    have hc : s.phase = .begun ∧ s.table = .clear a ∧ ∃ o, s.heap a = some o ∧ o.ver = v := by
      have := hI.core t; rw [hp] at this; exact this
    have hg := hI.glob
    simp only [Glob, hc.1] at hg
    obtain ⟨a', o, h1, h2, h3, h4⟩ := hg
    rw [ht] at h1; cases h1
    obtain ⟨o', h5, h6⟩ := hc.2.2
    rw [h2] at h5; cases h5
    have hoth := hI.others (t := t) (by rw [hp]; rfl)
    refine hI.build (t := t) (p := .gr5 h a v) rfl (.inr (.inl (by rw [hp]; rfl))) (fun _ => hoth)
      (by simp [PC.deletes]) (.simple rfl ((hI.base hp rfl).copy rfl (Nat.le_refl _)) rfl) rfl
      (fun t' _ => (hI.loc t').frame (fun _ _ => ⟨rfl, rfl, rfl⟩) (Nat.le_refl _)) ?_ ?_ ?_
    · intro t' hn
      refine (hI.core t').other (hoth t' hn) ?_ ?_ (Int.le_refl _) ?_ (fun _ _ _ _ h => h) ?_
      · intro h a1 v hq'
        have := hI.core t'
        rw [hq'] at this
        refine ⟨this.1, ?_⟩
        rcases this.2.1 with h | h
        · rw [ht] at h; cases h; exact .inr ⟨rfl, trivial⟩
        · rw [hc.1] at h; exact h.2.elim
      · simp only [St.cap, hc.1]; exact Int.le_refl _
      · intro h a1 v' hq'
        have := hI.core t'
        rw [hq'] at this ⊢
        have hne : a ≠ a1 := by rintro rfl; exact this.2.1 ht
        exact ⟨this.1, by simp, by simpa using hne, by simpa [Phase.old] using hne⟩
      · intro h c a v b k hq' hm
        simp only [St.migOK, hc.1] at hm
    · exact ⟨rfl, by show s.epoch = v; omega, o, h2, h6, h3⟩
    · intro a o h1 h2 h3
      obtain ⟨v, b, h4⟩ := hI.heap a o h1 h2 h3
      rw [hc.1] at h4; cases h4
  | grMarkFail hp ht =>
    exact hI.goto hp (.inr rfl) (by simp [PC.grower]) (by simp [PC.deletes])
      (.simple rfl (hI.base hp rfl) rfl) trivial
  | @grMake t h a b v o n hp ho hb =>
    have hc : s.phase = .marked a v := by have := hI.core t; rw [hp] at this; exact this
    have hg := hI.glob
    simp only [Glob, hc] at hg
    obtain ⟨g1, g2, o', g3, g4, g5⟩ := hg
    rw [ho] at g3; cases g3
    have hab : a ≠ b := by rintro rfl; rw [ho] at hb; cases hb
    have hoth := hI.others (t := t) (by rw [hp]; rfl)
    have hkeep : ∀ x o, s.heap x = some o →
        upd s.heap b (some ⟨v + 1, none, 0, n⟩) x = some o := by
      intro x o hx
      have : x ≠ b := by rintro rfl; rw [hx] at hb; cases hb
      rw [upd_ne _ _ this]; exact hx
    subst g4
    refine hI.build (t := t) (p := .gr6 h a o.ver b) rfl (.inr (.inl (by rw [hp]; rfl))) (fun _ => hoth)
      (by simp [PC.deletes]) (.simple rfl ((hI.base hp rfl).copy rfl (Nat.le_refl _)) rfl) rfl
      (fun t' _ => (hI.loc t').frame (fun _ _ => ⟨rfl, rfl, rfl⟩) (Nat.le_refl _)) ?_ ?_ ?_
    · intro t' hn
      refine (hI.core t').other (hoth t' hn) ?_ ?_ (Int.le_refl _) ?_ ?_ ?_
      · intro h a1 v hq'
        have := hI.core t'
        rw [hq'] at this
        obtain ⟨⟨o1, h1, h2⟩, h3, -⟩ := this
        refine ⟨⟨o1, hkeep _ _ h1, h2⟩, ?_⟩
        rcases h3 with h | h
        · rw [g1] at h; cases h
        · exact .inr ⟨h.1, trivial⟩
      · simp only [St.cap, hc]; exact Int.le_refl _
      · intro h a1 v' hq'
        have := hI.core t'
        rw [hq'] at this ⊢
        obtain ⟨⟨o1, h1, h2⟩, h3, h4, h5⟩ := this
        rw [hc] at h5
        exact ⟨⟨o1, hkeep _ _ h1, h2⟩, h3, h4, h5⟩
      · intro a1 v1 b1 hv1 hx o1 h1 h2
        by_cases hab1 : a1 = b
        · subst hab1
          simp only [upd_self, Option.some.injEq] at h1
          subst h1
          simp only [] at h2
          omega
        · simp only [upd_ne _ _ hab1] at h1; exact hx o1 h1 h2
      · intro h c a v b k hq' hm
        simp only [St.migOK, hc] at hm
    · refine ⟨g1, g2, hab, ⟨o, hkeep _ _ ho, rfl, g5⟩, ⟨o.ver + 1, none, 0, n⟩, upd_self .., rfl, rfl, rfl⟩
    · intro a1 o1 h1 h2 h3
      by_cases hab1 : a1 = b
      · subst hab1
        simp only [upd_self, Option.some.injEq] at h1
        subst h1; exact absurd rfl h2
      · simp only [upd_ne _ _ hab1] at h1
        obtain ⟨v, b, h4⟩ := hI.heap a1 o1 h1 h2 h3
        rw [hc] at h4; cases h4
  | @grOps t h a b v hp =>
    have hc : s.phase = .made a v b := by have := hI.core t; rw [hp] at this; exact this
    have hg := hI.glob
    simp only [Glob, hc] at hg
    refine hI.stage (t := t) (p := .gr7 h a v b s.last 0) hp rfl rfl rfl rfl rfl rfl rfl rfl rfl rfl
      (by simp [PC.deletes]) (.simple rfl ((hI.base hp rfl).copy rfl (Nat.le_refl _)) rfl) rfl
      hg (by simp [hc]) rfl (by simp [hc]) (by simp [hc, Phase.old]) ?_ ?_
    · intro i a1 hi hu hop
      rcases hop with h | h
      · exact .inl h
      · exact .inr ⟨h.1, Nat.zero_le _, hi⟩
    · intro i a1 v1 b1 hi hu hm
      simp only [St.migOK, hc] at hm
  | @grOpsNext t h a b v n j hp hj ho =>
    have hc : s.phase = .waitOps a v b n j := by have := hI.core t; rw [hp] at this; exact this
    have hg := hI.glob
    simp only [Glob, hc] at hg
    refine hI.stage (t := t) (p := .gr7 h a v b n (j + 1)) hp rfl rfl rfl rfl rfl rfl rfl rfl rfl rfl
      (by simp [PC.deletes]) (.simple rfl ((hI.base hp rfl).copy rfl (Nat.le_refl _)) rfl) rfl
      hg (by simp [hc]) rfl (by simp [hc]) (by simp [hc, Phase.old]) ?_ ?_
    · intro i a1 hi hu hop
      rcases hop with h | h
      · exact .inl h
      · refine .inr ⟨h.1, ?_⟩
        rw [hc] at h
        have h2 := h.2
        simp only [] at h2 ⊢
        have : i ≠ j := by
          rintro rfl
          rw [hg.1] at h; cases h.1
          exact ho hu
        omega
    · intro i a1 v1 b1 hi hu hm
      simp only [St.migOK, hc] at hm
  | grOpsWait => exact hI
  | @grOpsEnd t h a b v n j hp hj =>
    have hc : s.phase = .waitOps a v b n j := by have := hI.core t; rw [hp] at this; exact this
    have hg := hI.glob
    simp only [Glob, hc] at hg
    refine hI.stage (t := t) (p := .gr8 h a v b) hp rfl rfl rfl rfl rfl rfl rfl rfl rfl rfl
      (by simp [PC.deletes]) (.simple rfl ((hI.base hp rfl).copy rfl (Nat.le_refl _)) rfl) rfl
      hg (by simp [hc]) rfl (by simp [hc]) (by simp [hc, Phase.old]) ?_ ?_
    · intro i a1 hi hu hop
      rcases hop with h | h
      · exact .inl h
      · rw [hc] at h
        have h2 := h.2
        simp only [] at h2
        omega
    · intro i a1 v1 b1 hi hu hm
      simp only [St.migOK, hc] at hm
  | @grNext t h a b v o hp ho =>
    have hc : s.phase = .ready a v b := by have := hI.core t; rw [hp] at this; exact this
    have hg := hI.glob
    simp only [Glob, hc] at hg
    obtain ⟨g1, g2, hab, ⟨o', g3, g4, g5⟩, o2, g6, g7, g8⟩ := hg
    rw [ho] at g3; cases g3
    have hoth := hI.others (t := t) (by rw [hp]; rfl)
    refine hI.build (t := t) (p := .mg1 h (.grow a v b)) rfl (.inr (.inl (by rw [hp]; rfl))) (fun _ => hoth)
      (by simp [PC.deletes]) (.simple rfl ((hI.base hp rfl).copy rfl (Nat.le_refl _)) rfl) ?_
      (fun t' _ => (hI.loc t').frame (fun _ _ => ⟨rfl, rfl, rfl⟩) (Nat.le_refl _)) ?_ ?_ ?_
    · intro a' v' b' h; cases h; rfl
    · intro t' hn
      refine (hI.core t').other (hoth t' hn) ?_ ?_ (Int.le_refl _) ?_ ?_ ?_
      · intro h a1 v hq'
        have := hI.core t'
        rw [hq'] at this
        rcases this.2.1 with h | h
        · rw [g1] at h; cases h
        · rw [hc] at h; exact h.2.elim
      · simp only [St.cap, hc]; exact Int.le_refl _
      · intro h a1 v' hq'
        have := hI.core t'
        rw [hq'] at this ⊢
        obtain ⟨⟨o1, h1, h2⟩, h3, h4, h5⟩ := this
        rw [hc] at h5
        have hne : a1 ≠ a := by rintro rfl; exact h5 rfl
        exact ⟨⟨o1, by simp only [upd_ne _ _ hne]; exact h1, h2⟩, h3, h4, h5⟩
      · intro a1 v1 b1 hv1 hx o1 h1 h2
        by_cases hab1 : a1 = a
        · subst hab1
          simp only [upd_self, Option.some.injEq] at h1
          subst h1
          have := hx o ho h2
          rw [g5.1] at this; cases this
        · simp only [upd_ne _ _ hab1] at h1; exact hx o1 h1 h2
      · intro h c a v b k hq' hm
        simp only [St.migOK, hc] at hm
    · refine ⟨g1, g2, hab, ⟨{ o with next := some b }, upd_self .., g4, rfl⟩, o2, ?_, g7, g8⟩
      simp only [upd_ne _ _ (Ne.symm hab)]; exact g6
    · intro a1 o1 h1 h2 h3
      by_cases hab1 : a1 = a
      · subst hab1; exact ⟨v, b, rfl⟩
      · simp only [upd_ne _ _ hab1] at h1
        obtain ⟨v, b, h4⟩ := hI.heap a1 o1 h1 h2 h3
        rw [hc] at h4; cases h4
  | @grNull t h a b v hp =>
    have hc : s.phase = .drained a v b := by have := hI.core t; rw [hp] at this; exact this
    have hg := hI.glob
    simp only [Glob, hc] at hg
    have hoth := hI.others (t := t) (by rw [hp]; rfl)
    refine hI.build (t := t) (p := .gr11 h a v b) rfl (.inr (.inl (by rw [hp]; rfl))) (fun _ => hoth)
      (by simp [PC.deletes]) (.simple rfl ((hI.base hp rfl).copy rfl (Nat.le_refl _)) rfl) rfl
      (fun t' _ => (hI.loc t').frame (fun _ _ => ⟨rfl, rfl, rfl⟩) (Nat.le_refl _)) ?_ ⟨rfl, hg.2⟩ ?_
    · intro t' hn
      refine (hI.core t').other (hoth t' hn) ?_ ?_ (Int.le_refl _) ?_ (fun _ _ _ _ h => h) ?_
      · intro h a1 v hq'
        have := hI.core t'
        rw [hq'] at this
        rcases this.2.1 with h | h
        · rw [hg.1] at h; cases h
        · rw [hc] at h; exact h.2.elim
      · simp only [St.cap, hc]; exact Int.le_refl _
      · intro h a1 v' hq'
        have := hI.core t'
        rw [hq'] at this ⊢
        refine ⟨this.1, by simp, by simp, ?_⟩
        have := this.2.2.2
        rw [hc] at this; exact this
      · intro h c a v b k hq' hm
        simp only [St.migOK, hc] at hm
        exact hm
    · intro a1 o1 h1 h2 h3
      obtain ⟨v, b, h4⟩ := hI.heap a1 o1 h1 h2 h3
      rw [hc] at h4; cases h4
  | @grMig t h a b v hp =>
    have hc : s.phase = .nulled a v b := by have := hI.core t; rw [hp] at this; exact this
    have hg := hI.glob
    simp only [Glob, hc] at hg
    refine hI.stage (t := t) (p := .gr12 h a v b s.last 0) hp rfl rfl rfl rfl rfl rfl rfl rfl rfl rfl
      (by simp [PC.deletes]) (.simple rfl ((hI.base hp rfl).copy rfl (Nat.le_refl _)) rfl) rfl
      hg (by simp [hc]) rfl (by simp [hc]) (by simp [hc, Phase.old]) ?_ ?_
    · intro i a1 hi hu hop
      rcases hop with h | h
      · exact .inl h
      · rw [hc] at h; exact h.2.elim
    · intro i a1 v1 b1 hi hu hm
      simp only [St.migOK, hc] at hm
      exact ⟨hm, Nat.zero_le _, hi⟩
  | @grMigNext t h a b v n j hp hj ho =>
    have hc : s.phase = .waitMig a v b n j := by have := hI.core t; rw [hp] at this; exact this
    have hg := hI.glob
    simp only [Glob, hc] at hg
    refine hI.stage (t := t) (p := .gr12 h a v b n (j + 1)) hp rfl rfl rfl rfl rfl rfl rfl rfl rfl rfl
      (by simp [PC.deletes]) (.simple rfl ((hI.base hp rfl).copy rfl (Nat.le_refl _)) rfl) rfl
      hg (by simp [hc]) rfl (by simp [hc]) (by simp [hc, Phase.old]) ?_ ?_
    · intro i a1 hi hu hop
      rcases hop with h | h
      · exact .inl h
      · rw [hc] at h; exact h.2.elim
    · intro i a1 v1 b1 hi hu hm
      simp only [St.migOK, hc] at hm
      have : i ≠ j := by rintro rfl; rw [ho] at hu; cases hu
      exact ⟨hm.1, by omega, hm.2.2⟩
  | grMigWait => exact hI
  | @grMigEnd t h a b v n j hp hj =>
    have hc : s.phase = .waitMig a v b n j := by have := hI.core t; rw [hp] at this; exact this
    have hg := hI.glob
    simp only [Glob, hc] at hg
    refine hI.stage (t := t) (p := .gr13 h a v b) hp rfl rfl rfl rfl rfl rfl rfl rfl rfl rfl
      (by simp [PC.deletes]) (.simple rfl ((hI.base hp rfl).copy rfl (Nat.le_refl _)) rfl) rfl
      hg (by simp [hc]) rfl (by simp [hc]) (by simp [hc, Phase.old]) ?_ ?_
    · intro i a1 hi hu hop
      rcases hop with h | h
      · exact .inl h
      · rw [hc] at h; exact h.2.elim
    · intro i a1 v1 b1 hi hu hm
      simp only [St.migOK, hc] at hm
      omega
  | @grPublish t h a b v hp =>
    have hc : s.phase = .empty a v b := by have := hI.core t; rw [hp] at this; exact this
    have hg := hI.glob
    simp only [Glob, hc] at hg
    obtain ⟨g1, g2, hab, ⟨o, g3, g4, g5, g5'⟩, o2, g6, g7, g8⟩ := hg
    have hoth := hI.others (t := t) (by rw [hp]; rfl)
    refine hI.build (t := t) (p := .gr14 h a v) rfl (.inr (.inl (by rw [hp]; rfl))) (fun _ => hoth)
      ?_ (.simple rfl ((hI.base hp rfl).copy rfl (Nat.le_refl _)) rfl) ?_
      (fun t' _ => (hI.loc t').frame (fun _ _ => ⟨rfl, rfl, rfl⟩) (Nat.le_refl _)) ?_ ?_ ?_
    · intro a1 h1 t' hn hd
      cases h1
      cases hq : s.pc t' <;> rw [hq] at hd <;> simp only [PC.deletes, reduceCtorEq] at hd
      cases hd
      have := hI.core t'
      rw [hq] at this
      have := this.2.2.2
      rw [hc] at this; exact this rfl
    · refine ⟨⟨o, g3, g4, by rw [g5]; simp, g5'⟩, ?_, by simp, by simp [Phase.old]⟩
      intro h; cases h; exact hab rfl
    · intro t' hn
      refine (hI.core t').other (hoth t' hn) ?_ ?_ (Int.le_refl _) ?_ (fun _ _ _ _ h => h) ?_
      · intro h a1 v hq'
        have := hI.core t'
        rw [hq'] at this
        rcases this.2.1 with h | h
        · rw [g1] at h; cases h
        · rw [hc] at h; exact h.2.elim
      · simp only [St.cap, hc]; show s.epoch ≤ s.epoch + 1; omega
      · intro h a1 v' hq'
        have := hI.core t'
        rw [hq'] at this ⊢
        obtain ⟨⟨o1, h1, h2, h3⟩, -⟩ := this
        refine ⟨⟨o1, h1, h2, h3⟩, ?_, by simp, by simp [Phase.old]⟩
        intro h; cases h
        rw [g6] at h1; cases h1
        exact h3.1 g8.1
      · intro h c a v b k hq' hm
        simp only [St.migOK, hc] at hm
    · exact ⟨b, o2, rfl, g6, g8, by show s.epoch + 1 = o2.ver; omega⟩
    · intro a1 o1 h1 h2 h3
      obtain ⟨v, b, h4⟩ := hI.heap a1 o1 h1 h2 h3
      rw [hc] at h4; cases h4
  | @grDelete t h a v hp =>
    have hc : (∃ o, s.heap a = some o ∧ o.ver = v ∧ o.old) ∧ s.table ≠ .clear a ∧
      s.table ≠ .mark a ∧ s.phase.old ≠ some a := by have := hI.core t; rw [hp] at this; exact this
    obtain ⟨⟨o, h1, h2, h3⟩, h4, h5, h6⟩ := hc
    have hkeep : ∀ x o', s.heap x = some o' → ¬ o'.old → upd s.heap a none x = some o' := by
      intro x o' hx hno
      have : x ≠ a := by rintro rfl; rw [h1] at hx; cases hx; exact hno h3
      rw [upd_ne _ _ this]; exact hx
    have hkeep' : ∀ x o', s.heap x = some o' → x ≠ a → upd s.heap a none x = some o' := by
      intro x o' hx hno; rw [upd_ne _ _ hno]; exact hx
    have hfr : ∀ o' : Obj A, o'.fresh → ¬ o'.old := fun o' hf ho => ho.1 hf.1
    have hback : ∀ x o', upd s.heap a none x = some o' → s.heap x = some o' := by
      intro x o' hx
      simp only [upd] at hx
      split at hx
      · cases hx
      · exact hx
    have hco : ∀ t', t' ≠ t → Core { s.at t (.idle h) with heap := upd s.heap a none } (s.pc t') := by
      intro t' hn
      have hcq := hI.core t'
      have hdel : ∀ h a', s.pc t' = .gr14 h a' v → True := fun _ _ _ => trivial
      cases hq : s.pc t' with
      | op h' a' v' =>
        rw [hq] at hcq
        obtain ⟨⟨o1, q1, q2⟩, q3, q4⟩ := hcq
        refine ⟨⟨o1, hkeep' _ _ q1 ?_, q2⟩, q3, q4⟩
        rintro rfl
        rcases q3 with q | q
        · exact h4 q
        · exact h5 q.1
      | gr4 h' a' v' =>
        rw [hq] at hcq
        obtain ⟨q0, q3, ⟨o1, q1, q2⟩⟩ := hcq
        refine ⟨q0, q3, o1, hkeep' _ _ q1 ?_, q2⟩
        rintro rfl; exact h4 q3
      | gr14 h' a' v' =>
        rw [hq] at hcq
        obtain ⟨⟨o1, q1, q2⟩, q3⟩ := hcq
        refine ⟨⟨o1, hkeep' _ _ q1 ?_, q2⟩, q3⟩
        rintro rfl
        exact hn (hI.deletes t' t a' (by rw [hq]; rfl) (by rw [hp]; rfl))
      | mg4 h' c a' v' b' =>
        rw [hq] at hcq
        exact ⟨hcq.1, fun o1 q1 => hcq.2.1 o1 (hback _ _ q1), hcq.2.2⟩
      | mg6 h' c a' v' b' =>
        rw [hq] at hcq
        intro a1 v1 b1 h
        obtain ⟨q1, q2, q3, o1, q4, q5⟩ := hcq a1 v1 b1 h
        refine ⟨q1, q2, q3, o1, hkeep' _ _ q4 ?_, q5⟩
        rintro rfl
        apply h6; rw [q1, q2]; rfl
      | _ => rw [hq] at hcq; exact hcq
    refine hI.build (t := t) (p := .idle h) rfl (.inr (.inl (by rw [hp]; rfl))) (by simp [PC.grower])
      (by simp [PC.deletes]) (.simple rfl ((hI.base hp rfl).copy rfl (Nat.le_refl _)) rfl) trivial
      (fun t' _ => (hI.loc t').frame (fun _ _ => ⟨rfl, rfl, rfl⟩) (Nat.le_refl _)) hco ?_
      (fun x o' q1 => hI.heap x o' (hback _ _ q1))
    have hg := hI.glob
    have htwo : ∀ x v' y P, s.phase.old = some x → s.two x v' y P →
        St.two { s.at t (.idle h) with heap := upd s.heap a none } x v' y P := by
      intro x v' y P hx ⟨q1, q2, ⟨o1, q3, q4, q5⟩, o2, q6, q7, q8⟩
      refine ⟨q1, q2, ⟨o1, hkeep' _ _ q3 ?_, q4, q5⟩, o2, hkeep _ _ q6 (hfr _ q8), q7, q8⟩
      rintro rfl; exact h6 hx
    unfold Glob at hg ⊢
    cases hph : s.phase with
    | quiet =>
      simp only [St.at, hph] at hg ⊢
      obtain ⟨a', o', q1, q2, q3, q4⟩ := hg
      exact ⟨a', o', q1, hkeep _ _ q2 (hfr _ q3), q3, q4⟩
    | begun =>
      simp only [St.at, hph] at hg ⊢
      obtain ⟨a', o', q1, q2, q3, q4⟩ := hg
      exact ⟨a', o', q1, hkeep _ _ q2 (hfr _ q3), q3, q4⟩
    | marked x v' =>
      simp only [St.at, hph] at hg ⊢
      obtain ⟨q0, q1, o', q2, q3, q4⟩ := hg
      exact ⟨q0, q1, o', hkeep _ _ q2 (hfr _ q4), q3, q4⟩
    | made x v' y => simp only [St.at, hph] at hg ⊢; exact ⟨hg.1, htwo _ _ _ _ (by rw [hph]; rfl) hg.2⟩
    | waitOps x v' y => simp only [St.at, hph] at hg ⊢; exact ⟨hg.1, htwo _ _ _ _ (by rw [hph]; rfl) hg.2⟩
    | ready x v' y => simp only [St.at, hph] at hg ⊢; exact ⟨hg.1, htwo _ _ _ _ (by rw [hph]; rfl) hg.2⟩
    | migrating x v' y => simp only [St.at, hph] at hg ⊢; exact ⟨hg.1, htwo _ _ _ _ (by rw [hph]; rfl) hg.2⟩
    | drained x v' y => simp only [St.at, hph] at hg ⊢; exact ⟨hg.1, htwo _ _ _ _ (by rw [hph]; rfl) hg.2⟩
    | nulled x v' y => simp only [St.at, hph] at hg ⊢; exact ⟨hg.1, htwo _ _ _ _ (by rw [hph]; rfl) hg.2⟩
    | waitMig x v' y => simp only [St.at, hph] at hg ⊢; exact ⟨hg.1, htwo _ _ _ _ (by rw [hph]; rfl) hg.2⟩
    | empty x v' y => simp only [St.at, hph] at hg ⊢; exact ⟨hg.1, htwo _ _ _ _ (by rw [hph]; rfl) hg.2⟩
  | @mgNone t h c hp ht =>
    cases c with
    | help =>
      exact hI.quiet (t := t) (p := .hg h) rfl rfl rfl rfl rfl (Nat.le_refl _)
        (fun i => .inr ⟨rfl, rfl, rfl⟩) (.inr (by rw [hp]; rfl)) (by simp [PC.grower])
        (by simp [PC.deletes]) (.simple rfl ((hI.base hp rfl).copy rfl (Nat.le_refl _)) rfl) trivial
    | grow a v b =>
      have hc := hI.core t
      rw [hp] at hc
      have := hc a v b rfl
      have hg := hI.glob
      simp only [Glob, this] at hg
      exact absurd hg.1 (ht a)
  | @mgLoad t h c a o hp ht ho =>
    have hc := hI.core t
    rw [hp] at hc
    have hg := hI.marked ht ho
    refine hI.goto hp (.inr rfl) ?_ (by simp [PC.deletes])
      (.simple rfl (hI.base hp rfl) rfl) ⟨by omega, ?_⟩
    · cases c <;> simp [PC.grower]
    · intro a' v' b' hc'
      have h1 := hc a' v' b' hc'
      have hg' := hI.glob
      simp only [Glob, h1] at hg'
      obtain ⟨g1, g2, -⟩ := hg'
      rw [ht] at g1; cases g1
      exact ⟨h1, rfl, by omega⟩
  | @mgStore t h c a v hp =>
    have hb := hI.base hp rfl
    have hc := hI.core t
    rw [hp] at hc
    refine hI.quiet (t := t) (p := .mg3 h c a v) rfl rfl rfl rfl rfl (Nat.le_refl _) ?_
      (.inr (by rw [hp]; rfl)) (by rw [hp]; cases c <;> simp [PC.grower]) (by simp [PC.deletes]) ?_ hc
    · intro i
      by_cases hi : i = h.i
      · left; rw [hp, hi]; rfl
      · right; exact ⟨rfl, rfl, upd_ne _ _ hi⟩
    · exact .mg3' (hb.copy rfl (Nat.le_refl _)) (upd_self ..)
  | mgWait => exact hI
  | @mgNext t h c a b v o hp ho hv hn =>
    have hc := hI.core t
    rw [hp] at hc
    refine hI.goto hp (.inr rfl) (by cases c <;> simp [PC.grower]) (by simp [PC.deletes])
      (.mg4' (hI.base hp rfl) ((hI.loc t).mg3 h c a v hp)) ⟨hc.1, ?_, hc.2⟩
    intro o' h1 _
    rw [ho] at h1; cases h1; exact hn
  | @mgClaim t h c a b v o hp ho hv hcl =>
    have hc := hI.core t
    rw [hp] at hc
    have hnx := hc.2.1 o ho hv
    obtain ⟨v', b', hph⟩ := hI.heap a o ho (by rw [hnx]; simp) hcl
    have hg := hI.glob
    simp only [Glob, hph] at hg
    obtain ⟨g1, g2, hab, ⟨o', g3, g4, g5⟩, o2, g6, g7, g8⟩ := hg
    rw [ho] at g3; cases g3
    rw [hv] at g4; subst g4
    rw [hnx] at g5; cases g5
    have hkeep : ∀ x o1, s.heap x = some o1 → ∃ o2,
        upd s.heap a (some { o with claimed := o.claimed + 1 }) x = some o2 ∧ o2.ver = o1.ver ∧
        o2.next = o1.next ∧ o2.blocks = o1.blocks ∧ o1.claimed ≤ o2.claimed := by
      intro x o1 hx
      by_cases hxa : x = a
      · subst hxa
        rw [ho] at hx; cases hx
        exact ⟨_, upd_self .., rfl, rfl, rfl, by show o.claimed ≤ o.claimed + 1; omega⟩
      · exact ⟨o1, by rw [upd_ne _ _ hxa]; exact hx, rfl, rfl, rfl, Nat.le_refl _⟩
    have hback : ∀ x o2, upd s.heap a (some { o with claimed := o.claimed + 1 }) x = some o2 →
        ∃ o1, s.heap x = some o1 := by
      intro x o2 hx
      by_cases hxa : x = a
      · exact ⟨o, by rw [hxa]; exact ho⟩
      · exact ⟨o2, by rw [upd_ne _ _ hxa] at hx; exact hx⟩
    refine hI.build (t := t) (p := .mg5 h c a v b o.claimed) rfl (.inr (.inl (by rw [hp]; rfl))) ?_
      (by simp [PC.deletes]) (.mg5' ((hI.base hp rfl).copy rfl (Nat.le_refl _)) ((hI.loc t).mg4 h c a v b hp)) ?_
      (fun t' _ => (hI.loc t').frame (fun _ _ => ⟨rfl, rfl, rfl⟩) (Nat.le_refl _))
      (fun t' _ => (hI.core t').claimed rfl rfl rfl hkeep hback) ?_ ?_
    · intro h1; exact hI.others (by rw [hp]; cases c <;> simp_all [PC.grower])
    · refine ⟨?_, hc.2.2⟩
      simp only [St.migOK, St.at, hph]
      exact ⟨trivial, trivial, trivial⟩
    · simp only [Glob, St.at, hph]
      refine ⟨g1, g2, hab, ⟨_, upd_self .., hv, hnx⟩, o2, ?_, g7, g8⟩
      simp only [upd_ne _ _ (Ne.symm hab)]; exact g6
    · intro x o1 h1 h2 h3
      by_cases hxa : x = a
      · subst hxa; exact ⟨v, b, hph⟩
      · simp only [upd_ne _ _ hxa] at h1
        exact hI.heap x o1 h1 h2 h3
  | @mgLeave t h c a b v o hp ho hv hcl =>
    have hc := hI.core t
    rw [hp] at hc
    have hnx := hc.2.1 o ho hv
    have hkeep : ∀ x o1, s.heap x = some o1 → ∃ o2,
        upd s.heap a (some { o with claimed := o.claimed + 1 }) x = some o2 ∧ o2.ver = o1.ver ∧
        o2.next = o1.next ∧ o2.blocks = o1.blocks ∧ o1.claimed ≤ o2.claimed := by
      intro x o1 hx
      by_cases hxa : x = a
      · subst hxa
        rw [ho] at hx; cases hx
        exact ⟨_, upd_self .., rfl, rfl, rfl, by show o.claimed ≤ o.claimed + 1; omega⟩
      · exact ⟨o1, by rw [upd_ne _ _ hxa]; exact hx, rfl, rfl, rfl, Nat.le_refl _⟩
    have hback : ∀ x o2, upd s.heap a (some { o with claimed := o.claimed + 1 }) x = some o2 →
        ∃ o1, s.heap x = some o1 := by
      intro x o2 hx
      by_cases hxa : x = a
      · exact ⟨o, by rw [hxa]; exact ho⟩
      · exact ⟨o2, by rw [upd_ne _ _ hxa] at hx; exact hx⟩
    have hfr : ∀ x o1, s.heap x = some o1 → o1.fresh →
        upd s.heap a (some { o with claimed := o.claimed + 1 }) x = some o1 := by
      intro x o1 hx hf
      have : x ≠ a := by
        rintro rfl; rw [ho] at hx; cases hx
        rw [hf.1] at hnx; cases hnx
      rw [upd_ne _ _ this]; exact hx
    refine hI.build (t := t) (p := .mg6 h c a v b) rfl (.inr (.inl (by rw [hp]; rfl))) ?_
      (by simp [PC.deletes]) (.mg6' ((hI.base hp rfl).copy rfl (Nat.le_refl _)) ((hI.loc t).mg4 h c a v b hp)) ?_
      (fun t' _ => (hI.loc t').frame (fun _ _ => ⟨rfl, rfl, rfl⟩) (Nat.le_refl _))
      (fun t' _ => (hI.core t').claimed rfl rfl rfl hkeep hback) ?_ ?_
    · intro h1; exact hI.others (by rw [hp]; cases c <;> simp_all [PC.grower])
    · intro a' v' b' hcc
      obtain ⟨q1, q2, q3⟩ := hc.2.2 a' v' b' hcc
      exact ⟨q1, q2, q3, _, upd_self .., by show o.blocks ≤ o.claimed + 1; omega, hnx⟩
    · have hg := hI.glob
      have htwo : ∀ x v' y (P : Obj A → Prop), (∀ o1 o2, o2.ver = o1.ver → o2.next = o1.next →
          o2.blocks = o1.blocks → o1.claimed ≤ o2.claimed → P o1 → P o2 ∨ o1.fresh) → s.two x v' y P →
          St.two { s.at t (.mg6 h c a v b) with heap := upd s.heap a (some { o with claimed := o.claimed + 1 }) } x v' y P := by
        intro x v' y P hP ⟨q1, q2, ⟨o1, q3, q4, q5⟩, o2, q6, q7, q8⟩
        refine ⟨q1, q2, ?_, o2, hfr _ _ q6 q8, q7, q8⟩
        obtain ⟨o3, r1, r2, r3, r4, r5⟩ := hkeep x o1 q3
        rcases hP o1 o3 r2 r3 r4 r5 q5 with h | h
        · exact ⟨o3, r1, by omega, h⟩
        · exact ⟨o1, hfr _ _ q3 h, q4, q5⟩
      unfold Glob at hg ⊢
      cases hph : s.phase with
      | quiet =>
        simp only [St.at, hph] at hg ⊢
        obtain ⟨a', o', q1, q2, q3, q4⟩ := hg
        exact ⟨a', o', q1, hfr _ _ q2 q3, q3, q4⟩
      | begun =>
        simp only [St.at, hph] at hg ⊢
        obtain ⟨a', o', q1, q2, q3, q4⟩ := hg
        exact ⟨a', o', q1, hfr _ _ q2 q3, q3, q4⟩
      | marked x v' =>
        simp only [St.at, hph] at hg ⊢
        obtain ⟨q0, q1, o', q2, q3, q4⟩ := hg
        exact ⟨q0, q1, o', hfr _ _ q2 q4, q3, q4⟩
      | made x v' y => simp only [St.at, hph] at hg ⊢; exact ⟨hg.1, htwo _ _ _ _ (fun _ _ _ _ _ _ h => .inr h) hg.2⟩
      | waitOps x v' y => simp only [St.at, hph] at hg ⊢; exact ⟨hg.1, htwo _ _ _ _ (fun _ _ _ _ _ _ h => .inr h) hg.2⟩
      | ready x v' y => simp only [St.at, hph] at hg ⊢; exact ⟨hg.1, htwo _ _ _ _ (fun _ _ _ _ _ _ h => .inr h) hg.2⟩
      | migrating x v' y =>
        simp only [St.at, hph] at hg ⊢
        exact ⟨hg.1, htwo _ _ _ _ (fun _ _ _ h2 _ _ h => .inl (h2.trans h)) hg.2⟩
      | drained x v' y =>
        simp only [St.at, hph] at hg ⊢
        exact ⟨hg.1, htwo _ _ _ _ (fun _ _ _ h2 h3 h4 h => .inl ⟨h2.trans h.1, by omega⟩) hg.2⟩
      | nulled x v' y =>
        simp only [St.at, hph] at hg ⊢
        exact ⟨hg.1, htwo _ _ _ _ (fun _ _ _ h2 h3 h4 h => .inl ⟨h2.trans h.1, by omega⟩) hg.2⟩
      | waitMig x v' y =>
        simp only [St.at, hph] at hg ⊢
        exact ⟨hg.1, htwo _ _ _ _ (fun _ _ _ h2 h3 h4 h => .inl ⟨h2.trans h.1, by omega⟩) hg.2⟩
      | empty x v' y =>
        simp only [St.at, hph] at hg ⊢
        exact ⟨hg.1, htwo _ _ _ _ (fun _ _ _ h2 h3 h4 h => .inl ⟨h2.trans h.1, by omega⟩) hg.2⟩
    · intro x o1 h1 h2 h3
      by_cases hxa : x = a
      · subst hxa
        simp only [upd_self, Option.some.injEq] at h1
        subst h1
        simp only [] at h3; omega
      · simp only [upd_ne _ _ hxa] at h1
        exact hI.heap x o1 h1 h2 h3
  | mgWork => exact hI
  | @mgDone t h c a b v k hp =>
    have hc := hI.core t
    rw [hp] at hc
    have hm : (v : Int) ≤ s.epoch ∧ ∀ o, s.heap a = some o → o.ver = v → o.next = some b := by
      have hg := hI.glob
      have hm := hc.1
      unfold Glob at hg
      unfold St.migOK at hm
      cases hph : s.phase <;> simp only [hph] at hm hg
      case migrating =>
        obtain ⟨rfl, rfl, rfl⟩ := hm
        obtain ⟨-, g2, -, ⟨o, g3, -, g5⟩, -⟩ := hg
        exact ⟨by omega, fun o' h1 _ => by rw [g3] at h1; cases h1; exact g5⟩
      case drained =>
        obtain ⟨rfl, rfl, rfl⟩ := hm
        obtain ⟨-, g2, -, ⟨o, g3, -, g5⟩, -⟩ := hg
        exact ⟨by omega, fun o' h1 _ => by rw [g3] at h1; cases h1; exact g5.1⟩
      case nulled =>
        obtain ⟨rfl, rfl, rfl⟩ := hm
        obtain ⟨-, g2, -, ⟨o, g3, -, g5⟩, -⟩ := hg
        exact ⟨by omega, fun o' h1 _ => by rw [g3] at h1; cases h1; exact g5.1⟩
      case waitMig =>
        obtain ⟨⟨rfl, rfl, rfl⟩, -⟩ := hm
        obtain ⟨-, g2, -, ⟨o, g3, -, g5⟩, -⟩ := hg
        exact ⟨by omega, fun o' h1 _ => by rw [g3] at h1; cases h1; exact g5.1⟩
    exact hI.goto hp (.inr rfl) (by cases c <;> simp [PC.grower]) (by simp [PC.deletes])
      (.mg4' (hI.base hp rfl) ((hI.loc t).mg5 h c a v b k hp)) ⟨hm.1, hm.2, hc.2⟩
  | @mgEnd t h c a b v o' hp ho' hv' =>
    have hb := hI.base hp rfl
    have hc := hI.core t
    rw [hp] at hc
    cases c with
    | help =>
      refine hI.quiet (t := t) (p := .hg h) rfl rfl rfl rfl rfl (Nat.le_refl _) ?_
        (.inr (by rw [hp]; rfl)) (by simp [PC.grower]) (by simp [PC.deletes])
        (.simple rfl (hb.copy rfl (Nat.le_refl _)) rfl) trivial
      intro i
      by_cases hi : i = h.i
      · left; rw [hp, hi]; rfl
      · right; exact ⟨rfl, rfl, upd_ne _ _ hi⟩
    | grow a' v1 b' =>
      obtain ⟨q1, rfl, rfl, o, q4, q5, -⟩ := hc a' v1 b' rfl
      have hg := hI.glob
      simp only [Glob, q1] at hg
      obtain ⟨g1, g2, hab, ⟨o1, g3, g4, g5⟩, g6⟩ := hg
      rw [q4] at g3; cases g3
      have hoth := hI.others (t := t) (by rw [hp]; rfl)
      refine hI.build (t := t) (p := .gr10 h a' v1 b') rfl (.inr (.inl (by rw [hp]; rfl))) (fun _ => hoth)
        (by simp [PC.deletes]) (.simple rfl (hb.copy rfl (Nat.le_refl _)) rfl) rfl ?_ ?_
        ⟨g1, g2, hab, ⟨o, q4, g4, g5, q5⟩, g6⟩ ?_
      · intro t' hn
        refine (hI.loc t').frame ?_ (Nat.le_refl _)
        intro i hi
        have : i ≠ h.i := by
          rintro rfl
          exact hn (hI.flags _ _ _ hi (by rw [hp]; rfl))
        exact ⟨rfl, rfl, upd_ne _ _ this⟩
      · intro t' hn
        refine (hI.core t').other (hoth t' hn) ?_ ?_ (Int.le_refl _) ?_ (fun _ _ _ _ h => h) ?_
        · intro h a1 v hq'
          have := hI.core t'
          rw [hq'] at this
          rcases this.2.1 with h | h
          · rw [g1] at h; cases h
          · rw [q1] at h; exact h.2.elim
        · simp only [St.cap, q1, Cont.phase]; exact Int.le_refl _
        · intro h a1 v' hq'
          have := hI.core t'
          rw [hq'] at this ⊢
          refine ⟨this.1, this.2.1, this.2.2.1, ?_⟩
          have := this.2.2.2
          rw [q1] at this; exact this
        · intro h c a v b k hq' hm
          simp only [St.migOK, q1] at hm
          exact hm
      · intro x o1 h1 h2 h3
        obtain ⟨v2, b2, h4⟩ := hI.heap x o1 h1 h2 h3
        rw [q1] at h4; cases h4
        cases q4.symm.trans h1; omega
  | hgWait => exact hI
  | hgEnd hp ht =>
    exact hI.goto hp (.inr rfl) (by simp [PC.grower]) (by simp [PC.deletes])
      (.simple rfl (hI.base hp rfl) rfl) trivial
/-- The invariant holds initially. -/
theorem SInv.init (a : A) (n : Nat) : SInv (St.init a n : St T A) where
  loc _ := .none (.inl rfl)
  core _ := trivial
  flags _ _ _ h _ := by cases h
  grower _ _ h _ := by cases h
  deletes _ _ _ h _ := by cases h
  glob := ⟨a, ⟨0, Option.none, 0, n⟩, rfl, by simp [St.init, upd], ⟨rfl, rfl⟩, rfl⟩
  heap a' o h1 h2 _ := by
    simp only [St.init, upd] at h1
    split at h1
    · cases h1; exact absurd rfl h2
    · cases h1

theorem Reach.inv {a : A} {n : Nat} {s : St T A} (h : Reach false a n s) : SInv s := by
  induction h with
  | init => exact SInv.init a n
  | step _ hs ih => exact step_inv ih hs

end
end Sync
end Growt
