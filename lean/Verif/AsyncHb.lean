import Verif.AsyncStep

/-!
# Asynchronous growth: what happens before what

`Async.lean` treats all atomic accesses as sequentially consistent.  The slots of a new table, however, are
written by the migrating threads with plain stores (`std::fill`, `base_linear.hpp:1229-1269`;
`non_atomic_set`, 1273-1296), and the members of the new table object by its constructor.  Here the steps of
the protocol carry the *happens-before* relation of the language standard: who knows of which of these
writes, given the memory orders of the accesses to `_n_helper`, `_table`, `next_table`,
`_current_copy_block` and `_epoch`.
-/

set_option linter.unusedSectionVars false

namespace Growt
namespace Async

/-- The memory orders of the accesses by which threads synchronise (`estrat_async.hpp`): `add`: `fetch_add` of
`_n_helper`, 251; `sub`: `fetch_sub`, 265, 280; `zero`: the load in `end_grow`, 325; `pub`: the exchange of
`_table`, 332; `prot`: reading `_table` in `protect`, 200, 256, 314; `att`: the exchange of `next_table`, 229;
`next`: loading it, 263, 270, 330; `copy`: `fetch_add` of `_current_copy_block`, 298, 305; `switch`: the store to
`_epoch`, 344; `epoch`: its load in `get_table`, 211.  `true`: the order has the acquiring and releasing
effects that the access can have; `false`: relaxed. -/
structure Orders where
  add : Bool
  sub : Bool
  zero : Bool
  pub : Bool
  prot : Bool
  att : Bool
  next : Bool
  copy : Bool
  switch : Bool
  epoch : Bool

/-- The orders in the code (`estrat_async.hpp:211, 229, 251, 263, 265, 280, 298, 305, 325, 330, 332, 344`; those
without argument are sequentially consistent).  `protect` of the library `rtm` is taken to acquire; the loads of
`_epoch` in 201 and 315 are relaxed and have no effect here. -/
def codeOrders : Orders := ⟨true, true, true, true, true, true, true, true, true, true⟩

/-- Plain writes to tables: the construction of the table with version `v` (`estrat_async.hpp:222-226`), and the
migration of block `k` from the table with version `v`, that is, writes to the slots of the table with version
`v + 1` (301-304). -/
inductive Tok where
  | made (v : Nat)
  | blk (v k : Nat)
  deriving DecidableEq

/-- The version of the table that is written to (`estrat_async.hpp:226, 301`). -/
def Tok.ver : Tok → Nat
  | .made v => v
  | .blk v _ => v + 1

/-- Happens-before: `done`: the writes that have taken place; `know t`: those that happened before the present
point of thread `t`; for each atomic variable the writes that happened before the writes which an acquiring
access of it synchronises with: `_n_helper`, `_table`, `_epoch` (`estrat_async.hpp:136-139`), `next_table` (89)
and `_current_copy_block` (`base_linear.hpp:255`) of the table with a version. -/
structure HB (T : Type) where
  done : Tok → Bool
  know : T → Tok → Bool
  nh : Tok → Bool
  tab : Tok → Bool
  ep : Tok → Bool
  next : Nat → Tok → Bool
  copy : Nat → Tok → Bool

section
variable {T A : Type} [DecidableEq T] [DecidableEq A]

/-- What a set becomes if an access with the given order adds `y` to it. (model bookkeeping, no code) -/
def join (o : Bool) (x y : Tok → Bool) : Tok → Bool := fun k => x k || (o && y k)

/-- One more write. (model bookkeeping, no code) -/
def addTok (x : Tok → Bool) (n : Tok) : Tok → Bool := fun k => x k || decide (k = n)

/-- The version of a table (`estrat_async.hpp:87`). -/
def St.ver (s : St T A) (a : A) : Nat := match s.heap a with | some o => o.ver | none => 0

/-- What thread `t` learns and tells in a step from `p` to `p'`, `s` being the state before
(`estrat_async.hpp:197-350`).  Messages at variables that are only changed by read-modify-write accesses grow; the
store to `_epoch` replaces its message. -/
def eff (o : Orders) (b : HB T) (s : St T A) (t : T) : PC A → PC A → HB T
  | .mg0 _, .mg1 _ =>
    { b with know := upd b.know t (join o.add (b.know t) b.nh), nh := join o.add b.nh (b.know t) }
  | .mg6 _ _ _, .mg7 _ _ _ => { b with nh := join o.sub b.nh (b.know t) }
  | .mg8 _ _, .mg9 _ _ => { b with nh := join o.sub b.nh (b.know t) }
  | .eg1 _, .eg2 _ => { b with know := upd b.know t (join o.zero (b.know t) b.nh) }
  | .eg3 _ _, .eg4 _ _ =>
    { b with know := upd b.know t (join o.pub (b.know t) b.tab), tab := join o.pub b.tab (b.know t) }
  | .ldP _ _, .ldW _ _ _ => { b with know := upd b.know t (join o.prot (b.know t) b.tab) }
  | .mg1 _, .mg2 _ _ => { b with know := upd b.know t (join o.prot (b.know t) b.tab) }
  | .gr2 h _, .mg0 _ =>
    { b with
      done := addTok b.done (.made (s.ver h.tab + 1))
      know := upd b.know t (addTok (b.know t) (.made (s.ver h.tab + 1)))
      next := upd b.next (s.ver h.tab)
        (join o.att (b.next (s.ver h.tab)) (addTok (b.know t) (.made (s.ver h.tab + 1)))) }
  | .mg2 _ c, .mg3 _ _ => { b with know := upd b.know t (join o.next (b.know t) (b.next (s.ver c))) }
  | .mg3 _ c, .mg4 _ _ _ => { b with know := upd b.know t (join o.next (b.know t) (b.next (s.ver c))) }
  | .eg2 h, .eg3 _ _ => { b with know := upd b.know t (join o.next (b.know t) (b.next (s.ver h.tab))) }
  | .mg4 _ c _, .mg5 _ _ _ _ =>
    { b with
      know := upd b.know t (join o.copy (b.know t) (b.copy (s.ver c)))
      copy := upd b.copy (s.ver c) (join o.copy (b.copy (s.ver c)) (b.know t)) }
  | .mg4 _ c _, .mg6 _ _ _ =>
    { b with
      know := upd b.know t (join o.copy (b.know t) (b.copy (s.ver c)))
      copy := upd b.copy (s.ver c) (join o.copy (b.copy (s.ver c)) (b.know t)) }
  | .mg5 _ c _ k, .mg4 _ _ _ =>
    { b with
      done := addTok b.done (.blk (s.ver c) k)
      know := upd b.know t (addTok (b.know t) (.blk (s.ver c) k)) }
  | .eg4 _ _, .eg5 _ => { b with ep := fun k => o.switch && b.know t k }
  | .idle _, .use _ => { b with know := upd b.know t (join o.epoch (b.know t) b.ep) }
  | .idle _, .ldU _ _ => { b with know := upd b.know t (join o.epoch (b.know t) b.ep) }
  | _, _ => b

/-- The protocol with the happens-before relation (`estrat_async.hpp:70-350`). -/
structure HSt (T A : Type) where
  s : St T A
  b : HB T

/-- Steps: those of the protocol; `t` is the thread that makes the step (`estrat_async.hpp:197-350`). -/
inductive HStep (o : Orders) : HSt T A → Lab T A → HSt T A → Prop where
  | mk {x : HSt T A} {e : Lab T A} {s' : St T A} (t : T) (hs : Step x.s e s')
      (ht : ∀ t', t' ≠ t → s'.pc t' = x.s.pc t') : HStep o x e ⟨s', eff o x.b x.s t (x.s.pc t) (s'.pc t)⟩

/-- Nothing has been written but the first table, which all threads know (`estrat_async.hpp:109-115`). -/
def HB.init : HB T := ⟨fun _ => false, fun _ _ => false, fun _ => false, fun _ => false, fun _ => false,
  fun _ _ => false, fun _ _ => false⟩

/-- Executions. (model bookkeeping, no code) -/
inductive HReach (o : Orders) (a : A) (n : Nat) : List (Lab T A) → HSt T A → Prop where
  | init : HReach o a n [] ⟨St.init a n, HB.init⟩
  | step {l : List (Lab T A)} {x x' : HSt T A} {e : Lab T A} (h : HReach o a n l x) (hs : HStep o x e x') :
      HReach o a n (l ++ [e]) x'

theorem HReach.base {o : Orders} {a : A} {n : Nat} {l : List (Lab T A)} {x : HSt T A} (h : HReach o a n l x) :
    Reach a n l x.s := by
  induction h with
  | init => exact .init
  | step _ hs ih => cases hs with | mk t hs ht => exact .step ih hs

/-- Every step is one of at most one thread. -/
theorem step_one {s s' : St T A} {e : Lab T A} (hs : Step s e s') :
    s'.pc = s.pc ∨ ∃ t p, s'.pc = upd s.pc t p := by
  cases hs <;> first
    | exact .inl rfl
    | exact .inr ⟨_, _, rfl⟩

/-- Every execution of the protocol is one with a happens-before relation. -/
theorem HReach.lift (o : Orders) [Inhabited T] {a : A} {n : Nat} {l : List (Lab T A)} {s : St T A} (h : Reach a n l s) :
    ∃ b, HReach o a n l ⟨s, b⟩ := by
  induction h with
  | init => exact ⟨_, .init⟩
  | step _ hs ih =>
    obtain ⟨b, ih⟩ := ih
    rcases step_one hs with h | ⟨t, p, h⟩
    · exact ⟨_, .step ih (.mk default hs (fun t' _ => by rw [h]))⟩
    · exact ⟨_, .step ih (.mk t hs (fun t' ht => by rw [h, upd_ne _ _ ht]))⟩

/-! ## The invariant -/

/-- What the handle of a migrating thread needs. (proof, no code) -/
def needH (u : Option (Hd A)) (k : Tok) : Prop := ∃ h, u = some h ∧ k.ver ≤ h.ep

/-- The writes that a thread has to know, if they have taken place. (proof, no code) -/
def Needs (s : St T A) : PC A → Tok → Prop
  | .fresh, _ | .pool, _ | .ldP _ _, _ => False
  | .idle h, k | .gone h, k | .ldU _ h, k | .use h, k | .gr1 h, k | .gr2 h _, k | .gr3 h _, k | .eg1 h, k
  | .eg5 h, k => k.ver ≤ h.ep
  | .ldW _ _ a, k => ∃ o, s.heap a = some o ∧ k.ver ≤ o.ver
  | .mg0 u, k | .mg1 u, k | .mg7 u _ _, k | .mg7b u _, k | .mg9 u _, k => needH u k
  | .mg2 u c, k | .mg3 u c, k | .mg8 u c, k => needH u k ∨ ∃ o, s.heap c = some o ∧ k.ver ≤ o.ver
  | .mg4 u c _, k | .mg5 u c _ _, k | .mg6 u c _, k =>
    needH u k ∨ ∃ o, s.heap c = some o ∧ (k.ver ≤ o.ver ∨ k = .made (o.ver + 1))
  | .eg2 h, k => k.ver ≤ h.ep ∨ (h.tab = s.glob ∧ ∃ i, k = .blk h.ep i)
  | .eg3 h _, k => k.ver ≤ h.ep ∨ (h.tab = s.glob ∧ k.ver = h.ep + 1)
  | .eg4 h _, k => k.ver ≤ h.ep + 1

/-- The orders that matter. (proof, no code) -/
structure Orders.Ok (o : Orders) : Prop where
  sub : o.sub = true
  zero : o.zero = true
  pub : o.pub = true
  prot : o.prot = true
  att : o.att = true
  next : o.next = true

/-- The invariant. (proof, no code) -/
structure HInv (x : HSt T A) : Prop where
  i : Inv x.s
  tab : ∀ k, x.b.done k = true → k.ver ≤ x.s.vg → x.b.tab k = true
  next : ∀ v, x.b.done (.made (v + 1)) = true → x.b.next v (.made (v + 1)) = true
  blk : ∀ w k, x.b.done (.blk w k) = true → w ≤ x.s.vg ∧ (w = x.s.vg → x.b.nh (.blk w k) = true ∨
    ∃ t, (x.s.pc t).zone = true ∧ x.b.know t (.blk w k) = true)
  need : ∀ t k, x.b.done k = true → Needs x.s (x.s.pc t) k → x.b.know t k = true

theorem step_glob {s s' : St T A} {e : Lab T A} (hs : Step s e s') :
    s'.glob = s.glob ∨ ∃ t h n, s.pc t = .eg3 h (some n) ∧ s.glob = h.tab ∧ s'.glob = n := by
  cases hs <;> first
    | exact .inl rfl
    | (rename_i hp hg; exact .inr ⟨_, _, _, hp, hg, rfl⟩)

theorem ver_some {s : St T A} {a : A} {o : Obj A} (h : s.heap a = some o) : s.ver a = o.ver := by
  simp [St.ver, h]

/-- A thread that does nothing does not need more. -/
theorem need_frame {s s' : St T A} {e : Lab T A} (i : Inv s) (hs : Step s e s') {p : PC A} (hp : TInv s p)
    {k : Tok} (h : Needs s' p k) : Needs s p k := by
  have ver : ∀ {a o o'}, Pub s a o → s'.heap a = some o' → o'.ver = o.ver :=
    fun h1 h2 => (step_ole hs h1.1 h2).ver
  have cleared : ∀ {h : Hd A} {q}, HoldD s h q → h.tab = s'.glob → h.tab = s.glob := by
    intro h q hh hg
    rcases step_glob hs with e | ⟨t, h', n, hp', hg', e⟩
    · rw [hg, e]
    · have ht := i.t t
      rw [hp'] at ht
      obtain ⟨o, on, -, -, -, -, -, -, -, -, p2, p3, -⟩ := publish_at i.g ht hg'
      obtain ⟨oh, q1, q2, q3, -⟩ := hh
      rw [hg, e] at q1
      have := p2.1.symm.trans q1.1
      cases this
      omega
  cases p with
  | ldW c v a =>
    obtain ⟨-, o, ho, -⟩ := hp
    obtain ⟨o', ho', hv⟩ := h
    exact ⟨o, ho.1, by rw [← ver ho ho']; exact hv⟩
  | mg2 u c | mg3 u c | mg8 u c =>
    obtain ⟨-, o, ho, -⟩ := hp
    rcases h with h | ⟨o', ho', hv⟩
    · exact .inl h
    · exact .inr ⟨o, ho.1, by rw [← ver ho ho']; exact hv⟩
  | mg4 u c n | mg5 u c n j | mg6 u c n =>
    obtain ⟨-, ⟨o, ho, -⟩, -⟩ := hp
    rcases h with h | ⟨o', ho', hv⟩
    · exact .inl h
    · exact .inr ⟨o, ho.1, by rw [← ver ho ho']; exact hv⟩
  | eg2 h' =>
    rcases h with h | ⟨hg, h⟩
    · exact .inl h
    · exact .inr ⟨cleared (q := fun _ => True) hp hg, h⟩
  | eg3 h' nx =>
    rcases h with h | ⟨hg, h⟩
    · exact .inl h
    · exact .inr ⟨cleared (q := fun x => x = nx) hp hg, h⟩
  | _ => exact h

theorem near_vg {s : St T A} (g : GInv s) {c : A} {o : Obj A} (hc : Pub s c o) (hn : Near s c o) :
    o.ver ≤ s.vg := by
  rcases hn with rfl | h
  · obtain ⟨o', h1, h2⟩ := g.glob
    have := h1.1.symm.trans hc.1
    cases this
    exact Nat.le_of_eq h2
  · exact Nat.le_trans (g.next c o hc (by rw [h]; nofun)) (vg_bounds s).1

/-- What nobody needs yet: writes to a table after the current one, while the current one is not migrated. -/
theorem need_new {s : St T A} (g : GInv s) {p : PC A} (hp : TInv s p) {k : Tok} (hk : k.ver = s.vg + 1)
    {og : Obj A} (ho : s.heap s.glob = some og)
    (hm : (∃ v, k = .made v) → og.next = none)
    (hb : og.next = none ∨ ∃ j, j < og.blocks ∧ og.fin j = false) : ¬ Needs s p k := by
  have hold : ∀ {h : Hd A}, Hold s h → ¬ k.ver ≤ h.ep := by
    intro h hh hle
    have := hh.vle
    omega
  have optN : ∀ {u : Option (Hd A)}, OptH u (HoldN s) → ¬ needH u k :=
    fun hu ⟨h, e, hle⟩ => hold (hu h e).hold hle
  have optX : ∀ {u : Option (Hd A)}, OptH u (HoldX s) → ¬ needH u k :=
    fun hu ⟨h, e, hle⟩ => hold (hu h e).holdN.hold hle
  have src : ∀ {u c q}, Src s u c q → ¬ ∃ o, s.heap c = some o ∧ k.ver ≤ o.ver := by
    rintro u c q ⟨o, h1, h2, -⟩ ⟨o', h3, h4⟩
    have := h1.1.symm.trans h3
    cases this
    have := near_vg g h1 h2
    omega
  have src4 : ∀ {u c n} {q : Obj A → Prop}, (∀ o, q o → o.next = some n) → Src s u c q →
      ¬ ∃ o, s.heap c = some o ∧ (k.ver ≤ o.ver ∨ k = .made (o.ver + 1)) := by
    rintro u c n q hq h ⟨o', h3, h4 | h4⟩
    · exact src h ⟨o', h3, h4⟩
    · obtain ⟨o, h1, h2, -, h5⟩ := h
      have := h1.1.symm.trans h3
      cases this
      have e : o'.ver = s.vg := by rw [h4] at hk; simp only [Tok.ver] at hk; omega
      obtain ⟨o2, g1, g2⟩ := g.glob
      have hc := g.inj c o' _ _ h1 g1 (e.trans g2.symm)
      subst hc
      have := ho.symm.trans h3
      cases this
      have := hm ⟨_, h4⟩
      rw [hq _ h5] at this; cases this
  have clr : ∀ {h : Hd A} {q}, HoldD s h q → h.tab ≠ s.glob := by
    rintro h q ⟨o, h1, h2, h3, h4, h5, h6, -⟩ e
    rw [e] at h1
    have := h1.1.symm.trans ho
    cases this
    rcases hb with hb | ⟨j, hb, hf⟩
    · exact h4 hb
    · rw [h6 j hb] at hf; cases hf
  cases p with
  | fresh | pool | ldP c v => exact id
  | idle h | gone h | ldU c h | use h | gr1 h => exact hold hp
  | gr2 h b => exact hold hp.1
  | gr3 h b => exact hold hp.1.hold
  | eg1 h => exact hold hp.holdN.hold
  | eg5 h =>
    obtain ⟨o, h1, h2, h3, -⟩ := hp
    exact hold ⟨o, h1, h2, Nat.le_of_lt h3⟩
  | ldW c v a =>
    obtain ⟨-, o, h1, h2⟩ := hp
    rintro ⟨o', h3, h4⟩
    have := h1.1.symm.trans h3
    cases this
    omega
  | mg0 u | mg1 u => exact optN hp
  | mg7 u c n | mg7b u c | mg9 u c => exact optX hp.1
  | mg2 u c | mg3 u c => exact fun h => h.elim (optN hp.1) (src hp.2)
  | mg8 u c => exact fun h => h.elim (optX hp.1) (src hp.2)
  | mg4 u c n => exact fun h => h.elim (optN hp.1) (src4 (n := n) (fun _ h => h) hp.2.1)
  | mg5 u c n j => exact fun h => h.elim (optN hp.1) (src4 (n := n) (fun _ h => h.1) hp.2.1)
  | mg6 u c n => exact fun h => h.elim (optX hp.1) (src4 (n := n) (fun _ h => h) hp.2.1)
  | eg2 h =>
    have hp : HoldD s h (fun _ => True) := hp
    exact fun h' => h'.elim (hold hp.holdX.holdN.hold) (fun h' => clr hp h'.1)
  | eg3 h nx =>
    have hp : HoldD s h (fun x => x = nx) := hp
    exact fun h' => h'.elim (hold hp.holdX.holdN.hold) (fun h' => clr hp h'.1)
  | eg4 h n =>
    obtain ⟨⟨o, h1, h2, h3⟩, h4, h5, h6⟩ := hp
    intro h'
    have h' : k.ver ≤ h.ep + 1 := h'
    have : s.vg = s.epoch + 1 := by simp [St.vg, h6]
    omega

/-- Who migrates a block migrates the current table. -/
theorem mg5_glob {s : St T A} (g : GInv s) {u : Option (Hd A)} {c n : A} {k : Nat}
    (hp : TInv s (.mg5 u c n k)) : c = s.glob ∧ ∃ o, Pub s c o ∧ o.ver = s.vg ∧ k < o.blocks ∧ o.fin k = false := by
  obtain ⟨-, ⟨o, h1, h2, -, h4, h5, h6, h7⟩, -⟩ := hp
  have hle := near_vg g h1 h2
  have : ¬ o.ver < s.vg := fun h => by
    have := (g.old c o h1 h).2.2 k h6
    rw [h7] at this; cases this
  obtain ⟨o2, g1, g2⟩ := g.glob
  have e : o.ver = s.vg := by omega
  exact ⟨g.inj c o _ _ h1 g1 (e.trans g2.symm), o, h1, e, h6, h7⟩

/-! ## The effects -/

theorem join_left {o : Bool} {x y : Tok → Bool} {k : Tok} (h : x k = true) : join o x y k = true := by
  simp [join, h]

theorem join_right {o : Bool} {x y : Tok → Bool} {k : Tok} (ho : o = true) (h : y k = true) :
    join o x y k = true := by
  simp [join, h, ho]

theorem upd_mono {I : Type} [DecidableEq I] {f : I → Tok → Bool} {i : I} {g : Tok → Bool}
    (h : ∀ k, f i k = true → g k = true) (j : I) (k : Tok) (hf : f j k = true) : upd f i g j k = true := by
  by_cases e : j = i
  · subst e; rw [upd_same]; exact h k hf
  · rw [upd_ne _ _ e]; exact hf

theorem addTok_left {x : Tok → Bool} {n k : Tok} (h : x k = true) : addTok x n k = true := by
  simp [addTok, h]

theorem addTok_self {x : Tok → Bool} {n : Tok} : addTok x n n = true := by simp [addTok]

theorem addTok_or {x : Tok → Bool} {n k : Tok} (h : addTok x n k = true) : x k = true ∨ k = n := by
  simpa [addTok] using h

theorem eff_know {o : Orders} {b : HB T} {s : St T A} {t : T} {p p' : PC A} {t' : T} {k : Tok}
    (h : b.know t' k = true) : (eff o b s t p p').know t' k = true := by
  unfold eff
  split <;> first
    | exact h
    | exact upd_mono (fun _ => join_left) _ _ h
    | exact upd_mono (fun _ => addTok_left) _ _ h

theorem eff_other {o : Orders} {b : HB T} {s : St T A} {t : T} {p p' : PC A} {t' : T} (ht : t' ≠ t) :
    (eff o b s t p p').know t' = b.know t' := by
  unfold eff
  split <;> first
    | rfl
    | exact upd_ne _ _ ht

theorem eff_nh {o : Orders} {b : HB T} {s : St T A} {t : T} {p p' : PC A} {k : Tok}
    (h : b.nh k = true) : (eff o b s t p p').nh k = true := by
  unfold eff
  split <;> first
    | exact h
    | exact join_left h

theorem eff_tab {o : Orders} {b : HB T} {s : St T A} {t : T} {p p' : PC A} {k : Tok}
    (h : b.tab k = true) : (eff o b s t p p').tab k = true := by
  unfold eff
  split <;> first
    | exact h
    | exact join_left h

theorem eff_next {o : Orders} {b : HB T} {s : St T A} {t : T} {p p' : PC A} {v : Nat} {k : Tok}
    (h : b.next v k = true) : (eff o b s t p p').next v k = true := by
  unfold eff
  split <;> first
    | exact h
    | exact upd_mono (fun _ => join_left) _ _ h

theorem eff_self {o : Orders} {b : HB T} {s : St T A} {t : T} (p : PC A) : eff o b s t p p = b := by
  cases p <;> rfl

/-- The thread that makes a step. -/
theorem mover {s s' : St T A} {t t0 : T} {p p' : PC A} (ht : ∀ t', t' ≠ t → s'.pc t' = s.pc t')
    (hp : s.pc t0 = p) (hpc : s'.pc = upd s.pc t0 p') (hne : p' ≠ p) : t = t0 := by
  by_cases e : t0 = t
  · exact e.symm
  · have := ht t0 e
    rw [hpc, upd_same, hp] at this
    exact absurd this hne

/-- Steps that write nothing and do not exchange the current table. -/
theorem HInv.quiet {o : Orders} {x : HSt T A} {s' : St T A} {e : Lab T A} {t t0 : T} {p p' : PC A} (h : HInv x)
    (hs : Step x.s e s') (ht : ∀ t', t' ≠ t → s'.pc t' = x.s.pc t')
    (hp : x.s.pc t0 = p) (hpc : s'.pc = upd x.s.pc t0 p') (hne : p' ≠ p) (hv : s'.vg = x.s.vg)
    (hd : (eff o x.b x.s t0 p p').done = x.b.done)
    (hz : p.zone = true → p'.zone = true ∨ ∀ k, x.b.know t0 k = true → (eff o x.b x.s t0 p p').nh k = true)
    (hn : ∀ k, x.b.done k = true → Needs s' p' k → Needs x.s p k ∨ (eff o x.b x.s t0 p p').know t0 k = true) :
    HInv ⟨s', eff o x.b x.s t (x.s.pc t) (s'.pc t)⟩ := by
  have e := mover ht hp hpc hne
  subst e
  have hp' : s'.pc t = p' := by rw [hpc, upd_same]
  rw [hp, hp']
  refine ⟨h.i.step hs, fun k hk hle => ?_, fun v hk => ?_, fun w k hk => ?_, fun t' k hk hnd => ?_⟩
  · have hk : (eff o x.b x.s t p p').done k = true := hk
    rw [hd] at hk
    have hle : k.ver ≤ s'.vg := hle
    rw [hv] at hle
    exact eff_tab (h.tab k hk hle)
  · have hk : (eff o x.b x.s t p p').done _ = true := hk
    rw [hd] at hk
    exact eff_next (h.next v hk)
  · have hk : (eff o x.b x.s t p p').done _ = true := hk
    rw [hd] at hk
    obtain ⟨h1, h2⟩ := h.blk w k hk
    show w ≤ s'.vg ∧ (w = s'.vg → _)
    rw [hv]
    refine ⟨h1, fun hw => ?_⟩
    rcases h2 hw with h3 | ⟨t', h3, h4⟩
    · exact .inl (eff_nh h3)
    · by_cases et : t' = t
      · subst et
        rw [hp] at h3
        rcases hz h3 with h5 | h5
        · refine .inr ⟨t', ?_, eff_know h4⟩
          show (s'.pc t').zone = true
          rw [hp']; exact h5
        · exact .inl (h5 _ h4)
      · refine .inr ⟨t', ?_, eff_know h4⟩
        show (s'.pc t').zone = true
        rw [ht t' et]; exact h3
  · have hk' : x.b.done k = true := by rw [← hd]; exact hk
    by_cases et : t' = t
    · subst et
      have hnd : Needs s' (s'.pc t') k := hnd
      rw [hp'] at hnd
      rcases hn k hk' hnd with h1 | h1
      · exact eff_know (h.need t' k hk' (by rw [hp]; exact h1))
      · exact h1
    · have hnd : Needs s' (s'.pc t') k := hnd
      rw [ht t' et] at hnd
      exact eff_know (h.need t' k hk' (need_frame h.i hs (h.i.t t') hnd))

/-- Steps that write to the table after the current one. -/
theorem HInv.write {o : Orders} {x : HSt T A} {s' : St T A} {e : Lab T A} {t t0 : T} {p p' : PC A} (h : HInv x)
    (hs : Step x.s e s') (ht : ∀ t', t' ≠ t → s'.pc t' = x.s.pc t')
    (hp : x.s.pc t0 = p) (hpc : s'.pc = upd x.s.pc t0 p') (hne : p' ≠ p) (hv : s'.vg = x.s.vg) (n : Tok)
    (hd : (eff o x.b x.s t0 p p').done = addTok x.b.done n) (hnv : n.ver = x.s.vg + 1)
    (hkn : (eff o x.b x.s t0 p p').know t0 n = true)
    (hnx : ∀ v, n = .made (v + 1) → (eff o x.b x.s t0 p p').next v n = true)
    (hzn : ∀ w k, n = .blk w k → p'.zone = true) (hz : p.zone = true → p'.zone = true)
    {og : Obj A} (hog : x.s.heap x.s.glob = some og) (hm : (∃ v, n = .made v) → og.next = none)
    (hb : og.next = none ∨ ∃ j, j < og.blocks ∧ og.fin j = false)
    (hn : ∀ k, Needs s' p' k → Needs x.s p k) :
    HInv ⟨s', eff o x.b x.s t (x.s.pc t) (s'.pc t)⟩ := by
  have e := mover ht hp hpc hne
  subst e
  have hp' : s'.pc t = p' := by rw [hpc, upd_same]
  rw [hp, hp']
  have old : ∀ k, (eff o x.b x.s t p p').done k = true → x.b.done k = true ∨ k = n := by
    intro k hk
    rw [hd] at hk; exact addTok_or hk
  refine ⟨h.i.step hs, fun k hk hle => ?_, fun v hk => ?_, fun w k hk => ?_, fun t' k hk hnd => ?_⟩
  · have hle : k.ver ≤ s'.vg := hle
    rw [hv] at hle
    rcases old k hk with hk | rfl
    · exact eff_tab (h.tab k hk hle)
    · omega
  · rcases old _ hk with hk | e
    · exact eff_next (h.next v hk)
    · have := hnx v e.symm
      rw [← e] at this; exact this
  · show w ≤ s'.vg ∧ (w = s'.vg → _)
    rw [hv]
    rcases old _ hk with hk | e
    · obtain ⟨h1, h2⟩ := h.blk w k hk
      refine ⟨h1, fun hw => ?_⟩
      rcases h2 hw with h3 | ⟨t', h3, h4⟩
      · exact .inl (eff_nh h3)
      · refine .inr ⟨t', ?_, eff_know h4⟩
        show (s'.pc t').zone = true
        by_cases et : t' = t
        · subst et
          rw [hp'] ; rw [hp] at h3; exact hz h3
        · rw [ht t' et]; exact h3
    · refine ⟨by rw [← e] at hnv; simp only [Tok.ver] at hnv; omega, fun _ => .inr ⟨t, ?_, ?_⟩⟩
      · show (s'.pc t).zone = true
        rw [hp']; exact hzn w k e.symm
      · rw [e]; exact hkn
  · have hnd : Needs s' (s'.pc t') k := hnd
    have hnd' : Needs x.s (x.s.pc t') k := by
      by_cases et : t' = t
      · subst et
        rw [hp'] at hnd; rw [hp]; exact hn k hnd
      · rw [ht t' et] at hnd
        exact need_frame h.i hs (h.i.t t') hnd
    rcases old k hk with hk | rfl
    · exact eff_know (h.need t' k hk hnd')
    · exact absurd hnd' (need_new h.i.g (h.i.t t') hnv hog hm hb)

/-- Steps in which no thread moves. -/
theorem HInv.still {o : Orders} {x : HSt T A} {s' : St T A} {e : Lab T A} {t : T} (h : HInv x)
    (hs : Step x.s e s') (hpc : s'.pc = x.s.pc) (hv : s'.vg = x.s.vg) :
    HInv ⟨s', eff o x.b x.s t (x.s.pc t) (s'.pc t)⟩ := by
  rw [hpc, eff_self]
  refine ⟨h.i.step hs, fun k hk hle => ?_, h.next, fun w k hk => ?_, fun t' k hk hnd => ?_⟩
  · have hle : k.ver ≤ s'.vg := hle
    rw [hv] at hle
    exact h.tab k hk hle
  · obtain ⟨h1, h2⟩ := h.blk w k hk
    show w ≤ s'.vg ∧ (w = s'.vg → _)
    rw [hv]
    refine ⟨h1, fun hw => ?_⟩
    show _ ∨ ∃ t, (s'.pc t).zone = true ∧ _
    rw [hpc]; exact h2 hw
  · have hnd : Needs s' (s'.pc t') k := hnd
    rw [hpc] at hnd
    exact h.need t' k hk (need_frame h.i hs (h.i.t t') hnd)

theorem HInv.init (a : A) (n : Nat) : HInv (⟨St.init a n, HB.init⟩ : HSt T A) :=
  ⟨Inv.init a n, nofun, nofun, nofun, nofun⟩

theorem HInv.step {o : Orders} (ho : o.Ok) {x x' : HSt T A} {e : Lab T A} (h : HInv x) (hs : HStep o x e x') :
    HInv x' := by
  obtain ⟨t, hs, ht⟩ := hs
  have g := h.i.g
  have tp : ∀ {t : T} {p : PC A}, x.s.pc t = p → TInv x.s p := fun {t} {p} hh => by rw [← hh]; exact h.i.t t
  have hs0 := hs
  cases hs with
  | create hp => exact h.quiet hs0 ht hp rfl nofun rfl rfl nofun (fun k _ hn => False.elim hn)
  | pool hp => exact h.quiet hs0 ht hp rfl nofun rfl rfl nofun (fun k _ hn => False.elim hn)
  | poolGo hp => exact h.quiet hs0 ht hp rfl nofun rfl rfl nofun (fun k _ hn => (by obtain ⟨_, e, _⟩ := hn; cases e))
  | destroy hp => exact h.quiet hs0 ht hp rfl nofun rfl rfl nofun (fun k _ hn => .inl hn)
  | unprot hp => exact h.quiet hs0 ht hp rfl nofun rfl rfl nofun (fun k _ hn => False.elim hn)
  | prot hp hg =>
    refine h.quiet hs0 ht hp rfl nofun rfl rfl nofun (fun k hk hn => .inr ?_)
    obtain ⟨o', h1, h2⟩ := hn
    have := hg.symm.trans h1
    cases this
    show upd x.b.know _ _ _ k = true
    rw [upd_same]
    exact join_right ho.prot (h.tab k hk (by rw [← (g.globP hg).2]; exact h2))
  | ldWait hp hg hv => exact h.still hs0 rfl rfl
  | ldDone hp hg hv hc => exact h.quiet hs0 ht hp rfl nofun rfl rfl nofun (fun k _ hn => .inl ⟨_, hg, hn⟩)
  | ldUse hp hg hv => exact h.quiet hs0 ht hp rfl nofun rfl rfl nofun (fun k _ hn => .inl ⟨_, hg, hn⟩)
  | gtOk hp he => exact h.quiet hs0 ht hp rfl nofun rfl rfl nofun (fun k _ hn => .inl hn)
  | gtOld hp he => exact h.quiet hs0 ht hp rfl nofun rfl rfl nofun (fun k _ hn => .inl hn)
  | op hp hg => exact h.still hs0 rfl rfl
  | exitDone hp => exact h.quiet hs0 ht hp rfl nofun rfl rfl nofun (fun k _ hn => .inl hn)
  | exitGrow hp => exact h.quiet hs0 ht hp rfl nofun rfl rfl nofun (fun k _ hn => .inl hn)
  | exitHelp hp hg hn =>
    exact h.quiet hs0 ht hp rfl nofun rfl rfl nofun (fun k _ hn => .inl (by obtain ⟨_, e, hn⟩ := hn; cases e; exact hn))
  | grMake n hp hg hb => exact h.quiet hs0 ht hp rfl nofun rfl rfl nofun (fun k _ hn => .inl hn)
  | @grCas t0 hd b o' ob hp hg hn hb =>
    obtain ⟨e1, e2, e3, e4, -⟩ := attach_at g (tp hp).1 hg hn
    have hog := hg
    rw [e1] at hog
    refine h.write hs0 ht hp rfl nofun rfl (.made (x.s.ver hd.tab + 1)) rfl ?_ ?_ (fun v e => ?_) nofun nofun
      hog (fun _ => hn) (.inl hn) (fun k' hn => ?_)
    · simp only [Tok.ver]; rw [ver_some hg, e3, e4]
    · show upd x.b.know _ _ _ _ = true
      rw [upd_same]; exact addTok_self
    · injection e with e
      have e : x.s.ver hd.tab = v := by omega
      subst e
      show upd x.b.next _ _ _ _ = true
      rw [upd_same]
      exact join_right ho.att addTok_self
    · obtain ⟨_, e, hn⟩ := hn
      cases e; exact hn
  | grFail hp hg hn => exact h.quiet hs0 ht hp rfl nofun rfl rfl nofun (fun k _ hn => .inl hn)
  | grDel hp =>
    exact h.quiet hs0 ht hp rfl nofun rfl rfl nofun (fun k _ hn => .inl (by obtain ⟨_, e, hn⟩ := hn; cases e; exact hn))
  | mgIn hp => exact h.quiet hs0 ht hp rfl nofun rfl rfl nofun (fun k _ hn => .inl hn)
  | mgProt hp hg =>
    refine h.quiet hs0 ht hp rfl nofun rfl rfl (fun _ => .inl rfl) (fun k hk hn => ?_)
    rcases hn with hn | ⟨o', h1, h2⟩
    · exact .inl hn
    · have := hg.symm.trans h1
      cases this
      right
      show upd x.b.know _ _ _ k = true
      rw [upd_same]
      exact join_right ho.prot (h.tab k hk (by rw [← (g.globP hg).2]; exact h2))
  | mgNull hp hg hn => exact h.quiet hs0 ht hp rfl nofun rfl rfl (fun _ => .inl rfl) (fun k _ hn => .inl hn)
  | mgSome hp hg hn => exact h.quiet hs0 ht hp rfl nofun rfl rfl (fun _ => .inl rfl) (fun k _ hn => .inl hn)
  | mgNext hp hg hn hon =>
    refine h.quiet hs0 ht hp rfl nofun rfl rfl (fun _ => .inl rfl) (fun k hk hn => ?_)
    rcases hn with hn | ⟨o', h1, h2 | h2⟩
    · exact .inl (.inl hn)
    · exact .inl (.inr ⟨o', h1, h2⟩)
    · right
      subst h2
      show upd x.b.know _ _ _ _ = true
      rw [upd_same, ver_some (s := x.s) h1]
      exact join_right ho.next (h.next _ hk)
  | claim hp hg hk =>
    refine h.quiet hs0 ht hp rfl nofun rfl rfl (fun _ => .inl rfl) (fun k _ hn => .inl ?_)
    rcases hn with hn | ⟨o', h1, h2⟩
    · exact .inl hn
    · refine .inr ⟨_, hg, ?_⟩
      have h1 : upd x.s.heap _ _ _ = some o' := h1
      rw [upd_same] at h1
      cases h1
      exact h2
  | leave hp hg hk =>
    refine h.quiet hs0 ht hp rfl nofun rfl rfl (fun _ => .inl rfl) (fun k _ hn => .inl ?_)
    rcases hn with hn | ⟨o', h1, h2⟩
    · exact .inl hn
    · refine .inr ⟨_, hg, ?_⟩
      have h1 : upd x.s.heap _ _ _ = some o' := h1
      rw [upd_same] at h1
      cases h1
      exact h2
  | work hp hg hon => exact h.still hs0 rfl rfl
  | @done t0 u c n k o' hp hg =>
    obtain ⟨e, o2, h1, h2, h3, h4⟩ := mg5_glob g (tp hp)
    have e2 := h1.1.symm.trans hg
    cases e2
    have hog := hg
    rw [e] at hog
    refine h.write hs0 ht hp rfl nofun rfl (.blk (x.s.ver c) k) rfl ?_ ?_ nofun (fun _ _ _ => rfl) (fun _ => rfl)
      hog nofun (.inr ⟨k, h3, h4⟩) (fun k' hn => ?_)
    · simp only [Tok.ver]; rw [ver_some hg, h2]
    · show upd x.b.know _ _ _ _ = true
      rw [upd_same]; exact addTok_self
    · rcases hn with hn | ⟨o', q1, q2⟩
      · exact .inl hn
      · refine .inr ⟨_, hg, ?_⟩
        have q1 : upd x.s.heap _ _ _ = some o' := q1
        rw [upd_same] at q1
        cases q1
        exact q2
  | mgOut hp =>
    exact h.quiet hs0 ht hp rfl nofun rfl rfl (fun _ => .inr (fun k hk => join_right ho.sub hk))
      (fun k _ hn => .inl (.inl hn))
  | mgUn hp hon => exact h.quiet hs0 ht hp rfl nofun rfl rfl nofun (fun k _ hn => .inl hn)
  | @mgUn2 _ u _ hp =>
    cases u with
    | none => exact h.quiet hs0 ht hp rfl nofun rfl rfl nofun (fun k _ hn => False.elim hn)
    | some h' => exact h.quiet hs0 ht hp rfl nofun rfl rfl nofun (fun k _ hn => .inl ⟨_, rfl, hn⟩)
  | mgNo hp =>
    exact h.quiet hs0 ht hp rfl nofun rfl rfl (fun _ => .inr (fun k hk => join_right ho.sub hk))
      (fun k _ hn => .inl (.inl hn))
  | @mgNoUn _ u _ _ hp hg =>
    cases u with
    | none => exact h.quiet hs0 ht hp rfl nofun rfl rfl nofun (fun k _ hn => False.elim hn)
    | some h' => exact h.quiet hs0 ht hp rfl nofun rfl rfl nofun (fun k _ hn => .inl ⟨_, rfl, hn⟩)
  | egWait hp hn => exact h.still hs0 rfl rfl
  | egGo hp hn =>
    refine h.quiet hs0 ht hp rfl nofun rfl rfl nofun (fun k hk hnd => ?_)
    rcases hnd with hnd | ⟨hg, i, rfl⟩
    · exact .inl hnd
    · right
      obtain ⟨o', h1, h2, h3, -⟩ := tp hp
      show upd x.b.know _ _ _ _ = true
      rw [upd_same]
      refine join_right ho.zero ?_
      have hg : _ = x.s.glob := hg
      rw [hg] at h1
      have e := (g.globP h1.1).2
      rcases (h.blk _ _ hk).2 (by omega) with h4 | ⟨t', h4, -⟩
      · exact h4
      · rw [no_src_of_zero h.i hn t'] at h4; cases h4
  | @egNext t0 hd o' hp hg =>
    refine h.quiet hs0 ht hp rfl nofun rfl rfl nofun (fun k hk hnd => ?_)
    rcases hnd with hnd | ⟨hgl, hnd⟩
    · exact .inl (.inl hnd)
    · cases k with
      | blk w i =>
        simp only [Tok.ver] at hnd
        have : w = hd.ep := by omega
        subst this
        exact .inl (.inr ⟨hgl, i, rfl⟩)
      | made v =>
        right
        simp only [Tok.ver] at hnd
        subst hnd
        obtain ⟨o2, h1, h2, -⟩ := tp hp
        show upd x.b.know _ _ _ _ = true
        rw [upd_same, ver_some h1.1, h2]
        exact join_right ho.next (h.next _ hk)
  | @egCas t0 hd n hp hg =>
    obtain ⟨o1, on, h1, h2, h3, h4, h5, h6, -, -, h7, h8, h9⟩ := publish_at g (tp hp) hg
    have e := mover ht hp rfl nofun
    subst e
    have hv : (⟨n, x.s.epoch, x.s.nHelper, x.s.heap, upd x.s.pc t (.eg4 hd n), x.s.cur⟩ : St T A).vg = x.s.vg + 1 := by
      simp [St.vg, h9, h5]
    rw [hp]
    simp only [upd_same]
    have kn : ∀ k, x.b.done k = true → k.ver ≤ x.s.vg + 1 → x.b.know t k = true := by
      intro k hk hle
      refine h.need t k hk ?_
      rw [hp]
      by_cases e : k.ver = hd.ep + 1
      · exact .inr ⟨hg.symm, e⟩
      · exact .inl (by omega)
    refine ⟨h.i.step hs0, fun k hk hle => ?_, h.next, fun w k hk => ?_, fun t' k hk hnd => ?_⟩
    · exact join_right ho.pub (kn k hk (by rw [← hv]; exact hle))
    · have := (h.blk w k hk).1
      refine ⟨?_, fun hw => ?_⟩
      · rw [hv]; omega
      · rw [hv] at hw; omega
    · by_cases et : t' = t
      · subst et
        refine eff_know (p := .eg3 hd (some n)) (p' := .eg4 hd n) (s := x.s) (kn k hk ?_)
        simp only [upd_same] at hnd
        have hnd : k.ver ≤ hd.ep + 1 := hnd
        omega
      · simp only [upd_ne _ _ et] at hnd
        exact eff_know (p := .eg3 hd (some n)) (p' := .eg4 hd n) (s := x.s)
          (h.need t' k hk (need_frame h.i hs0 (h.i.t t') hnd))
  | egFail hp hg =>
    exact h.quiet hs0 ht hp rfl nofun rfl rfl nofun (fun k _ hn => .inl (.inl hn))
  | egEpoch hp hg =>
    obtain ⟨-, h2, -, h4⟩ := tp hp
    subst h2
    refine h.quiet hs0 ht hp rfl nofun ?_ rfl nofun (fun k _ hn => .inl (Nat.le_succ_of_le hn))
    rw [← (g.globP hg).2]
    simp [St.vg]
  | egRetire hp hg => exact h.quiet hs0 ht hp rfl nofun rfl rfl nofun (fun k _ hn => .inl hn)
  | free hg hr hn => exact h.still hs0 rfl rfl

theorem HInv.reach {o : Orders} (ho : o.Ok) {a : A} {n : Nat} {l : List (Lab T A)} {x : HSt T A}
    (h : HReach o a n l x) : HInv x := by
  induction h with
  | init => exact HInv.init a n
  | step _ hs ih => exact ih.step ho hs

/-! ## Weaker orders -/

/-- Orders that synchronise less. (proof, no code) -/
structure Orders.Le (o o' : Orders) : Prop where
  add : o.add = true → o'.add = true
  sub : o.sub = true → o'.sub = true
  zero : o.zero = true → o'.zero = true
  pub : o.pub = true → o'.pub = true
  prot : o.prot = true → o'.prot = true
  att : o.att = true → o'.att = true
  next : o.next = true → o'.next = true
  copy : o.copy = true → o'.copy = true
  switch : o.switch = true → o'.switch = true
  epoch : o.epoch = true → o'.epoch = true

/-- Less is known. (proof, no code) -/
structure HB.Le (b b' : HB T) : Prop where
  done : b.done = b'.done
  know : ∀ t k, b.know t k = true → b'.know t k = true
  nh : ∀ k, b.nh k = true → b'.nh k = true
  tab : ∀ k, b.tab k = true → b'.tab k = true
  ep : ∀ k, b.ep k = true → b'.ep k = true
  next : ∀ v k, b.next v k = true → b'.next v k = true
  copy : ∀ v k, b.copy v k = true → b'.copy v k = true

theorem join_le {o o' : Bool} {x x' y y' : Tok → Bool} (ho : o = true → o' = true)
    (hx : ∀ k, x k = true → x' k = true) (hy : ∀ k, y k = true → y' k = true) (k : Tok)
    (h : join o x y k = true) : join o' x' y' k = true := by
  simp only [join, Bool.or_eq_true, Bool.and_eq_true] at h ⊢
  exact h.imp (hx k) (fun h => ⟨ho h.1, hy k h.2⟩)

theorem addTok_le {x x' : Tok → Bool} {n : Tok} (hx : ∀ k, x k = true → x' k = true) (k : Tok)
    (h : addTok x n k = true) : addTok x' n k = true := by
  simp only [addTok, Bool.or_eq_true] at h ⊢
  exact h.imp_left (hx k)

theorem upd_le {I : Type} [DecidableEq I] {f f' : I → Tok → Bool} {i : I} {g g' : Tok → Bool}
    (hf : ∀ j k, f j k = true → f' j k = true) (hg : ∀ k, g k = true → g' k = true) (j : I) (k : Tok)
    (h : upd f i g j k = true) : upd f' i g' j k = true := by
  by_cases e : j = i
  · subst e; rw [upd_same] at h ⊢; exact hg k h
  · rw [upd_ne _ _ e] at h ⊢; exact hf j k h

theorem eff_le {o o' : Orders} (ho : o.Le o') {b b' : HB T} (h : b.Le b') (s : St T A) (t : T) (p p' : PC A) :
    (eff o b s t p p').Le (eff o' b' s t p p') := by
  have kn := h.know
  unfold eff
  split
  case h_1 => exact ⟨h.done, upd_le kn (join_le ho.add (kn t) h.nh), join_le ho.add h.nh (kn t), h.tab, h.ep, h.next, h.copy⟩
  case h_2 => exact ⟨h.done, kn, join_le ho.sub h.nh (kn t), h.tab, h.ep, h.next, h.copy⟩
  case h_3 => exact ⟨h.done, kn, join_le ho.sub h.nh (kn t), h.tab, h.ep, h.next, h.copy⟩
  case h_4 => exact ⟨h.done, upd_le kn (join_le ho.zero (kn t) h.nh), h.nh, h.tab, h.ep, h.next, h.copy⟩
  case h_5 => exact ⟨h.done, upd_le kn (join_le ho.pub (kn t) h.tab), h.nh, join_le ho.pub h.tab (kn t), h.ep, h.next, h.copy⟩
  case h_6 => exact ⟨h.done, upd_le kn (join_le ho.prot (kn t) h.tab), h.nh, h.tab, h.ep, h.next, h.copy⟩
  case h_7 => exact ⟨h.done, upd_le kn (join_le ho.prot (kn t) h.tab), h.nh, h.tab, h.ep, h.next, h.copy⟩
  case h_8 => exact ⟨congrArg (addTok · _) h.done, upd_le kn (addTok_le (kn t)), h.nh, h.tab, h.ep,
      upd_le h.next (join_le ho.att (h.next _) (addTok_le (kn t))), h.copy⟩
  case h_9 => exact ⟨h.done, upd_le kn (join_le ho.next (kn t) (h.next _)), h.nh, h.tab, h.ep, h.next, h.copy⟩
  case h_10 => exact ⟨h.done, upd_le kn (join_le ho.next (kn t) (h.next _)), h.nh, h.tab, h.ep, h.next, h.copy⟩
  case h_11 => exact ⟨h.done, upd_le kn (join_le ho.next (kn t) (h.next _)), h.nh, h.tab, h.ep, h.next, h.copy⟩
  case h_12 => exact ⟨h.done, upd_le kn (join_le ho.copy (kn t) (h.copy _)), h.nh, h.tab, h.ep, h.next,
      upd_le h.copy (join_le ho.copy (h.copy _) (kn t))⟩
  case h_13 => exact ⟨h.done, upd_le kn (join_le ho.copy (kn t) (h.copy _)), h.nh, h.tab, h.ep, h.next,
      upd_le h.copy (join_le ho.copy (h.copy _) (kn t))⟩
  case h_14 => exact ⟨congrArg (addTok · _) h.done, upd_le kn (addTok_le (kn t)), h.nh, h.tab, h.ep, h.next, h.copy⟩
  case h_15 =>
    refine ⟨h.done, kn, h.nh, h.tab, fun k hk => ?_, h.next, h.copy⟩
    simp only [Bool.and_eq_true] at hk ⊢
    exact ⟨ho.switch hk.1, kn t k hk.2⟩
  case h_16 => exact ⟨h.done, upd_le kn (join_le ho.epoch (kn t) h.ep), h.nh, h.tab, h.ep, h.next, h.copy⟩
  case h_17 => exact ⟨h.done, upd_le kn (join_le ho.epoch (kn t) h.ep), h.nh, h.tab, h.ep, h.next, h.copy⟩
  case h_18 => exact h

/-- The same execution with weaker orders: less is known. -/
theorem HReach.weaken {o o' : Orders} (ho : o.Le o') {a : A} {n : Nat} {l : List (Lab T A)} {x' : HSt T A}
    (h : HReach o' a n l x') : ∃ b, HReach o a n l ⟨x'.s, b⟩ ∧ b.Le x'.b := by
  induction h with
  | init => exact ⟨_, .init, ⟨rfl, fun _ _ h => h, fun _ h => h, fun _ h => h, fun _ h => h, fun _ _ h => h,
      fun _ _ h => h⟩⟩
  | step _ hs ih =>
    obtain ⟨b, h1, h2⟩ := ih
    obtain ⟨t, hs, ht⟩ := hs
    exact ⟨_, .step h1 (.mk t hs ht), eff_le ho h2 _ _ _ _⟩

end
end Async
end Growt
