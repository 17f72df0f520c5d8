import Verif.AsyncDataInv
import Verif.AsyncMarks
import Verif.MigIter

/-!
# Modifications through iterators of an asynchronously growing table

The growing table of `AsyncData.lean`, with callers that keep the iterators returned by the operations
and later call `erase_if_unchanged` or `compare_exchange` through them, concurrently with all other
operations and with the migration of the table.
-/

set_option linter.unusedSectionVars false

namespace Growt
namespace Async

/-- What a caller keeps: an iterator or reference of a growing table
(`migration_table_iterator.hpp:377-380`): the version of the table, and of the base iterator
(`base_linear_iterator.hpp`) the position and the copy of the slot. -/
structure Itr (K V : Type) where
  ver : Nat
  pos : Nat
  copy : Cell K V

/-- A modification through an iterator: none; called; searching its key in a table with another version; done
with its result; or using a null pointer.  `new`: the element is erased (`none`, `erase_if_unchanged`) or gets
the new value (`compare_exchange`); `k`, `v`: the element that the iterator showed when it was called; `ref`: the
value that it shows since, if the call has searched the key again.
(`migration_table_iterator.hpp:104-114, 124-132, 362-374, 382-390`) -/
inductive IThr (K V : Type) where
  | none
  | want (i : Itr K V) (k : K) (v : V) (new ref : Option V)
  | look (k : K) (v : V) (new : Option V)
  | made (k : K) (v : V) (new : Option V) (x : SRes V)
  | null (k : K) (v : V) (new : Option V)

/-- Calls: of the table, or through an iterator that shows the element `(k, v)`.
(`migration_table_iterator.hpp:104-114, 362-374`) -/
inductive IOp (K V : Type) where
  | op (o : Op K V)
  | swap (k : K) (v : V) (new : Option V)

/-- The state: the table, the iterator of each thread, its modification.
(`migration_table_iterator.hpp:377-380`) -/
structure ISt (T A K V : Type) where
  d : DSt T A K V
  its : T → Option (Itr K V)
  mod : T → IThr K V

/-- An event, with its operation renamed. (model bookkeeping, no code) -/
def Ev.map {T O O' R : Type} (f : O → O') : Ev T O R → Ev T O' R
  | .call t o => .call t (f o)
  | .lin t o r => .lin t (f o) r
  | .ret t o r => .ret t (f o) r

section
variable {T A K V : Type} [DecidableEq T] [DecidableEq A] [DecidableEq K] [DecidableEq V] [Inhabited V]

/-- The compare-and-swap of `erase_if_unchanged` (`base_linear_iterator.hpp:288-292`) or
`compare_exchange` (87-100) on the slot content `x`: new content, new copy, success.  (`none`, for a copy
without element, does not occur: see `IStep.call`.) -/
def swapCell (u : Bool) (x copy : Cell K V) : Option V → Option (Cell K V × Cell K V × Bool)
  | none => some (eraseIfUnchanged u x copy)
  | some w => compareExchange u x copy w

/-- Steps.  `okc`: the copies with which a modification is tried (no restriction: `fun _ => True`).

* The table works as before (`base`); a thread calls one thing at a time.
* An operation that returns an iterator may leave it with the caller (`grab`;
  `migration_table.hpp:549-1027` construct the iterator with the version of the table they used).
* A modification (`migration_table_iterator.hpp:362-374` and 104-114) is called for an iterator that
  shows an element.  It runs between `get_table` and `rls_table` (`execute`,
  `migration_table.hpp:327-350`: the steps `visit` and `exit` of the table).
* If the table still has the version of the iterator, `base_refresh_ptr` (382-390, 124-132) does nothing, and
  the modification is a compare-and-swap (`cas`).
* Otherwise `base_refresh_ptr` searches the key of the copy in the table (`again`): a `find` of the base table,
  whose accesses are steps `op` of the table.  In `base` a search goes on; it ends with `hit` or `miss`.
* `hit`: the iterator now has the version of the table and shows what was found (find never returns a slot
  with another key, see `find_hit`); then `cas`.
* `miss`: the search returns `end()`, whose copy is the empty pair (`base_linear.hpp:494-498`).
  `erase_if_unchanged` compares the keys (366-367) and returns false: the key of the empty pair is never that of
  an element (`simple_slot.hpp:189-193`; not so with `complex_slot.hpp:270-279`, which returns `key_type()`).
  `compare_exchange` does not compare and goes on with a null pointer (110-111, 130): undefined behaviour. -/
inductive IStep (u : Bool) (ok : Op K V → Prop) (okc : Cell K V → Prop) :
    ISt T A K V → Option (Ev T (IOp K V) (SRes V)) → ISt T A K V → Prop where
  | base {s : ISt T A K V} {e : Option (Ev T (Op K V) (SRes V))} {d' : DSt T A K V}
      (hs : DStep u ok s.d e d') (he : ∀ t op, e = some (.call t op) → s.mod t = .none)
      (hl : ∀ t k v new, s.mod t = .look k v new → ∃ op pc, d'.thr t = .busy op pc) :
      IStep u ok okc s (e.map (Ev.map .op)) { s with d := d' }
  | grab {s : ISt T A K V} {p' : St T A} {t : T} {a : A} {op : Op K V} {pc : Growt.PC K V}
      {g : Tbl K V} {r : Ret K V} {x : SRes V} {q : Nat} {c : Cell K V} {o : Obj A}
      (hs : Step s.d.p (.op t a) p') (ht : s.d.thr t = .busy op pc)
      (hst : step (s.d.env a) op pc (published (s.d.mem a)) = (g, .done r))
      (hx : Sync.answer op r = some x) (hi : r.it = some (q, c)) (ho : s.d.p.heap a = some o)
      (hm : s.mod t = .none) :
      IStep u ok okc s none { s with
        d := { s.d with
          p := p', mem := upd s.d.mem a (Sync.store (s.d.mem a) g), thr := setAt s.d.thr t (.fin op x) }
        its := setAt s.its t (some ⟨o.ver, q, c⟩) }
  | call {s : ISt T A K V} {t : T} {h : Hd A} {i : Itr K V} {k : K} {v : V} {new : Option V}
      (hp : s.d.p.pc t = .idle h) (ht : s.d.thr t = .idle) (hm : s.mod t = .none)
      (hi : s.its t = some i) (hc : i.copy.c = .live k v) :
      IStep u ok okc s (some (.call t (.swap k v new)))
        { s with mod := setAt s.mod t (.want i k v new none) }
  | again {s : ISt T A K V} {t : T} {h : Hd A} {o : Obj A} {i : Itr K V} {k : K} {v : V} {new : Option V}
      (hp : s.d.p.pc t = .use h) (ho : s.d.p.heap h.tab = some o) (hv : o.ver ≠ i.ver)
      (hm : s.mod t = .want i k v new none) :
      IStep u ok okc s none { s with
        d := { s.d with thr := setAt s.d.thr t (.busy (.find k) (start (s.d.env h.tab) (.find k))) }
        mod := setAt s.mod t (.look k v new) }
  | hit {s : ISt T A K V} {t : T} {h : Hd A} {o : Obj A} {k : K} {v w : V} {new : Option V}
      {pc : Growt.PC K V} {g : Tbl K V} {r : Ret K V} {q : Nat} {c : Cell K V}
      (hp : s.d.p.pc t = .use h) (ho : s.d.p.heap h.tab = some o) (hm : s.mod t = .look k v new)
      (ht : s.d.thr t = .busy (.find k) pc)
      (hst : step (s.d.env h.tab) (.find k) pc (published (s.d.mem h.tab)) = (g, .done r))
      (hi : r.it = some (q, c)) (hc : c.c = .live k w) :
      IStep u ok okc s none { s with
        d := { s.d with thr := setAt s.d.thr t .idle }
        its := setAt s.its t (some ⟨o.ver, q, c⟩)
        mod := setAt s.mod t (.want ⟨o.ver, q, c⟩ k v new (some w)) }
  | miss {s : ISt T A K V} {t : T} {h : Hd A} {k : K} {v : V} {new : Option V}
      {pc : Growt.PC K V} {g : Tbl K V} {r : Ret K V}
      (hp : s.d.p.pc t = .use h) (hm : s.mod t = .look k v new) (ht : s.d.thr t = .busy (.find k) pc)
      (hst : step (s.d.env h.tab) (.find k) pc (published (s.d.mem h.tab)) = (g, .done r))
      (hi : r.it = none) :
      IStep u ok okc s none { s with
        d := { s.d with thr := setAt s.d.thr t .idle }
        its := setAt s.its t none
        mod := setAt s.mod t
          (match new with
          | none => .made k v none ⟨false, none⟩
          | some w => .null k v (some w)) }
  | cas {s : ISt T A K V} {t : T} {h : Hd A} {o : Obj A} {i : Itr K V} {k : K} {v : V}
      {new ref : Option V} {r : Cell K V × Cell K V × Bool}
      (hp : s.d.p.pc t = .use h) (ho : s.d.p.heap h.tab = some o) (hv : o.ver = i.ver)
      (hm : s.mod t = .want i k v new ref) (hc : okc i.copy)
      (hr : swapCell u (published (s.d.mem h.tab) i.pos) i.copy new = some r) :
      IStep u ok okc s none { s with
        d := { s.d with
          mem := upd s.d.mem h.tab
            (Sync.store (s.d.mem h.tab) ((published (s.d.mem h.tab)).set i.pos r.1)) }
        its := setAt s.its t (some { i with copy := r.2.1 })
        mod := setAt s.mod t (.made k v new ⟨r.2.2, if r.2.2 then ref else none⟩) }
  | ret {s : ISt T A K V} {t : T} {h : Hd A} {k : K} {v : V} {new : Option V} {x : SRes V}
      (hp : s.d.p.pc t = .idle h) (hm : s.mod t = .made k v new x) :
      IStep u ok okc s (some (.ret t (.swap k v new) x))
        { s with mod := setAt s.mod t .none }

/-- A new table without iterators. (`estrat_async.hpp:109-115`) -/
def ISt.init (E : Env K) (a : A) : ISt T A K V where
  d := DSt.init E a
  its := fun _ => none
  mod := fun _ => .none

/-! ## Specification -/

/-- The ideal map with modifications through iterators: one that reports success finds the element that
the iterator shows - the one that it showed when the call began, or, if the call has made it show the value `w`,
that one -, and removes it or gives it the new value; one that reports failure has no effect.
(specification, no code) -/
def modObj : Growt.Obj (IOp K V) (SRes V) (Dict K V) where
  init := fun _ => none
  legal d o x d' :=
    match o with
    | .op o => (Sync.growObj true).legal d o x d'
    | .swap k v new =>
      (x = ⟨true, none⟩ ∧ d k = some v ∧ ∀ k', d' k' = if k' = k then new else d k') ∨
      (∃ w, x = ⟨true, some w⟩ ∧ d k = some w ∧ ∀ k', d' k' = if k' = k then new else d k') ∨
      (x = ⟨false, none⟩ ∧ d' = d)

/-! ## Positions of iterators -/

/-- The iterator points into the published table that has its version, if that still exists.
(proof, no code) -/
def ItOK (p : St T A) (env : A → Env K) (i : Itr K V) : Prop :=
  i.ver ≤ p.epoch ∧ ∀ a o, Pub p a o → o.ver = i.ver → i.pos < (env a).M.total

/-- The environment of a table never changes. -/
theorem env_kept {u : Bool} {ok : Op K V → Prop} {s s' : DSt T A K V}
    {e : Option (Ev T (Op K V) (SRes V))} (h : DStep u ok s e s') {a : A} {o : Obj A}
    (ho : s.p.heap a = some o) : s'.env a = s.env a := by
  cases h with
  | make i d hs ho' hn =>
    cases hs with
    | grMake n hp h1 hb =>
      refine upd_ne _ _ ?_
      intro e
      rw [e, hb] at ho
      cases ho
  | _ => rfl

/-- A published table was published before, or has a version above the epoch. -/
theorem pub_back {p p' : St T A} {l : Lab T A} (i : Inv p) (hs : Step p l p') {a : A} {o' : Obj A}
    (h : Pub p' a o') : (∃ o, Pub p a o ∧ o'.ver = o.ver) ∨ p.epoch < o'.ver := by
  obtain ⟨h1, h2⟩ := h
  have set : ∀ {c : A} {oc oc' : Obj A}, p.heap c = some oc → oc'.ver = oc.ver → oc'.priv = oc.priv →
      upd p.heap c (some oc') a = some o' → (∃ o, Pub p a o ∧ o'.ver = o.ver) ∨ p.epoch < o'.ver := by
    intro c oc oc' hc hv hp h
    by_cases e : a = c
    · subst e
      rw [upd_same] at h; cases h
      exact .inl ⟨oc, ⟨hc, hp ▸ h2⟩, hv⟩
    · rw [upd_ne _ _ e] at h; exact .inl ⟨_, ⟨h, h2⟩, rfl⟩
  have del : ∀ {c : A}, upd p.heap c none a = some o' →
      (∃ o, Pub p a o ∧ o'.ver = o.ver) ∨ p.epoch < o'.ver := by
    intro c h
    by_cases e : a = c
    · subst e; rw [upd_same] at h; cases h
    · rw [upd_ne _ _ e] at h; exact .inl ⟨_, ⟨h, h2⟩, rfl⟩
  cases hs
  case grMake t hd b o n hp ho hb =>
    simp only at h1
    by_cases e : a = b
    · subst e; rw [upd_same] at h1; cases h1; cases h2
    · rw [upd_ne _ _ e] at h1; exact .inl ⟨_, ⟨h1, h2⟩, rfl⟩
  case grCas t hd b o ob hp ho hn hb =>
    have ht := i.t t
    rw [hp] at ht
    obtain ⟨hh, ob', hb', hpv, hver, -⟩ := ht
    rw [hb] at hb'; cases hb'
    obtain ⟨-, -, hep, -, hopr⟩ := attach_at i.g hh ho hn
    simp only at h1
    by_cases e : a = hd.tab
    · subst e
      rw [upd_same] at h1; cases h1
      exact .inl ⟨o, ⟨ho, hopr⟩, rfl⟩
    · rw [upd_ne _ _ e] at h1
      by_cases e' : a = b
      · subst e'
        rw [upd_same] at h1; cases h1
        obtain ⟨oh, g1, g2, g3⟩ := hh
        have := ho.symm.trans g1.1
        cases this
        right
        show p.epoch < ob.ver
        omega
      · rw [upd_ne _ _ e'] at h1; exact .inl ⟨_, ⟨h1, h2⟩, rfl⟩
  all_goals first
    | exact .inl ⟨_, ⟨h1, h2⟩, rfl⟩
    | exact del h1
    | exact set (by assumption) (by rfl) (by rfl) h1

/-- The epoch does not decrease. -/
theorem epoch_le {p p' : St T A} {l : Lab T A} (i : Inv p) (hs : Step p l p') : p.epoch ≤ p'.epoch := by
  cases hs
  case egEpoch t h n o hp ho =>
    have ht := i.t t
    rw [hp] at ht
    obtain ⟨-, h2, -⟩ := ht
    rw [← h2] at ho
    have := (i.g.globP ho).2
    have := vg_bounds p
    show p.epoch ≤ o.ver
    omega
  all_goals exact Nat.le_refl _

theorem ItOK.next {u : Bool} {ok : Op K V → Prop} {s s' : DSt T A K V}
    {e : Option (Ev T (Op K V) (SRes V))} (hi : Inv s.p) (h : DStep u ok s e s') {i : Itr K V}
    (hI : ItOK s.p s.env i) : ItOK s'.p s'.env i := by
  have prot : s'.p = s.p ∨ ∃ l, Step s.p l s'.p := by
    cases h with
    | call | ret => exact .inl rfl
    | quiet hs | enter hs | visit hs | op hs | opDone hs | opAgain hs | exitAgain hs | exit hs | make _ _ hs
    | attach hs | claim hs | leave hs | work hs | done hs | publish hs | switch hs | retire hs | free hs =>
      exact .inr ⟨_, hs⟩
  rcases prot with hp | ⟨l, hl⟩
  · rw [hp]
    refine ⟨hI.1, fun a o ha hv => ?_⟩
    rw [env_kept h ha.1]
    exact hI.2 a o ha hv
  · refine ⟨Nat.le_trans hI.1 (epoch_le hi hl), fun a o ha hv => ?_⟩
    rcases pub_back hi hl ha with ⟨o', ho', e⟩ | hlt
    · rw [env_kept h ho'.1]
      exact hI.2 a o' ho' (by omega)
    · have := hI.1
      omega

/-- A returned iterator points into the table. -/
theorem step_it {E : Env K} {op : Op K V} {pc : Growt.PC K V} {t g : Tbl K V} {r : Ret K V} {q : Nat}
    {c : Cell K V} (hst : step E op pc t = (g, .done r)) (hi : r.it = some (q, c)) : q < E.M.total := by
  have hit : ∀ {o : Out K V} {p : Nat}, p < E.M.total →
      (∀ r' q c, o = .done r' → r'.it = some (q, c) → q = p) → o = .done r → q < E.M.total := by
    intro o p hp h1 h2
    rw [h1 _ _ _ h2 hi]; exact hp
  cases pc with
  | load i att =>
    simp only [step] at hst
    split at hst
    · rename_i hlt
      refine hit hlt ?_ (congrArg Prod.snd hst)
      intro r' q c h1 h2
      cases op <;> simp only [afterLoad, retEnd] at h1 <;> (repeat' split at h1) <;> cases h1 <;>
        first | (cases h2; rfl) | cases h2
    · cases hst
  | act i att curr =>
    simp only [step] at hst
    split at hst
    · rename_i hlt
      refine hit hlt ?_ (congrArg Prod.snd hst)
      intro r' q c h1 h2
      cases op <;> simp only [actStep, casStep, retEnd] at h1 <;> (repeat' split at h1) <;> cases h1 <;>
        first | (cases h2; rfl) | cases h2
    · cases hst

/-- A search returns a slot with the key. -/
theorem find_hit {E : Env K} {k : K} {pc : Growt.PC K V} {t g : Tbl K V} {r : Ret K V} {q : Nat} {c : Cell K V}
    (hst : step E (.find k) pc t = (g, .done r)) (hi : r.it = some (q, c)) : ∃ w, c.c = .live k w := by
  cases pc with
  | load i att =>
    simp only [step] at hst
    split at hst
    · have h1 := congrArg Prod.snd hst
      simp only [afterLoad] at h1
      (repeat' split at h1) <;> cases h1 <;> first | (cases hi; exact Cell.hasKey_iff.1 (by assumption)) | cases hi
    · cases hst
  | act i att curr =>
    simp only [step] at hst
    split at hst
    · have h1 := congrArg Prod.snd hst
      simp only [actStep] at h1
      (repeat' split at h1) <;> cases h1
    · cases hst

/-- A new iterator. -/
theorem ItOK.grab {s : DSt T A K V} (hI : Inv s.p) {p' : St T A} {t : T} {a : A} {o : Obj A} {op : Op K V}
    {pc : Growt.PC K V} {g : Tbl K V} {r : Ret K V} {q : Nat} {c : Cell K V} (hs : Step s.p (.op t a) p')
    (ho : s.p.heap a = some o) (hst : step (s.env a) op pc (published (s.mem a)) = (g, .done r))
    (hi : r.it = some (q, c)) : ItOK p' s.env (⟨o.ver, q, c⟩ : Itr K V) := by
  cases hs with
  | @op _ h o2 hp ho2 =>
    have ht := hI.t t
    rw [hp] at ht
    obtain ⟨o', h1, h2, h3⟩ := ht
    have := ho.symm.trans h1.1
    cases this
    refine ⟨?_, fun b ob hb hv => ?_⟩
    · show o.ver ≤ s.p.epoch
      omega
    · have := hI.g.inj b ob h.tab o hb h1 hv
      rw [this]
      exact step_it hst hi

/-! ## Histories -/

/-- A phase, with its operation renamed. (proof, no code) -/
def upPhase {O O' R : Type} (f : O → O') : Growt.Phase O R → Growt.Phase O' R
  | .idle => .idle
  | .called o => .called (f o)
  | .effected o r => .effected (f o) r

/-- Phase of a modification. (proof, no code) -/
def IThr.phase : IThr K V → Option (Growt.Phase (IOp K V) (SRes V))
  | .none => Option.none
  | .want _ k v new _ => some (.called (.swap k v new))
  | .look k v new => some (.called (.swap k v new))
  | .made k v new x => some (.effected (.swap k v new) x)
  | .null k v new => some (.called (.swap k v new))

/-- Phases of the threads: of their modification, or else of their operation. (proof, no code) -/
def both (md : T → IThr K V) (p : T → Growt.Phase (Op K V) (SRes V)) (t : T) :
    Growt.Phase (IOp K V) (SRes V) := ((md t).phase).getD (upPhase .op (p t))

/-- Proof, no code. -/
def ISt.phases (s : ISt T A K V) (D : A → Dict K V) : T → Growt.Phase (IOp K V) (SRes V) :=
  both s.mod (s.d.phases D)

theorem both_none {md : T → IThr K V} {p : T → Growt.Phase (Op K V) (SRes V)} {t : T} (h : md t = .none) :
    both md p t = upPhase .op (p t) := by unfold both; rw [h]; rfl

theorem both_same {md : T → IThr K V} {p q : T → Growt.Phase (Op K V) (SRes V)} {t : T} (h : p t = q t) :
    both md p t = both md q t := by unfold both; rw [h]

theorem both_idle {md : T → IThr K V} {p : T → Growt.Phase (Op K V) (SRes V)} {t : T} (h : md t = .none)
    (hp : p t = .idle) : both md p t = .idle := by rw [both_none h, hp]; rfl

/-- No operation, or a search. (proof, no code) -/
def Quiet : Growt.Phase (Op K V) (SRes V) → Prop
  | .idle => True
  | .called o => ∃ k, o = .find k
  | .effected o _ => ∃ k, o = .find k

theorem both_quiet {md : T → IThr K V} {p q : T → Growt.Phase (Op K V) (SRes V)} {t : T} (h : md t ≠ .none) :
    both md p t = both md q t := by
  unfold both
  cases hm : md t with
  | none => exact absurd hm h
  | _ => rfl

/-- Histories of the operations of the table, while threads are in modifications.  The searches of these are not
part of the history: they have no effect on the map. -/
theorem both_run {md : T → IThr K V} {p q : T → Growt.Phase (Op K V) (SRes V)}
    {l : List (Ev T (Op K V) (SRes V))} (h : WellFormed p l q) :
    ∀ {d d' : Dict K V}, Legal (Sync.growObj true) d (effects l) d' → (∀ t, md t ≠ .none → Quiet (p t)) →
    (∀ t op, .call t op ∈ visible l → md t = .none) → (∀ t op x, .ret t op x ∈ visible l → md t = .none) →
    ∃ l', visible l' = (visible l).map (Ev.map .op) ∧ WellFormed (both md p) l' (both md q) ∧
      Legal modObj d (effects l') d' := by
  induction h with
  | nil p =>
    intro d d' hd _ _ _
    cases hd
    exact ⟨[], rfl, .nil _, .nil _⟩
  | @call p q p' i o l h hq hf _ ih =>
    intro d d' hd hp hl hr
    have hn : md i = .none := hl i o (by simp [visible])
    obtain ⟨l', h1, h2, h3⟩ := ih (d := d) (d' := d') hd
      (fun t ht => by rw [hf t (fun e => ht (e ▸ hn))]; exact hp t ht)
      (fun t op ho => hl t op (by simp [visible, ho])) (fun t op x ho => hr t op x (by simp [visible, ho]))
    exact ⟨.call i (.op o) :: l', by simp [visible, h1, Ev.map],
        .call (q := both md q) (both_idle hn h) (by rw [both_none hn, hq]; rfl)
          (fun j hj => both_same (hf j hj)) h2, h3⟩
  | @lin p q p' i o r l h hq hf _ ih =>
    intro d d' hd hp hl hr
    cases hd with
    | @cons _ d1 _ _ _ _ hd1 hd2 =>
      obtain ⟨l', h1, h2, h3⟩ := ih (d := d1) (d' := d') hd2
        (fun t ht => by
          by_cases e : t = i
          · subst e
            have := hp t ht
            rw [h] at this
            rw [hq]
            exact this
          · rw [hf t e]
            exact hp t ht)
        (fun t op ho => hl t op (by simpa [visible] using ho))
        (fun t op x ho => hr t op x (by simpa [visible] using ho))
      by_cases hn : md i = .none
      · exact ⟨.lin i (.op o) r :: l', by simpa [visible] using h1,
          .lin (q := both md q) (by rw [both_none hn, h]; rfl) (by rw [both_none hn, hq]; rfl)
            (fun j hj => both_same (hf j hj)) h2, .cons hd1 h3⟩
      · have hfind := hp i hn
        rw [h] at hfind
        obtain ⟨k, rfl⟩ := hfind
        have e1 : d1 = d := by
          rcases hd1 with ⟨e, -⟩ | ⟨⟨_, _, _, _, e, -⟩, -⟩
          · rw [e]; rfl
          · cases e
        have e2 : both md q = both md p := by
          funext j
          by_cases e : j = i
          · subst e; exact both_quiet hn
          · exact both_same (hf j e)
        rw [e2] at h2
        rw [e1] at h3
        exact ⟨l', by simpa [visible] using h1, h2, h3⟩
  | @ret p q p' i o r l h hq hf _ ih =>
    intro d d' hd hp hl hr
    have hn : md i = .none := hr i o r (by simp [visible])
    obtain ⟨l', h1, h2, h3⟩ := ih (d := d) (d' := d') hd
      (fun t ht => by rw [hf t (fun e => ht (e ▸ hn))]; exact hp t ht)
      (fun t op ho => hl t op (by simp [visible, ho])) (fun t op x ho => hr t op x (by simp [visible, ho]))
    exact ⟨.ret i (.op o) r :: l', by simp [visible, h1, Ev.map],
        .ret (q := both md q) (by rw [both_none hn, h]; rfl) (both_idle hn hq)
          (fun j hj => both_same (hf j hj)) h2, h3⟩

/-! ## The invariant -/

/-- The invariant. (proof, no code) -/
structure IInv (u : Bool) (ok : Op K V → Prop) (s : ISt T A K V) (d : Dict K V) (D : A → Dict K V) : Prop where
  base : DInv u ok s.d d D
  free : ∀ t, s.mod t ≠ .none → s.d.thr t = .idle ∨ ∃ k v new pc, s.mod t = .look k v new ∧ s.d.thr t = .busy (.find k) pc
  look : ∀ t k v new, s.mod t = .look k v new → ∃ pc, s.d.thr t = .busy (.find k) pc
  its : ∀ t i, s.its t = some i → ItOK s.d.p s.d.env i
  want : ∀ t i k v new ref, s.mod t = .want i k v new ref → ItOK s.d.p s.d.env i ∧ i.copy.c = .live k (ref.getD v)

/-- A thread without call stays so until it calls. -/
theorem thr_idle {u : Bool} {ok : Op K V → Prop} {s s' : DSt T A K V}
    {e : Option (Ev T (Op K V) (SRes V))} (h : DStep u ok s e s') {t : T} (ht : s.thr t = .idle) :
    s'.thr t = .idle ∨ ∃ op, e = some (.call t op) := by
  have set : ∀ {t' : T} {x : UThr K V}, s.thr t' ≠ .idle → setAt s.thr t' x t = .idle := by
    intro t' x hx
    have e : t ≠ t' := by rintro rfl; exact hx ht
    rw [setAt_other e]
    exact ht
  cases h with
  | @call t' h op hp ht' ho =>
    by_cases e : t = t'
    · subst e; exact .inr ⟨op, rfl⟩
    · exact .inl ((setAt_other e).trans ht)
  | @ret t' h op x hp ht' => exact .inl (set (by rw [ht']; simp))
  | enter hs ht' => exact .inl (set (by rw [ht']; simp))
  | op hs ht' => exact .inl (set (by rw [ht']; simp))
  | opDone hs ht' => exact .inl (set (by rw [ht']; simp))
  | opAgain hs ht' => exact .inl (set (by rw [ht']; simp))
  | exitAgain hs ht' => exact .inl (set (by rw [ht']; simp))
  | _ => exact .inl ht

section
variable {u : Bool} {ok : Op K V → Prop} {s : DSt T A K V} {d : Dict K V} {D : A → Dict K V}

theorem phases_idle {s : DSt T A K V} {D : A → Dict K V} {t : T} (h : s.thr t = .idle) :
    s.phases D t = .idle := by
  unfold DSt.phases
  rw [h]; rfl

/-- The compare-and-swap of a modification whose copy is not marked. -/
theorem DInv.swap (hI : DInv u ok s d D) {t : T} {h : Hd A} {o : Obj A} (hp : s.p.pc t = .use h)
    (ht : s.thr t = .idle) (ho : s.p.heap h.tab = some o) {i : Itr K V} {k : K} {v : V} {new : Option V}
    {r : Cell K V × Cell K V × Bool} (hpos : i.pos < (s.env h.tab).M.total) (hum : i.copy.marked = false)
    (hc : i.copy.c = .live k v) (hr : swapCell u (published (s.mem h.tab) i.pos) i.copy new = some r) :
    ∃ d', DInv u ok { s with
      mem := upd s.mem h.tab (Sync.store (s.mem h.tab) ((published (s.mem h.tab)).set i.pos r.1)) } d' D ∧
      (∀ t', DSt.phases { s with
        mem := upd s.mem h.tab (Sync.store (s.mem h.tab) ((published (s.mem h.tab)).set i.pos r.1)) } D t' =
        s.phases D t') ∧
      ((r.2.2 = true ∧ d k = some v ∧ ∀ k', d' k' = if k' = k then new else d k') ∨ (r.2.2 = false ∧ d' = d)) := by
  have hh := hI.holds hp
  have hk := hI.kindOf hh
  by_cases hx : published (s.mem h.tab) i.pos = i.copy
  · -- the slot still has the content of the copy
    have hT : h.ep = s.p.epoch ∧ Tab (s.env h.tab) (s.mem h.tab) d := by
      rcases hI.usedTab hh with ⟨e, -, -, hT⟩ | ⟨hm, hT⟩
      · exact ⟨e, hT⟩
      · exfalso
        obtain ⟨d', hT⟩ : ∃ d', Tab (s.env h.tab) (s.mem h.tab) d' := by
          rcases hT with ⟨-, -, hT⟩ | ⟨-, hT⟩
          · exact ⟨_, hT⟩
          · exact ⟨_, hT⟩
        obtain ⟨j, h1, h2⟩ := hT.inv.reach i.pos k v hpos (by rw [hx]; exact hc)
        have := hm k j h2
        rw [h1, hx, hum] at this
        cases this
    obtain ⟨hep, hT⟩ := hT
    obtain ⟨j, h1, h2⟩ := hT.inv.reach i.pos k v hpos (by rw [hx]; exact hc)
    have hdk : d k = some v := (hT.stores k v).2 ⟨i.pos, hpos, by rw [hx]; exact hc⟩
    have hcopy : i.copy = Cell.liveCell k v := by
      rcases hi : i.copy with ⟨m, c⟩
      rw [hi] at hum hc
      simp only at hum hc
      rw [hum, hc]; rfl
    -- the step of the operation with the same effect
    obtain ⟨op, x, hsafe, hpc, hst, hef⟩ : ∃ (op : Op K V) (x : Ret K V), op.isSafe ∧
        PcInv (s.env h.tab) (published (s.mem h.tab)) op (.act j 0 i.copy) ∧
        step (s.env h.tab) op (.act j 0 i.copy) (published (s.mem h.tab)) =
          ((published (s.mem h.tab)).set i.pos r.1, .done x) ∧
        (x.code ≠ some .UNSUCCESS_INVALID ∧ (∀ c, ¬ op.mayRefuse c) ∧ r.2.2 = true ∧
          ∀ k', ((op.toSpec true).sem d).1 k' = if k' = k then new else d k') := by
      cases new with
      | none =>
        refine ⟨.erase k, ⟨some .SUCCESS_DEL, none⟩, trivial, ⟨h2, ⟨hum, v, hc⟩, ?_⟩, ?_, ?_, ?_, ?_, ?_⟩
        · rw [h1, hx]; exact CellLe.refl _
        · have : r.1 = Cell.deletedCell := by
            simp only [swapCell, eraseIfUnchanged, casIt, hx, if_true, Option.some.injEq] at hr
            rw [← hr]
          simp only [step, h1, hpos, if_true, actStep, casStep, hx]
          rw [this]
        · simp
        · intro c hc; exact hc
        · simp only [swapCell, eraseIfUnchanged, casIt, hx, if_true, Option.some.injEq] at hr
          rw [← hr]
        · intro k'
          simp only [Op.toSpec, SOp.sem, hdk, Dict.del]
      | some w =>
        have hr' : r.1 = Cell.liveCell k w ∧ r.2.2 = true := by
          simp only [swapCell, compareExchange, hc, casIt, hx, if_true, Option.some.injEq] at hr
          rw [← hr]
          exact ⟨rfl, rfl⟩
        refine ⟨.update k (overwriteFn w), ⟨some .SUCCESS_UP, some (i.pos, Cell.liveCell k w)⟩, trivial,
          ⟨h2, ⟨hum, v, hc⟩, ?_⟩, ?_, ?_, ?_, hr'.2, ?_⟩
        · rw [h1, hx]; exact CellLe.refl _
        · have hset : Cell.setMapped i.copy ((overwriteFn w).upd i.copy.mapped) = Cell.liveCell k w := by
            rw [hcopy]; rfl
          simp only [step, h1, hpos, if_true, actStep, atomicUpdate, hk.slots, hx, hset]
          rw [hr'.1]
        · simp
        · intro c hc; exact hc
        · intro k'
          simp only [Op.toSpec, SOp.sem, hdk, Dict.put, UpdFn.eff, overwriteFn, if_true]
    obtain ⟨e1, e2, e3, e4⟩ := hef
    have hgood := step_good hk.ok hT.inv hpc (safe_act hk.slots hsafe _)
    rw [hst] at hgood
    have hS : Stores (s.env h.tab) ((published (s.mem h.tab)).set i.pos r.1) ((op.toSpec true).sem d).1 := by
      cases hgood.2.2 with
      | invalid hr' => rw [hr'] at e1; exact absurd rfl e1
      | refused c hc' => exact absurd hc' (e2 c)
      | effect hef =>
        have := (hef d hT.stores).1
        rw [hk.slots] at this
        exact this
    obtain ⟨t1, t2⟩ := hI.opTabs hh hsafe hpc (g := (published (s.mem h.tab)).set i.pos r.1)
      (by rw [hst]) (d' := ((op.toSpec true).sem d).1) (fun _ => hS) (fun e => by omega)
    obtain ⟨t3, t4⟩ := hI.thrStep (s' := { s with
        mem := upd s.mem h.tab (Sync.store (s.mem h.tab) ((published (s.mem h.tab)).set i.pos r.1)) })
        (Step.op hp ho) (t := t) (x := .idle)
        (by funext t'; by_cases e : t' = t
            · subst e; rw [setAt_same]; exact ht
            · rw [setAt_other e])
        hI.torn t1 (fun _ _ _ => rfl) (fun h' _ => t2 h'.tab) (fun _ _ => rfl) rfl trivial
    refine ⟨_, t3, fun t' => ?_, .inl ⟨e3, hdk, e4⟩⟩
    by_cases e : t' = t
    · subst e
      rw [phases_idle (s := s) ht]
      exact phases_idle ht
    · exact t4 t' e
  · -- the compare-and-swap fails
    have hr' : r.1 = published (s.mem h.tab) i.pos ∧ r.2.2 = false := by
      cases new with
      | none =>
        simp only [swapCell, eraseIfUnchanged, casIt, hx, if_false, Option.some.injEq] at hr
        rw [← hr]; exact ⟨rfl, rfl⟩
      | some w =>
        simp only [swapCell, compareExchange, hc, casIt, hx, if_false, Option.some.injEq] at hr
        rw [← hr]; exact ⟨rfl, rfl⟩
    have hset : (published (s.mem h.tab)).set i.pos r.1 = published (s.mem h.tab) := by
      rw [hr'.1]
      funext q
      unfold Tbl.set
      split
      · rename_i e; rw [e]
      · rfl
    rw [hset, store_published, upd_self_id]
    exact ⟨d, hI, fun _ => rfl, .inr ⟨hr'.2, rfl⟩⟩

end

section
variable {u : Bool} {ok : Op K V → Prop} {okc : Cell K V → Prop} {s s' : ISt T A K V} {d : Dict K V}
  {D : A → Dict K V}

/-- What has to be shown for a step. (proof, no code) -/
def INext (u : Bool) (ok : Op K V → Prop) (s : ISt T A K V) (d : Dict K V) (D : A → Dict K V)
    (e : Option (Ev T (IOp K V) (SRes V))) (s' : ISt T A K V) : Prop :=
  ∃ d' D' ev, IInv u ok s' d' D' ∧ visible ev = e.toList ∧ WellFormed (s.phases D) ev (s'.phases D') ∧
    Legal modObj d (effects ev) d'

/-- A search goes on with its key. -/
theorem busy_same {s s' : DSt T A K V} {e : Option (Ev T (Op K V) (SRes V))} (h : DStep u ok s e s') {t : T}
    {op op' : Op K V} {pc pc' : Growt.PC K V} (ht : s.thr t = .busy op pc) (ht' : s'.thr t = .busy op' pc') :
    op' = op := by
  have same : s'.thr t = s.thr t → op' = op := by
    intro h; rw [h, ht] at ht'; cases ht'; rfl
  have set : ∀ {t' : T} {x : UThr K V}, s'.thr = setAt s.thr t' x → (t = t' → x = .busy op' pc' → op' = op) →
      op' = op := by
    intro t' x h h'
    by_cases e : t = t'
    · refine h' e ?_
      rw [h, ← e, setAt_same] at ht'
      exact ht'
    · exact same (by rw [h, setAt_other e])
  cases h with
  | call _ h => exact set rfl (fun e hx => by cases hx)
  | ret _ h => exact set rfl (fun e hx => by cases hx)
  | enter _ h => exact set rfl (fun e hx => by rw [← e, ht] at h; cases h)
  | op _ h => exact set rfl (fun e hx => by rw [← e, ht] at h; cases h; cases hx; rfl)
  | opDone _ h => exact set rfl (fun e hx => by cases hx)
  | opAgain _ h => exact set rfl (fun e hx => by cases hx)
  | exitAgain _ h => exact set rfl (fun e hx => by cases hx)
  | _ => exact same rfl

/-- Who returns has its result. -/
theorem ret_fin {s s' : DSt T A K V} {t : T} {op : Op K V} {x : SRes V}
    (h : DStep u ok s (some (.ret t op x)) s') : s.thr t = .fin op x := by
  cases h with
  | ret _ h => exact h

theorem quiet_phase {s : DSt T A K V} {D : A → Dict K V} {t : T}
    (h : s.thr t = .idle ∨ ∃ k pc, s.thr t = .busy (.find k) pc) : Quiet (s.phases D t) := by
  rcases h with h | ⟨k, pc, h⟩
  · rw [phases_idle h]; trivial
  · unfold DSt.phases
    rw [h]
    simp only [UThr.phase]
    split <;> exact ⟨k, rfl⟩

theorem IInv.quiet (hI : IInv u ok s d D) {t : T} (ht : s.mod t ≠ .none) :
    s.d.thr t = .idle ∨ ∃ k pc, s.d.thr t = .busy (.find k) pc := by
  rcases hI.free t ht with h | ⟨k, v, new, pc, -, h⟩
  · exact .inl h
  · exact .inr ⟨k, pc, h⟩

theorem IInv.baseStep (hok : ∀ op, ok op → op.isSafe) (hI : IInv u ok s d D)
    {e : Option (Ev T (Op K V) (SRes V))} {d1 : DSt T A K V} (hs : DStep u ok s.d e d1)
    (he : ∀ t op, e = some (.call t op) → s.mod t = .none)
    (hl : ∀ t k v new, s.mod t = .look k v new → ∃ op pc, d1.thr t = .busy op pc)
    (hw : d1.Within) (htorn : d1.torn = false)
    {its' : T → Option (Itr K V)} (hi : ∀ t i, its' t = some i → ItOK d1.p d1.env i) :
    INext u ok s d D (e.map (Ev.map .op)) { s with d := d1, its := its' } := by
  obtain ⟨d', D', ev, h1, h2, h3, h4⟩ := hI.base.next hok hs hw htorn
  have hlook : ∀ t k v new, s.mod t = .look k v new → ∃ pc, d1.thr t = .busy (.find k) pc := by
    intro t k v new hm
    obtain ⟨pc, h⟩ := hI.look t k v new hm
    obtain ⟨op, pc', h'⟩ := hl t k v new hm
    rw [busy_same hs h h'] at h'
    exact ⟨pc', h'⟩
  obtain ⟨ev', v1, v2, v3⟩ := both_run (md := s.mod) h3 h4 (fun t ht => quiet_phase (hI.quiet ht)) (by
    intro t op ho
    rw [h2] at ho
    cases e with
    | none => cases ho
    | some e =>
      simp only [Option.toList, List.mem_singleton] at ho
      exact he t op (by rw [ho])) (by
    intro t op x ho
    rw [h2] at ho
    cases e with
    | none => cases ho
    | some e =>
      simp only [Option.toList, List.mem_singleton] at ho
      subst ho
      have hf := ret_fin hs
      refine Classical.byContradiction fun hn => ?_
      rcases hI.quiet hn with h | ⟨k, pc, h⟩ <;> (rw [hf] at h; cases h))
  refine ⟨d', D', ev', ⟨h1, ?_, hlook, hi, ?_⟩, ?_, v2, v3⟩
  · intro t ht
    rcases hI.free t ht with h | ⟨k, v, new, pc, hm, -⟩
    · rcases thr_idle hs h with h | ⟨op, h⟩
      · exact .inl h
      · exact absurd (he t op h) ht
    · obtain ⟨pc, h⟩ := hlook t k v new hm
      exact .inr ⟨k, v, new, pc, hm, h⟩
  · intro t i k v new ref hm
    obtain ⟨w1, w2⟩ := hI.want t i k v new ref hm
    exact ⟨w1.next hI.base.prot hs, w2⟩
  · rw [v1, h2]
    cases e <;> rfl

/-- A search begins or ends. -/
theorem DInv.search {s : DSt T A K V} (hI : DInv u ok s d D) {t : T} {h : Hd A} {o : Obj A} (hp : s.p.pc t = .use h)
    (ho : s.p.heap h.tab = some o) {x : UThr K V} (hx : CallOK ok s.p s.env s.mem (.use h) x) :
    DInv u ok { s with thr := setAt s.thr t x } d D ∧
      ∀ t', t' ≠ t → DSt.phases { s with thr := setAt s.thr t x } D t' = s.phases D t' :=
  hI.thrStep (s' := { s with thr := setAt s.thr t x }) (Step.op hp ho) rfl hI.torn hI.tabs (fun _ _ _ => rfl)
    (fun _ _ => Evolves.refl _) (fun _ _ => rfl) rfl (by rw [hp]; exact hx)

/-- Steps of one modification keep the invariant of the others. -/
theorem IInv.others (hI : IInv u ok s d D) {d1 : DSt T A K V} {d' : Dict K V} {D' : A → Dict K V} {t : T}
    {its' : T → Option (Itr K V)} {m : IThr K V} (hb : DInv u ok d1 d' D')
    (hp : d1.p = s.d.p) (henv : d1.env = s.d.env) (hthr : ∀ t', t' ≠ t → d1.thr t' = s.d.thr t')
    (hi : ∀ i, its' t = some i → ItOK s.d.p s.d.env i) (hi' : ∀ t', t' ≠ t → its' t' = s.its t')
    (hfree : m ≠ .none → d1.thr t = .idle ∨ ∃ k v new pc, m = .look k v new ∧ d1.thr t = .busy (.find k) pc)
    (hlook : ∀ k v new, m = .look k v new → ∃ pc, d1.thr t = .busy (.find k) pc)
    (hwant : ∀ i k v new ref, m = .want i k v new ref → ItOK s.d.p s.d.env i ∧ i.copy.c = .live k (ref.getD v)) :
    IInv u ok ⟨d1, its', setAt s.mod t m⟩ d' D' := by
  refine ⟨hb, ?_, ?_, ?_, ?_⟩
  · intro t' ht'
    by_cases e : t' = t
    · subst e; simp only [setAt_same] at ht' ⊢; exact hfree ht'
    · simp only [setAt_other e] at ht' ⊢; rw [hthr t' e]; exact hI.free t' ht'
  · intro t' k v new hm
    by_cases e : t' = t
    · subst e; simp only [setAt_same] at hm; exact hlook k v new hm
    · simp only [setAt_other e] at hm; rw [hthr t' e]; exact hI.look t' k v new hm
  · intro t' i h
    show ItOK d1.p d1.env i
    rw [hp, henv]
    by_cases e : t' = t
    · subst e; exact hi i h
    · have h : its' t' = some i := h
      rw [hi' t' e] at h; exact hI.its t' i h
  · intro t' i k v new ref hm
    show ItOK d1.p d1.env i ∧ _
    rw [hp, henv]
    by_cases e : t' = t
    · subst e; simp only [setAt_same] at hm; exact hwant i k v new ref hm
    · simp only [setAt_other e] at hm; exact hI.want t' i k v new ref hm

/-- Phases while one modification makes a step. -/
theorem phases_others {s : ISt T A K V} {d1 : DSt T A K V} {D' : A → Dict K V} {t : T}
    {its' : T → Option (Itr K V)} {m : IThr K V} (h : ∀ t', t' ≠ t → d1.phases D' t' = s.d.phases D t') :
    ∀ t', t' ≠ t → ISt.phases ⟨d1, its', setAt s.mod t m⟩ D' t' = s.phases D t' := by
  intro t' e
  simp only [ISt.phases, both, setAt_other e, h t' e]

theorem phases_at {s : ISt T A K V} {t : T} {m : IThr K V} {x : Growt.Phase (IOp K V) (SRes V)}
    (hm : s.mod t = m) (hx : m.phase = some x) : s.phases D t = x := by
  simp only [ISt.phases, both, hm, hx, Option.getD]

/-- Every step of a table with modifications through unmarked copies. -/
theorem IInv.next (hok : ∀ op, ok op → op.isSafe) (hfind : ∀ k, ok (.find k))
    (hokc : ∀ c, okc c → c.marked = false)
    (hI : IInv u ok s d D) {e : Option (Ev T (IOp K V) (SRes V))} (hs : IStep u ok okc s e s')
    (hw : s'.d.Within) (htorn : s'.d.torn = false) : INext u ok s d D e s' := by
  cases hs with
  | base hs he hl =>
    exact hI.baseStep hok hs he hl hw htorn (fun t i h => (hI.its t i h).next hI.base.prot hs)
  | @grab p' t a op pc g r x q c o hs ht hst hx hi ho hm =>
    have hs' : DStep u ok s.d none { s.d with
          p := p', mem := upd s.d.mem a (Sync.store (s.d.mem a) g), thr := setAt s.d.thr t (.fin op x) } :=
      .opDone hs ht hst hx
    refine hI.baseStep (e := none) hok hs' (by simp) ?_ hw htorn ?_
    · intro t' k v new hm'
      obtain ⟨pc', h⟩ := hI.look t' k v new hm'
      have e : t' ≠ t := by rintro rfl; rw [hm] at hm'; cases hm'
      exact ⟨_, pc', (setAt_other e).trans h⟩
    intro t' i h
    by_cases e : t' = t
    · subst e
      rw [setAt_same] at h
      cases h
      exact ItOK.grab hI.base.prot hs ho hst hi
    · rw [setAt_other e] at h
      exact (hI.its t' i h).next hI.base.prot hs'
  | @call t h i k v new hp ht hm hi hc =>
    refine ⟨d, D, [.call t (.swap k v new)], hI.others hI.base rfl rfl (fun _ _ => rfl)
      (fun i h => hI.its t i h) (fun _ _ => rfl) (fun _ => .inl ht) (fun _ _ _ h => (by cases h)) ?_, rfl,
      .call (q := ISt.phases { s with mod := setAt s.mod t (.want i k v new none) } D)
        (both_idle hm (phases_idle ht)) (phases_at (setAt_same ..) rfl)
        (phases_others (fun _ _ => rfl)) (.nil _), .nil _⟩
    intro i' k' v' new' ref' h
    cases h
    exact ⟨hI.its t i hi, hc⟩
  | @again t h o i k v new hp ho hv hm =>
    obtain ⟨h1, h2⟩ := hI.base.search hp ho (x := .busy (.find k) (start (s.d.env h.tab) (.find k)))
      ⟨hfind k, h, rfl, PcInv.start _ _ _⟩
    refine ⟨d, D, [], hI.others h1 rfl rfl (fun t' e => setAt_other e)
      (fun i h => hI.its t i h) (fun _ _ => rfl) (fun _ => .inr ⟨k, v, new, _, rfl, setAt_same ..⟩) ?_
      (fun _ _ _ _ _ h => (by cases h)), rfl, ?_, .nil _⟩
    · intro k' v' new' h
      cases h
      exact ⟨_, setAt_same ..⟩
    · have : ISt.phases ⟨{ s.d with thr := setAt s.d.thr t (.busy (.find k) (start (s.d.env h.tab) (.find k))) },
          s.its, setAt s.mod t (.look k v new)⟩ D = s.phases D := by
        funext t'
        by_cases e : t' = t
        · subst e; rw [phases_at (setAt_same ..) rfl, phases_at hm rfl]
        · exact phases_others h2 t' e
      rw [this]
      exact .nil _
  | @hit t h o k v w new pc g r q c hp ho hm ht hst hi hc =>
    obtain ⟨h1, h2⟩ := hI.base.search hp ho (x := .idle) trivial
    have hit : ItOK s.d.p s.d.env (⟨o.ver, q, c⟩ : Itr K V) := ItOK.grab hI.base.prot (Step.op hp ho) ho hst hi
    refine ⟨d, D, [], hI.others h1 rfl rfl (fun t' e => setAt_other e) ?_ (fun t' e => setAt_other e)
      (fun _ => .inl (setAt_same ..)) (fun _ _ _ h => (by cases h)) ?_, rfl, ?_, .nil _⟩
    · intro i h
      rw [setAt_same] at h
      cases h
      exact hit
    · intro i k v new ref h
      cases h
      exact ⟨hit, hc⟩
    · have : ISt.phases ⟨{ s.d with thr := setAt s.d.thr t .idle }, setAt s.its t (some ⟨o.ver, q, c⟩),
          setAt s.mod t (.want ⟨o.ver, q, c⟩ k v new (some w))⟩ D = s.phases D := by
        funext t'
        by_cases e : t' = t
        · subst e; rw [phases_at (setAt_same ..) rfl, phases_at hm rfl]
        · exact phases_others h2 t' e
      rw [this]
      exact .nil _
  | @miss t h k v new pc g r hp hm ht hst hi =>
    obtain ⟨o, ho, -⟩ := hI.base.holds hp
    obtain ⟨h1, h2⟩ := hI.base.search hp ho.1 (x := .idle) trivial
    cases new with
    | none =>
      refine ⟨d, D, [.lin t (.swap k v none) ⟨false, none⟩], hI.others h1 rfl rfl (fun t' e => setAt_other e) ?_
        (fun t' e => setAt_other e) (fun _ => .inl (setAt_same ..)) (fun _ _ _ h => (by cases h))
        (fun _ _ _ _ _ h => (by cases h)), rfl,
        .lin (q := ISt.phases _ D) (phases_at hm rfl) (phases_at (setAt_same ..) rfl) (phases_others h2) (.nil _),
        .cons (.inr (.inr ⟨rfl, rfl⟩)) (.nil _)⟩
      intro i h
      rw [setAt_same] at h
      cases h
    | some w =>
      refine ⟨d, D, [], hI.others h1 rfl rfl (fun t' e => setAt_other e) ?_
        (fun t' e => setAt_other e) (fun _ => .inl (setAt_same ..)) (fun _ _ _ h => (by cases h))
        (fun _ _ _ _ _ h => (by cases h)), rfl, ?_, .nil _⟩
      · intro i h
        rw [setAt_same] at h
        cases h
      · have : ISt.phases ⟨{ s.d with thr := setAt s.d.thr t .idle }, setAt s.its t none,
            setAt s.mod t (.null k v (some w))⟩ D = s.phases D := by
          funext t'
          by_cases e : t' = t
          · subst e; rw [phases_at (setAt_same ..) rfl, phases_at hm rfl]
          · exact phases_others h2 t' e
        show WellFormed _ _ (ISt.phases ⟨_, _, setAt s.mod t (.null k v (some w))⟩ D)
        rw [this]
        exact .nil _
  | @cas t h o i k v new ref r hp ho hv hm hc hr =>
    have ht : s.d.thr t = .idle := by
      rcases hI.free t (by rw [hm]; simp) with h | ⟨k, v, new, pc, h, -⟩
      · exact h
      · rw [hm] at h; cases h
    obtain ⟨w1, w2⟩ := hI.want t i k v new ref hm
    obtain ⟨o', h1, -⟩ := hI.base.holds hp
    have := ho.symm.trans h1.1
    cases this
    obtain ⟨d', h2, h3, h4⟩ := hI.base.swap hp ht ho (w1.2 h.tab o h1 hv) (hokc _ hc) w2 hr
    refine ⟨d', D, [.lin t (.swap k v new) ⟨r.2.2, if r.2.2 then ref else none⟩],
      hI.others h2 rfl rfl (fun _ _ => rfl) ?_ (fun t' e => setAt_other e) (fun _ => .inl ht)
        (fun _ _ _ h => (by cases h)) (fun _ _ _ _ _ h => (by cases h)), rfl,
      .lin (q := ISt.phases _ D) (phases_at hm rfl) (phases_at (setAt_same ..) rfl)
        (phases_others (fun t' _ => h3 t')) (.nil _), .cons ?_ (.nil _)⟩
    · intro i' h
      rw [setAt_same] at h
      cases h
      exact w1
    · rcases h4 with ⟨e, h5, h6⟩ | ⟨e, h5⟩
      · rw [e]
        cases ref with
        | none => exact .inl ⟨rfl, h5, h6⟩
        | some w => exact .inr (.inl ⟨w, rfl, h5, h6⟩)
      · rw [e]
        exact .inr (.inr ⟨rfl, h5⟩)
  | @ret t h k v new x hp hm =>
    have ht : s.d.thr t = .idle := by
      rcases hI.free t (by rw [hm]; simp) with h | ⟨k, v, new, pc, h, -⟩
      · exact h
      · rw [hm] at h; cases h
    exact ⟨d, D, [.ret t (.swap k v new) x], hI.others hI.base rfl rfl (fun _ _ => rfl)
      (fun i h => hI.its t i h) (fun _ _ => rfl) (fun h => absurd rfl h) (fun _ _ _ h => (by cases h))
      (fun _ _ _ _ _ h => (by cases h)), rfl,
      .ret (q := ISt.phases { s with mod := setAt s.mod t .none } D) (phases_at hm rfl)
        (both_idle (setAt_same ..) (phases_idle ht)) (phases_others (fun _ _ => rfl)) (.nil _), .nil _⟩

theorem IInv.init {E : Env K} (hk : Sync.Kind true E) (a : A) (D : A → Dict K V) :
    IInv u ok (ISt.init E a : ISt T A K V) (fun _ => none) D :=
  ⟨DInv.init hk a D, fun _ h => absurd rfl h, fun _ _ _ _ h => (by cases h), fun _ _ h => (by cases h),
    fun _ _ _ _ _ _ h => (by cases h)⟩

end

end
end Async
end Growt
