import Verif.SyncInv

/-!
# Synchronised growth: what happens before what

`Sync.lean` treats all atomic accesses as sequentially consistent.  Here the steps of the protocol carry the
*happens-before* relation of the language standard: who knows of which accesses to the tables, given the memory
orders of the accesses to `_table`, `_epoch`, `_next_table`, `_current_copy_block`, `ops_protect`,
`mig_protect` and `used`.  Migration reads the slots of the old table and writes those of the new one with plain
accesses (`base_linear.hpp:1229-1296`), so operations on the old table must happen before it, and operations on the
new table after it.
-/

set_option linter.unusedSectionVars false

namespace Growt
namespace Sync

/-- The memory orders of the accesses by which threads synchronise (`estrat_sync.hpp`): `tabLd`: loads of `_table`,
269, 271, 286, 316, 383, 386, 400; `mark`: marking it, 326; `tabX`: its exchanges, 358, 364; `opsSt`: stores to
`ops_protect`, 284, 291, 298; `opsLd`: its loads, 476, 480; `migSt`: stores to `mig_protect`, 407, 424; `migLd`: its
loads, 494, 498; `nextX`: the exchange of `_next_table`, 342; `nextLd`: its loads, 418, 419; `copy`: `fetch_add` of
`_current_copy_block`, 439, 445; `ep`: load and exchange of `_epoch`, 305, 307; `usedSt`: the store to `used`, 262;
`usedLd`: its load, 106; `usedX`: its exchange, 109.  `true`: the order has the acquiring and releasing effects
that the access can have; `false`: relaxed. -/
structure Orders where
  tabLd : Bool
  mark : Bool
  tabX : Bool
  opsSt : Bool
  opsLd : Bool
  migSt : Bool
  migLd : Bool
  nextX : Bool
  nextLd : Bool
  copy : Bool
  ep : Bool
  usedSt : Bool
  usedLd : Bool
  usedX : Bool

/-- The orders in the code (`estrat_sync.hpp:106, 109, 262, 269-305, 307, 316, 342, 358, 364, 383-386, 400, 407, 418,
419, 424, 439, 445, 476-480, 494-498`; those without argument are sequentially consistent).  `mark::atomic_mark` of
the library is taken to be a compare-exchange with at least acquire and release. -/
def codeOrders : Orders :=
  ⟨true, true, true, true, true, true, true, true, true, true, true, true, true, true⟩

/-- Accesses to tables: the construction of the table with version `v` (`estrat_sync.hpp:333-336`); all accesses in
an operation on the table with version `v` through the flags `i` (284-298; `c` tells operations apart); the
migration of block `k` from the table with version `v`, by the holder of the flags `i` (442). -/
inductive Tok where
  | made (v : Nat)
  | op (v i c : Nat)
  | blk (v k i : Nat)
  deriving DecidableEq

/-- The first version whose users have to know of the access (`estrat_sync.hpp:333-336, 364, 442`). -/
def Tok.ver : Tok → Nat
  | .made v => v
  | .op v _ _ => v + 1
  | .blk v _ _ => v + 1

/-- Happens-before: `done`: the accesses that have taken place (`cnt`: the number of operations so far); `know t`:
those that happened before the present point of thread `t`; for each atomic variable the accesses that happened
before the writes which an acquiring access of it synchronises with: `_table`, `_epoch` (`estrat_sync.hpp:135, 136`),
`_next_table` (88) and `_current_copy_block` of the table with a version, `ops_protect`, `mig_protect`, `used` of
flags (100-102).  `_last_handle_id` is left out: its accesses can only add knowledge. -/
structure HB (T : Type) where
  cnt : Nat
  done : Tok → Bool
  know : T → Tok → Bool
  tab : Tok → Bool
  ep : Tok → Bool
  nx : Nat → Tok → Bool
  copy : Nat → Tok → Bool
  om : Nat → Tok → Bool
  mm : Nat → Tok → Bool
  um : Nat → Tok → Bool

section
variable {T A : Type} [DecidableEq T] [DecidableEq A]

/-- What a set becomes if an access with the given order adds `y` to it. (model bookkeeping, no code) -/
def join (o : Bool) (x y : Tok → Bool) : Tok → Bool := fun k => x k || (o && y k)

/-- What a store with the given order leaves behind. (model bookkeeping, no code) -/
def put (o : Bool) (y : Tok → Bool) : Tok → Bool := fun k => o && y k

/-- One more access. (model bookkeeping, no code) -/
def addTok (x : Tok → Bool) (n : Tok) : Tok → Bool := fun k => x k || decide (k = n)

/-- Thread `t` performs an access to a table. (model bookkeeping, no code) -/
def HB.tok (b : HB T) (t : T) (n : Tok) : HB T :=
  { b with cnt := b.cnt + 1, done := addTok b.done n, know := upd b.know t (addTok (b.know t) n) }

/-- Thread `t` acquires a message. (model bookkeeping, no code) -/
def HB.learn (b : HB T) (t : T) (o : Bool) (m : Tok → Bool) : HB T :=
  { b with know := upd b.know t (join o (b.know t) m) }

/-- Thread `t` stores to `ops_protect` (`estrat_sync.hpp:284, 291, 298`): a store replaces the message. -/
def HB.stOps (b : HB T) (t : T) (o : Orders) (i : Nat) : HB T :=
  { b with om := upd b.om i (put o.opsSt (b.know t)) }

/-- Thread `t` stores to `mig_protect` (`estrat_sync.hpp:407, 424`). -/
def HB.stMig (b : HB T) (t : T) (o : Orders) (i : Nat) : HB T :=
  { b with mm := upd b.mm i (put o.migSt (b.know t)) }

/-- Thread `t` changes `_table` by an exchange: the message grows (`estrat_sync.hpp:326, 358, 364`). -/
def HB.rmwTab (b : HB T) (t : T) (o : Bool) : HB T :=
  { b with know := upd b.know t (join o (b.know t) b.tab), tab := join o b.tab (b.know t) }

/-- Thread `t` exchanges `used` of flags `i` (`estrat_sync.hpp:109`). -/
def HB.rmwUsed (b : HB T) (t : T) (o : Bool) (i : Nat) : HB T :=
  { b with
    know := upd b.know t (join o (b.know t) (b.um i))
    um := upd b.um i (join o (b.um i) (b.know t)) }

/-- Thread `t` adds to `_current_copy_block` of the table with version `v` (`estrat_sync.hpp:439, 445`). -/
def HB.rmwCopy (b : HB T) (t : T) (o : Bool) (v : Nat) : HB T :=
  { b with
    know := upd b.know t (join o (b.know t) (b.copy v))
    copy := upd b.copy v (join o (b.copy v) (b.know t)) }

/-- What thread `t` learns and tells in a step from `p` to `p'` (`estrat_sync.hpp:202-505`). -/
def eff (o : Orders) (b : HB T) (t : T) : PC A → PC A → HB T
  | .reg i, .regTry _ => b.learn t o.usedLd (b.um i)
  | .regTry i, .regLast _ => b.rmwUsed t o.usedX i
  | .regTry i, .reg _ => b.rmwUsed t o.usedX i
  | .idle h, .out => { b with um := upd b.um h.i (put o.usedSt (b.know t)) }
  | .gt1 _, .mg1 _ _ => b.learn t o.tabLd b.tab
  | .gt1 _, .gt2 _ _ => b.learn t o.tabLd b.tab
  | .gt2 h _, .gt3 _ _ => b.stOps t o h.i
  | .gt3 _ _, .op _ _ _ => b.learn t o.tabLd b.tab
  | .gt3 _ _, .gt4 _ => b.learn t o.tabLd b.tab
  | .gt4 h, .gt1 _ => b.stOps t o h.i
  | .op h _ v, .idle _ => (b.tok t (.op v h.i b.cnt)).stOps t o h.i
  | .op h _ v, .gr1 _ _ => (b.tok t (.op v h.i b.cnt)).stOps t o h.i
  | .op h _ v, .mg1 _ _ => (b.tok t (.op v h.i b.cnt)).stOps t o h.i
  | .gr1 _ _, .gr2 _ _ _ => b.learn t o.ep b.ep
  | .gr2 _ _ _, .gr3 _ =>
    { b with know := upd b.know t (join o.ep (b.know t) b.ep), ep := join o.ep b.ep (b.know t) }
  | .gr3 _, .gr4 _ _ _ => b.learn t o.tabLd b.tab
  | .gr4 _ _ _, .gr5 _ _ _ => b.rmwTab t o.mark
  | .gr5 _ _ v, .gr6 _ _ _ _ => b.tok t (.made (v + 1))
  | .gr7 _ _ _ _ _ j, .gr7 _ _ _ _ _ j' => if j' = j then b else b.learn t o.opsLd (b.om j)
  | .gr8 _ _ v _, .mg1 _ _ => { b with nx := upd b.nx v (join o.nextX (b.nx v) (b.know t)) }
  | .mg1 _ _, .hg _ => b.learn t o.tabLd b.tab
  | .mg1 _ _, .gr10 _ _ _ _ => b.learn t o.tabLd b.tab
  | .mg1 _ _, .mg2 _ _ _ _ => b.learn t o.tabLd b.tab
  | .mg2 h _ _ _, .mg3 _ _ _ _ => b.stMig t o h.i
  | .mg3 _ _ _ v, .mg4 _ _ _ _ _ => b.learn t o.nextLd (b.nx v)
  | .mg4 _ _ _ v _, .mg5 _ _ _ _ _ _ => b.rmwCopy t o.copy v
  | .mg4 _ _ _ v _, .mg6 _ _ _ _ _ => b.rmwCopy t o.copy v
  | .mg5 h _ _ v _ k, .mg4 _ _ _ _ _ => b.tok t (.blk v k h.i)
  | .mg6 h _ _ _ _, .hg _ => b.stMig t o h.i
  | .mg6 h _ _ _ _, .gr10 _ _ _ _ => b.stMig t o h.i
  | .gr10 _ _ _ _, .gr11 _ _ _ _ => b.rmwTab t o.tabX
  | .gr12 _ _ _ _ _ j, .gr12 _ _ _ _ _ j' => if j' = j then b else b.learn t o.migLd (b.mm j)
  | .gr13 _ _ _ _, .gr14 _ _ _ => b.rmwTab t o.tabX
  | .hg _, .gt1 _ => b.learn t o.tabLd b.tab
  | _, _ => b

/-- The protocol with the happens-before relation (`estrat_sync.hpp:61-505`). -/
structure HSt (T A : Type) where
  s : St T A
  b : HB T

/-- Steps: those of the protocol without destruction of moved-from handles.  `one`: a step of thread `t`; `move`: a
handle is handed from thread `t` to thread `t'`, which has to synchronise with `t` for that
(`estrat_sync.hpp:202-505`, move constructor 237-247). -/
inductive HStep (o : Orders) : HSt T A → HSt T A → Prop where
  | one {x : HSt T A} {l : Lbl T A} {s' : St T A} (t : T) (hs : Step false x.s l s')
      (ht : ∀ t', t' ≠ t → s'.pc t' = x.s.pc t') : HStep o x ⟨s', eff o x.b t (x.s.pc t) (s'.pc t)⟩
  | move {x : HSt T A} {t t' : T} {h : Hd} (hp : x.s.pc t = .idle h) (hs : h.shell = false)
      (hp' : x.s.pc t' = .out) :
      HStep o x ⟨(x.s.at t .out).at t' (.idle h), x.b.learn t' true (x.b.know t)⟩

/-- Nothing has been accessed but the first table, which all threads know (`estrat_sync.hpp:189-195`). -/
def HB.init : HB T := ⟨0, fun _ => false, fun _ _ => false, fun _ => false, fun _ => false, fun _ _ => false,
  fun _ _ => false, fun _ _ => false, fun _ _ => false, fun _ _ => false⟩

/-- Executions. (model bookkeeping, no code) -/
inductive HReach (o : Orders) (a : A) (n : Nat) : HSt T A → Prop where
  | init : HReach o a n ⟨St.init a n, HB.init⟩
  | step {x x' : HSt T A} (h : HReach o a n x) (hs : HStep o x x') : HReach o a n x'

theorem HStep.base {o : Orders} {x x' : HSt T A} (h : HStep o x x') : ∃ l, Step false x.s l x'.s := by
  cases h with
  | one t hs _ => exact ⟨_, hs⟩
  | move hp hs hp' => exact ⟨_, Step.move (shells := false) hp hs hp'⟩

theorem HReach.base {o : Orders} {a : A} {n : Nat} {x : HSt T A} (h : HReach o a n x) : Reach false a n x.s := by
  induction h with
  | init => exact .init
  | step _ hs ih => obtain ⟨l, hl⟩ := hs.base; exact .step ih hl

/-- Every step is one of at most one thread, except for moving a handle. -/
theorem step_one {s s' : St T A} {l : Lbl T A} (hs : Step false s l s') :
    s'.pc = s.pc ∨ (∃ t p, s'.pc = upd s.pc t p) ∨
      ∃ t t' h, s.pc t = .idle h ∧ h.shell = false ∧ s.pc t' = .out ∧ s' = (s.at t .out).at t' (.idle h) := by
  cases hs <;> first
    | exact .inl rfl
    | exact .inr (.inl ⟨_, _, rfl⟩)
    | exact .inr (.inr ⟨_, _, _, by assumption, by assumption, by assumption, rfl⟩)

/-- Every execution of the protocol is one with a happens-before relation. -/
theorem HReach.lift (o : Orders) [Inhabited T] {a : A} {n : Nat} {s : St T A} (h : Reach false a n s) :
    ∃ b, HReach o a n ⟨s, b⟩ := by
  induction h with
  | init => exact ⟨_, .init⟩
  | step _ hs ih =>
    obtain ⟨b, ih⟩ := ih
    rcases step_one hs with h | ⟨t, p, h⟩ | ⟨t, t', h, h1, h2, h3, h4⟩
    · exact ⟨_, .step ih (.one default hs (fun t' _ => by rw [h]))⟩
    · exact ⟨_, .step ih (.one t hs (fun t' ht => by rw [h, upd_ne _ _ ht]))⟩
    · subst h4; exact ⟨_, .step ih (.move h1 h2 h3)⟩

/-! ## The invariant -/

/-- The flags through which an access has been made. (proof, no code) -/
def Tok.flag : Tok → Option Nat
  | .made _ => none
  | .op _ i _ => some i
  | .blk _ _ i => some i

/-- What a migration from version `v` has to know. (proof, no code) -/
def Tok.pre (k : Tok) (v : Nat) : Prop := k.ver ≤ v ∨ k = .made (v + 1) ∨ ∃ i c, k = .op v i c

/-- What the growing thread has to know while it migrates. (proof, no code) -/
def needC : Cont A → Tok → Prop
  | .help, _ => False
  | .grow _ v _, k => k.pre v

/-- The accesses that a thread has to know, if they have taken place. (proof, no code) -/
def Needs : PC A → Tok → Prop
  | .op _ _ v, k => k.ver ≤ v
  | .gr4 _ _ v, k | .gr5 _ _ v, k => k.ver ≤ v
  | .gr6 _ _ v _, k => k.ver ≤ v ∨ k = .made (v + 1)
  | .gr7 _ _ v _ n j, k => k.ver ≤ v ∨ k = .made (v + 1) ∨ ∃ i c, k = .op v i c ∧ (i < j ∨ n ≤ i)
  | .gr8 _ _ v _, k | .gr10 _ _ v _, k | .gr11 _ _ v _, k => k.pre v
  | .gr12 _ _ v _ n j, k => k.pre v ∨ ∃ b i, k = .blk v b i ∧ (i < j ∨ n ≤ i)
  | .gr13 _ _ v _, k | .gr14 _ _ v, k => k.ver ≤ v + 1
  | .mg1 _ c, k | .mg6 _ c _ _ _, k => needC c k
  | .mg2 _ c _ v, k | .mg3 _ c _ v, k => k.ver ≤ v ∨ needC c k
  | .mg4 _ c _ v _, k | .mg5 _ c _ v _ _, k => k.pre v ∨ needC c k
  | _, _ => False

/-- The successor of the table with version `v` has been attached. (proof, no code) -/
def St.att (s : St T A) (v : Nat) : Prop :=
  match s.phase with
  | .begun | .marked _ _ | .made _ _ _ | .waitOps _ _ _ _ _ | .ready _ _ _ => (v : Int) < s.epoch
  | _ => (v : Int) ≤ s.epoch

/-- What is known of the versions of threads. (proof, no code) -/
def Aux (s : St T A) : PC A → Prop
  | .mg2 _ _ a v | .mg3 _ _ a v => s.att v ∨ s.table = .mark a ∧ s.epoch = v
  | .mg4 _ _ _ v _ => s.att v
  | .gr14 _ _ v => (v : Int) + 1 ≤ s.cap
  | _ => True

/-- Threads that may have migrated blocks and not yet cleared `mig_protect`. (proof, no code) -/
def PC.inMig : PC A → Bool
  | .mg4 _ _ _ _ _ | .mg5 _ _ _ _ _ _ | .mg6 _ _ _ _ _ => true
  | _ => false

/-- The invariant. (proof, no code) -/
structure HInv (x : HSt T A) : Prop where
  i : SInv x.s
  last : ∀ k f, x.b.done k = true → k.flag = some f → f < x.s.last
  own : ∀ t k f, x.b.done k = true → k.flag = some f → (x.s.pc t).flags = some f → x.b.know t k = true
  free : ∀ k f, x.b.done k = true → k.flag = some f → x.s.used f = false → x.b.um f k = true
  om : ∀ v f c, x.b.done (.op v f c) = true → x.b.om f (.op v f c) = true ∨
    ∃ t h a w, x.s.pc t = .op h a w ∧ h.i = f
  mm : ∀ v k f, x.b.done (.blk v k f) = true → x.b.mm f (.blk v k f) = true ∨
    ∃ t, (x.s.pc t).inMig = true ∧ (x.s.pc t).flags = some f
  tab : ∀ k, x.b.done k = true → (k.ver : Int) ≤ x.s.cap → x.b.tab k = true
  nx : ∀ v k, x.b.done k = true → (k = .made (v + 1) ∨ ∃ i c, k = .op v i c) → x.s.att v → x.b.nx v k = true
  need : ∀ t k, x.b.done k = true → Needs (x.s.pc t) k → x.b.know t k = true
  aux : ∀ t, Aux x.s (x.s.pc t)

/-- A step from `p` to `p'` of thread `t` that performs no access to a table. (proof, no code) -/
structure Chg (s : St T A) (b : HB T) (t : T) (p p' : PC A) (s' : St T A) (b' : HB T) : Prop where
  done : b'.done = b.done := by rfl
  know : ∀ t' k, b.know t' k = true → b'.know t' k = true := by exact fun _ _ h => h
  last : s.last ≤ s'.last := by exact Nat.le_refl _
  own : p'.flags = none ∨ p'.flags = p.flags ∨
    ∃ f, p'.flags = some f ∧ s.used f = false ∧ ∀ k, b.um f k = true → b'.know t k = true := by
      first | exact .inr (.inl rfl) | exact .inl rfl
  free : ∀ f, s'.used f = false → (s.used f = false ∧ ∀ k, b.um f k = true → b'.um f k = true) ∨
    (p.flags = some f ∧ ∀ k, b.know t k = true → b'.um f k = true) := by exact fun _ h => .inl ⟨h, fun _ h => h⟩
  om : ∀ f, (∀ k, b.om f k = true → b'.om f k = true) ∨
    (p.flags = some f ∧ ∀ k, b.know t k = true → b'.om f k = true) := by exact fun _ => .inl fun _ h => h
  omp : ∀ h a v, p = .op h a v → p' = p ∨ ∀ k, b.know t k = true → b'.om h.i k = true := by
    exact fun _ _ _ h => by cases h
  mm : ∀ f, (∀ k, b.mm f k = true → b'.mm f k = true) ∨
    (p.flags = some f ∧ ∀ k, b.know t k = true → b'.mm f k = true) := by exact fun _ => .inl fun _ h => h
  mmp : p.inMig = true → (p'.inMig = true ∧ p'.flags = p.flags) ∨
    ∀ f, p.flags = some f → ∀ k, b.know t k = true → b'.mm f k = true := by
      first | exact fun _ => .inl ⟨rfl, rfl⟩ | exact fun h => by cases h
  tab : ∀ k, b.tab k = true → b'.tab k = true := by exact fun _ h => h
  cap : s'.cap ≤ s.cap ∨ ∀ k, b.done k = true → (k.ver : Int) ≤ s'.cap → b'.tab k = true := by
    exact .inl (Int.le_refl _)
  nx : ∀ v k, b.nx v k = true → b'.nx v k = true := by exact fun _ _ h => h
  att : ∀ v, s'.att v → s.att v ∨ ∀ k, b.done k = true → (k = .made (v + 1) ∨ ∃ i c, k = .op v i c) →
    b'.nx v k = true := by exact fun _ h => .inl h
  need : ∀ k, b.done k = true → Needs p' k → b'.know t k = true
  aux : Aux s' p' := by exact trivial
  auxo : ∀ q, Aux s q → Aux s' q := by exact fun q h => by cases q <;> exact h

/-- Such a step preserves the invariant. -/
theorem HInv.go {s : St T A} {b : HB T} (hx : HInv ⟨s, b⟩) {t : T} {p p' : PC A} {s' : St T A} {b' : HB T}
    (hp : s.pc t = p) (hpc : s'.pc = upd s.pc t p') (hI : SInv s') (C : Chg s b t p p' s' b') : HInv ⟨s', b'⟩ := by
  have hat : s'.pc t = p' := by rw [hpc, upd_self]
  have hne : ∀ t', t' ≠ t → s'.pc t' = s.pc t' := fun t' h => by rw [hpc, upd_ne _ _ h]
  have hd : ∀ k, b'.done k = true → b.done k = true := fun k h => by rw [← C.done]; exact h
  constructor
  · exact hI
  · exact fun k f h hf => Nat.lt_of_lt_of_le (hx.last k f (hd k h) hf) C.last
  · intro t' k f h hf hfl
    replace h := hd k h
    by_cases e : t' = t
    · subst e
      simp only [hat] at hfl
      rcases C.own with h1 | h1 | ⟨g, h1, h2, h3⟩
      · rw [h1] at hfl; cases hfl
      · rw [h1, ← hp] at hfl; exact C.know _ _ (hx.own t' k f h hf hfl)
      · rw [h1] at hfl; cases hfl; exact h3 k (hx.free k f h hf h2)
    · simp only [hne t' e] at hfl
      exact C.know _ _ (hx.own t' k f h hf hfl)
  · intro k f h hf hu
    replace h := hd k h
    rcases C.free f hu with ⟨h1, h2⟩ | ⟨h1, h2⟩
    · exact h2 k (hx.free k f h hf h1)
    · exact h2 k (hx.own t k f h hf (by show (s.pc t).flags = _; rw [hp]; exact h1))
  · intro v f c h
    replace h := hd _ h
    have hown := hx.own
    rcases hx.om v f c h with h1 | ⟨t', hh, a, w, h1, h2⟩
    · rcases C.om f with h3 | ⟨h3, h4⟩
      · exact .inl (h3 _ h1)
      · exact .inl (h4 _ (hx.own t _ f h rfl (by show (s.pc t).flags = _; rw [hp]; exact h3)))
    · by_cases e : t' = t
      · subst e
        have h1 : s.pc t' = .op hh a w := h1
        have h5 : b.know t' (.op v f c) = true :=
          hx.own t' _ f h rfl (by show (s.pc t').flags = _; rw [h1, ← h2]; rfl)
        rw [hp] at h1
        rcases C.omp _ _ _ h1 with h6 | h6
        · exact .inr ⟨t', hh, a, w, by show s'.pc t' = _; rw [hat, h6]; exact h1, h2⟩
        · have := h6 _ h5
          rw [h2] at this
          exact .inl this
      · exact .inr ⟨t', hh, a, w, by rw [← h1]; exact hne t' e, h2⟩
  · intro v k f h
    replace h := hd _ h
    rcases hx.mm v k f h with h1 | ⟨t', h1, h2⟩
    · rcases C.mm f with h3 | ⟨h3, h4⟩
      · exact .inl (h3 _ h1)
      · exact .inl (h4 _ (hx.own t _ f h rfl (by show (s.pc t).flags = _; rw [hp]; exact h3)))
    · by_cases e : t' = t
      · subst e
        have h5 := hx.own t' _ f h rfl h2
        have h1 : (s.pc t').inMig = true := h1
        have h2 : (s.pc t').flags = some f := h2
        rw [hp] at h1 h2
        rcases C.mmp h1 with ⟨h3, h4⟩ | h3
        · exact .inr ⟨t', by show (s'.pc t').inMig = _; rw [hat]; exact h3,
            by show (s'.pc t').flags = _; rw [hat, h4]; exact h2⟩
        · exact .inl (h3 f h2 _ h5)
      · exact .inr ⟨t', by show (s'.pc t').inMig = _; rw [hne t' e]; exact h1,
          by show (s'.pc t').flags = _; rw [hne t' e]; exact h2⟩
  · intro k h hv
    replace h := hd _ h
    rcases C.cap with h1 | h1
    · exact C.tab k (hx.tab k h (Int.le_trans hv h1))
    · exact h1 k h hv
  · intro v k h hk ha
    replace h := hd _ h
    rcases C.att v ha with h1 | h1
    · exact C.nx v k (hx.nx v k h hk h1)
    · exact h1 k h hk
  · intro t' k h hn
    replace h := hd _ h
    by_cases e : t' = t
    · subst e
      simp only [hat] at hn
      exact C.need k h hn
    · simp only [hne t' e] at hn
      exact C.know _ _ (hx.need t' k h hn)
  · intro t'
    by_cases e : t' = t
    · subst e
      show Aux s' (s'.pc t')
      rw [hat]; exact C.aux
    · show Aux s' (s'.pc t')
      rw [hne t' e]; exact C.auxo _ (hx.aux t')

/-- An access to a table, made by thread `t`. -/
theorem HInv.tok {s : St T A} {b : HB T} (hx : HInv ⟨s, b⟩) {t : T} {n : Tok}
    (hfl : ∀ f, n.flag = some f → (s.pc t).flags = some f ∧ f < s.last)
    (hop : ∀ v f c, n = .op v f c → ∃ h a w, s.pc t = .op h a w ∧ h.i = f)
    (hmg : ∀ v k f, n = .blk v k f → (s.pc t).inMig = true)
    (hcap : s.cap < n.ver)
    (hatt : ∀ v, (n = .made (v + 1) ∨ ∃ i c, n = .op v i c) → ¬ s.att v)
    (hneed : ∀ t', t' ≠ t → ¬ Needs (s.pc t') n) : HInv ⟨s, b.tok t n⟩ := by
  have hd : ∀ k, (b.tok t n).done k = true → b.done k = true ∨ k = n := by
    intro k h
    simp only [HB.tok, addTok, Bool.or_eq_true, decide_eq_true_eq] at h
    exact h
  have hk : ∀ t' k, b.know t' k = true → (b.tok t n).know t' k = true := by
    intro t' k h
    by_cases e : t' = t
    · subst e; simp [HB.tok, addTok, upd_self, h]
    · simp [HB.tok, upd_ne _ _ e, h]
  have hn : (b.tok t n).know t n = true := by simp [HB.tok, addTok, upd_self]
  constructor
  · exact hx.i
  · intro k f h hf
    rcases hd k h with h | rfl
    · exact hx.last k f h hf
    · exact (hfl f hf).2
  · intro t' k f h hf hfl'
    rcases hd k h with h | rfl
    · exact hk _ _ (hx.own t' k f h hf hfl')
    · have : t' = t := hx.i.flags t' t f hfl' (hfl f hf).1
      subst this; exact hn
  · intro k f h hf hu
    rcases hd k h with h | rfl
    · exact hx.free k f h hf hu
    · have := ((hx.i.loc t).reg f (hfl f hf).1).1
      have hu : s.used f = false := hu
      rw [hu] at this; cases this
  · intro v f c h
    rcases hd _ h with h | h
    · exact hx.om v f c h
    · exact .inr ⟨t, hop v f c h.symm⟩
  · intro v k f h
    rcases hd _ h with h | h
    · exact hx.mm v k f h
    · exact .inr ⟨t, hmg v k f h.symm, (hfl f (by rw [← h]; rfl)).1⟩
  · intro k h hv
    rcases hd k h with h | rfl
    · exact hx.tab k h hv
    · exact absurd hv (Int.not_le.mpr hcap)
  · intro v k h h1 h2
    rcases hd k h with h | rfl
    · exact hx.nx v k h h1 h2
    · exact absurd h2 (hatt v h1)
  · intro t' k h h1
    rcases hd k h with h | rfl
    · exact hk _ _ (hx.need t' k h h1)
    · by_cases e : t' = t
      · subst e; exact hn
      · exact absurd h1 (hneed t' e)
  · exact hx.aux

/-- The orders that are needed. (specification, no code) -/
structure Orders.Ok (o : Orders) : Prop where
  tabLd : o.tabLd = true
  tabX : o.tabX = true
  opsSt : o.opsSt = true
  opsLd : o.opsLd = true
  migSt : o.migSt = true
  migLd : o.migLd = true
  nextX : o.nextX = true
  nextLd : o.nextLd = true
  usedSt : o.usedSt = true
  usedX : o.usedX = true

theorem learn_le (b : HB T) (t : T) (o : Bool) (m : Tok → Bool) (t' : T) (k : Tok) (h : b.know t' k = true) :
    (b.learn t o m).know t' k = true := by
  by_cases e : t' = t
  · subst e; simp [HB.learn, upd_self, join, h]
  · simp [HB.learn, upd_ne _ _ e, h]

theorem learn_get (b : HB T) (t : T) {o : Bool} {m : Tok → Bool} (ho : o = true) {k : Tok} (h : m k = true) :
    (b.learn t o m).know t k = true := by simp [HB.learn, upd_self, join, h, ho]

theorem rmwTab_know (b : HB T) (t : T) (o : Bool) (t' : T) (k : Tok) (h : b.know t' k = true) :
    (b.rmwTab t o).know t' k = true := learn_le b t o b.tab t' k h

theorem rmwTab_tab (b : HB T) (t : T) (o : Bool) (k : Tok) (h : b.tab k = true) :
    (b.rmwTab t o).tab k = true := by simp [HB.rmwTab, join, h]

theorem rmwUsed_know (b : HB T) (t : T) (o : Bool) (f : Nat) (t' : T) (k : Tok) (h : b.know t' k = true) :
    (b.rmwUsed t o f).know t' k = true := learn_le b t o (b.um f) t' k h

theorem rmwUsed_um (b : HB T) (t : T) (o : Bool) (f g : Nat) (k : Tok) (h : b.um g k = true) :
    (b.rmwUsed t o f).um g k = true := by
  by_cases e : g = f
  · subst e; simp [HB.rmwUsed, upd_self, join, h]
  · simp [HB.rmwUsed, upd_ne _ _ e, h]

theorem rmwCopy_know (b : HB T) (t : T) (o : Bool) (v : Nat) (t' : T) (k : Tok) (h : b.know t' k = true) :
    (b.rmwCopy t o v).know t' k = true := learn_le b t o (b.copy v) t' k h

theorem tok_know (b : HB T) (t : T) (n : Tok) : (b.tok t n).know t n = true := by
  simp [HB.tok, addTok, upd_self]

/-- A store to one of the flags of a thread. -/
theorem put_at {f : Nat → Tok → Bool} {m : Tok → Bool} {o : Bool} (ho : o = true) {p : PC A} {i : Nat}
    (hf : p.flags = some i) (g : Nat) : (∀ k, f g k = true → upd f i (put o m) g k = true) ∨
      (p.flags = some g ∧ ∀ k, m k = true → upd f i (put o m) g k = true) := by
  by_cases e : g = i
  · subst e; exact .inr ⟨hf, fun k h => by simp [upd_self, put, ho, h]⟩
  · exact .inl fun k h => by rw [upd_ne _ _ e]; exact h

theorem put_self {f : Nat → Tok → Bool} {m : Tok → Bool} {o : Bool} (ho : o = true) (i : Nat) (k : Tok)
    (h : m k = true) : upd f i (put o m) i k = true := by simp [upd_self, put, ho, h]

/-- The version of the current table. -/
theorem SInv.cap_clear {s : St T A} (hI : SInv s) {a : A} {o : Obj A} (ht : s.table = .clear a)
    (ho : s.heap a = some o) : s.cap = o.ver := by
  have hg := hI.glob
  unfold Glob at hg
  unfold St.cap
  cases hph : s.phase <;> simp only [hph, ht] at hg ⊢
  case quiet =>
    obtain ⟨_, _, h1, h2, -, h3⟩ := hg; cases h1; rw [ho] at h2; cases h2; exact h3
  case begun =>
    obtain ⟨_, _, h1, h2, -, h3⟩ := hg; cases h1; rw [ho] at h2; cases h2; exact h3
  all_goals (have := hg.1; cases this)

theorem SInv.cap_mark {s : St T A} (hI : SInv s) {a : A} {o : Obj A} (ht : s.table = .mark a)
    (ho : s.heap a = some o) : s.cap = o.ver := by
  have h := hI.marked ht ho
  have hg := hI.glob
  unfold Glob at hg
  unfold St.cap
  cases hph : s.phase <;> simp only [hph, ht] at hg ⊢
  case quiet => obtain ⟨_, _, h1, -⟩ := hg; cases h1
  all_goals exact h

theorem cap_ge (s : St T A) : s.epoch ≤ s.cap := by
  unfold St.cap; cases s.phase <;> simp only <;> omega

theorem Aux.mono {s s' : St T A} (hatt : ∀ v, s.att v → s'.att v)
    (hmk : ∀ a (v : Nat), s.table = .mark a → s.epoch = v → s'.att v ∨ s'.table = .mark a ∧ s'.epoch = v)
    (hcap : s.cap ≤ s'.cap) (q : PC A) (h : Aux s q) : Aux s' q := by
  have h23 : ∀ a (v : Nat), (s.att v ∨ s.table = .mark a ∧ s.epoch = v) →
      (s'.att v ∨ s'.table = .mark a ∧ s'.epoch = v) := by
    rintro a v (h | ⟨h1, h2⟩)
    · exact .inl (hatt v h)
    · exact hmk a v h1 h2
  cases q with
  | mg2 _ _ a v => exact h23 a v h
  | mg3 _ _ a v => exact h23 a v h
  | mg4 _ _ _ v _ => exact hatt v h
  | gr14 _ _ v => exact Int.le_trans h hcap
  | _ => exact h

/-- Blocks are migrated after the successor has been attached. -/
theorem SInv.mig_epoch {s : St T A} (hI : SInv s) {f : Nat} {a b : A} {v : Nat} (h : s.migOK f a v b) :
    s.epoch = v ∧ s.cap = v ∧ s.att v ∧ (∀ g x, ¬ s.opOK g x) := by
  have hg := hI.glob
  unfold Glob at hg
  unfold St.migOK at h
  unfold St.cap St.att St.opOK
  cases hph : s.phase <;> simp only [hph] at hg h ⊢
  case waitMig =>
    obtain ⟨⟨rfl, rfl, rfl⟩, -⟩ := h
    have he := hg.2.1
    exact ⟨he, he, Int.le_of_eq he.symm, fun g x h => by
      rcases h with h | ⟨h, -⟩
      · rw [hg.1] at h; cases h
      · rw [hg.1] at h; cases h⟩
  case migrating =>
    obtain ⟨rfl, rfl, rfl⟩ := h
    have he := hg.2.1
    exact ⟨he, he, Int.le_of_eq he.symm, fun g x h => by
      rcases h with h | ⟨-, h⟩
      · rw [hg.1] at h; cases h
      · exact h⟩
  case drained =>
    obtain ⟨rfl, rfl, rfl⟩ := h
    have he := hg.2.1
    exact ⟨he, he, Int.le_of_eq he.symm, fun g x h => by
      rcases h with h | ⟨-, h⟩
      · rw [hg.1] at h; cases h
      · exact h⟩
  case nulled =>
    obtain ⟨rfl, rfl, rfl⟩ := h
    have he := hg.2.1
    exact ⟨he, he, Int.le_of_eq he.symm, fun g x h => by
      rcases h with h | ⟨h, -⟩
      · rw [hg.1] at h; cases h
      · rw [hg.1] at h; cases h⟩
  all_goals exact h.elim

/-- A new access need not be known to threads that do not grow the table. -/
theorem HInv.new {s : St T A} {b : HB T} (hx : HInv ⟨s, b⟩) {n : Tok} (hcap : s.cap < n.ver)
    (hatt : ∀ v, (n = .made (v + 1) ∨ ∃ i c, n = .op v i c) → ¬ s.att v) {t : T}
    (hg : (s.pc t).grower = false) : ¬ Needs (s.pc t) n := by
  have hc := hx.i.core t
  have ha := hx.aux t
  have he := cap_ge s
  simp only at hc ha
  generalize s.pc t = q at *
  have hpre : ∀ v : Nat, (v : Int) ≤ s.epoch → s.att v → ¬ n.pre v := by
    rintro v h1 h2 (h | h | h)
    · omega
    · exact hatt v (.inl h) h2
    · exact hatt v (.inr h) h2
  intro h
  cases q with
  | op hd a v => have h1 := hc.2.2; simp only [Needs] at h; omega
  | gr14 hd a v => simp only [Needs] at h; simp only [Aux] at ha; omega
  | mg1 hd c => cases c with
    | help => exact h
    | grow => cases hg
  | mg2 hd c a v => cases c with
    | help =>
      have h1 := hc.1
      rcases h with h | h
      · omega
      · exact h
    | grow => cases hg
  | mg3 hd c a v => cases c with
    | help =>
      have h1 := hc.1
      rcases h with h | h
      · omega
      · exact h
    | grow => cases hg
  | mg4 hd c a v b' => cases c with
    | help =>
      rcases h with h | h
      · exact hpre v hc.1 ha h
      · exact h
    | grow => cases hg
  | mg5 hd c a v b' k => cases c with
    | help =>
      obtain ⟨h1, h2, h3, -⟩ := hx.i.mig_epoch hc.1
      rcases h with h | h
      · exact hpre v (Int.le_of_eq h1.symm) h3 h
      · exact h
    | grow => cases hg
  | mg6 hd c a v b' => cases c with
    | help => exact h
    | grow => cases hg
  | gr4 | gr5 | gr6 | gr7 | gr8 | gr10 | gr11 | gr12 | gr13 => cases hg
  | _ => exact h

/-- An operation that ends need not be known to any other thread yet. -/
theorem HInv.new_op {s : St T A} {b : HB T} (hx : HInv ⟨s, b⟩) {t : T} {h : Hd} {a : A} {v c : Nat}
    (hp : s.pc t = .op h a v) :
    (s.cap < (Tok.op v h.i c).ver ∧
    ∀ w, (Tok.op v h.i c = .made (w + 1) ∨ ∃ i c', Tok.op v h.i c = .op w i c') → ¬ s.att w) ∧
    ∀ t', ¬ Needs (s.pc t') (.op v h.i c) ∨ t' = t := by
  have hi : SInv s := hx.i
  have hc := hi.core t
  simp only [hp] at hc
  obtain ⟨⟨ob, ho, hv⟩, hok, hle⟩ := hc
  have hcap : s.cap = v := by
    rcases hok with h1 | ⟨h1, -⟩
    · rw [hi.cap_clear h1 ho, hv]
    · rw [hi.cap_mark h1 ho, hv]
  have hatt : ∀ w, (Tok.op v h.i c = .made (w + 1) ∨ ∃ i c', Tok.op v h.i c = .op w i c') → ¬ s.att w := by
    rintro w (h1 | ⟨i, c', h1⟩) h2
    · cases h1
    · cases h1
      unfold St.att at h2
      unfold St.opOK at hok
      unfold St.cap at hcap
      have hg := hi.glob
      unfold Glob at hg
      cases hph : s.phase <;> simp only [hph] at h2 hok hcap hg <;> first
        | omega
        | (rcases hok with h3 | ⟨h3, h4⟩
           · rw [hg.1] at h3; cases h3
           · exact h4)
  have hlt : s.cap < (Tok.op v h.i c).ver := by simp only [Tok.ver]; omega
  refine ⟨⟨hlt, hatt⟩, fun t' => ?_⟩
  by_cases e : t' = t
  · exact .inr e
  refine .inl ?_
  cases hgr : (s.pc t').grower with
  | false => exact hx.new hlt hatt hgr
  | true =>
    have hc' := hi.core t'
    have he := cap_ge s
    have hg := hi.glob
    unfold Glob at hg
    have hph' : ∀ x w y, s.phase ≠ .migrating x w y := by
      intro x w y hph
      simp only [St.opOK, hph] at hok hg
      rcases hok with h3 | ⟨-, h3⟩
      · rw [hg.1] at h3; cases h3
      · exact h3
    generalize s.pc t' = q at *
    intro hn
    cases q with
    | gr4 hd x w =>
      obtain ⟨-, h1, o', h2, h3⟩ := hc'
      have := hi.cap_clear h1 h2
      simp only [Needs, Tok.ver] at hn; omega
    | gr5 hd x w =>
      have hc' : s.phase = .marked x w := hc'
      rw [hc'] at hg
      have := hg.2.1
      simp only [Needs, Tok.ver] at hn; omega
    | gr6 hd x w y =>
      have hc' : s.phase = .made x w y := hc'
      rw [hc'] at hg
      have := hg.2.1
      simp only [Needs, Tok.ver] at hn
      rcases hn with hn | hn
      · omega
      · cases hn
    | gr7 hd x w y n j =>
      have hc' : s.phase = .waitOps x w y n j := hc'
      rw [hc'] at hg
      have h1 := hg.2.1
      simp only [Needs, Tok.ver] at hn
      rcases hn with hn | hn | ⟨i, c', hn, hn'⟩
      · omega
      · cases hn
      · cases hn
        simp only [St.opOK, hc'] at hok
        rcases hok with h3 | ⟨-, h3⟩
        · rw [hg.1] at h3; cases h3
        · omega
    | gr8 hd x w y =>
      have hc' : s.phase = .ready x w y := hc'
      simp only [St.opOK, hc'] at hok hg
      rcases hok with h3 | ⟨-, h3⟩
      · rw [hg.1] at h3; cases h3
      · exact h3
    | gr10 hd x w y =>
      have hc' : s.phase = .drained x w y := hc'
      simp only [St.opOK, hc'] at hok hg
      rcases hok with h3 | ⟨-, h3⟩
      · rw [hg.1] at h3; cases h3
      · exact h3
    | gr11 hd x w y =>
      have hc' : s.phase = .nulled x w y := hc'
      simp only [St.opOK, hc'] at hok hg
      rcases hok with h3 | ⟨h3, -⟩ <;> (rw [hg.1] at h3; cases h3)
    | gr12 hd x w y n j =>
      have hc' : s.phase = .waitMig x w y n j := hc'
      simp only [St.opOK, hc'] at hok hg
      rcases hok with h3 | ⟨h3, -⟩ <;> (rw [hg.1] at h3; cases h3)
    | gr13 hd x w y =>
      have hc' : s.phase = .empty x w y := hc'
      simp only [St.opOK, hc'] at hok hg
      rcases hok with h3 | ⟨h3, -⟩ <;> (rw [hg.1] at h3; cases h3)
    | mg1 hd c => cases c with
      | help => cases hgr
      | grow x w y => exact hph' _ _ _ (hc' x w y rfl)
    | mg2 hd c => cases c with
      | help => cases hgr
      | grow x w y => exact hph' _ _ _ (hc'.2 x w y rfl).1
    | mg3 hd c => cases c with
      | help => cases hgr
      | grow x w y => exact hph' _ _ _ (hc'.2 x w y rfl).1
    | mg4 hd c => cases c with
      | help => cases hgr
      | grow x w y => exact hph' _ _ _ (hc'.2.2 x w y rfl).1
    | mg5 hd c => cases c with
      | help => cases hgr
      | grow x w y => exact hph' _ _ _ (hc'.2 x w y rfl).1
    | mg6 hd c => cases c with
      | help => cases hgr
      | grow x w y => exact hph' _ _ _ (hc' x w y rfl).1
    | op | gr14 => cases hgr
    | _ => exact hn

/-- A migrated block need not be known to any other thread yet. -/
theorem HInv.new_blk {s : St T A} {b : HB T} (hx : HInv ⟨s, b⟩) {t : T} {h : Hd} {c : Cont A} {a y : A}
    {v k : Nat} (hp : s.pc t = .mg5 h c a v y k) :
    (s.cap < (Tok.blk v k h.i).ver ∧
    ∀ w, (Tok.blk v k h.i = .made (w + 1) ∨ ∃ i c', Tok.blk v k h.i = .op w i c') → ¬ s.att w) ∧
    ∀ t', ¬ Needs (s.pc t') (.blk v k h.i) ∨ t' = t := by
  have hi : SInv s := hx.i
  have hc := hi.core t
  simp only [hp] at hc
  obtain ⟨hm, -⟩ := hc
  obtain ⟨h1, h2, h3, -⟩ := hi.mig_epoch hm
  have hlt : s.cap < (Tok.blk v k h.i).ver := by simp only [Tok.ver]; omega
  have hatt : ∀ w, (Tok.blk v k h.i = .made (w + 1) ∨ ∃ i c', Tok.blk v k h.i = .op w i c') → ¬ s.att w := by
    rintro w (h1 | ⟨i, c', h1⟩) h2 <;> cases h1
  refine ⟨⟨hlt, hatt⟩, fun t' => ?_⟩
  by_cases e : t' = t
  · exact .inr e
  refine .inl ?_
  cases hgr : (s.pc t').grower with
  | false => exact hx.new hlt hatt hgr
  | true =>
    have hc' := hi.core t'
    have hg := hi.glob
    have hpre : ∀ w : Nat, (w : Int) = s.epoch → ¬ (Tok.blk v k h.i).pre w := by
      rintro w hw (h4 | h4 | ⟨_, _, h4⟩)
      · simp only [Tok.ver] at h4; omega
      · cases h4
      · cases h4
    unfold Glob at hg
    unfold St.migOK at hm
    have hC : ∀ c : Cont A, ContOK s c → ¬ needC c (Tok.blk v k h.i) := by
      intro c hcc hn
      cases c with
      | help => exact hn
      | grow x w y =>
        have := hcc x w y rfl
        rw [this] at hg
        exact hpre w hg.2.1.symm hn
    generalize s.pc t' = q at *
    intro hn
    cases q with
    | gr4 hd x w => rw [hc'.1] at hm; exact hm
    | gr5 hd x w =>
      have hc' : s.phase = .marked x w := hc'
      rw [hc'] at hm; exact hm
    | gr6 hd x w y =>
      have hc' : s.phase = .made x w y := hc'
      rw [hc'] at hm; exact hm
    | gr7 hd x w y n j =>
      have hc' : s.phase = .waitOps x w y n j := hc'
      rw [hc'] at hm; exact hm
    | gr8 hd x w y =>
      have hc' : s.phase = .ready x w y := hc'
      rw [hc'] at hm; exact hm
    | gr10 hd x w y =>
      have hc' : s.phase = .drained x w y := hc'
      rw [hc'] at hg
      exact hpre w hg.2.1.symm hn
    | gr11 hd x w y =>
      have hc' : s.phase = .nulled x w y := hc'
      rw [hc'] at hg
      exact hpre w hg.2.1.symm hn
    | gr12 hd x w y n j =>
      have hc' : s.phase = .waitMig x w y n j := hc'
      rw [hc'] at hg hm
      rcases hn with hn | ⟨k', i, hn, hn'⟩
      · exact hpre w hg.2.1.symm hn
      · cases hn
        have := hm.2
        omega
    | gr13 hd x w y =>
      have hc' : s.phase = .empty x w y := hc'
      rw [hc'] at hm; exact hm
    | mg1 hd c => exact hC c hc' hn
    | mg2 hd c x w =>
      cases c with
      | help => cases hgr
      | grow x' w' y' =>
        obtain ⟨g1, g2, g3⟩ := hc'.2 _ _ _ rfl
        rw [g1] at hg
        have := hg.2.1
        rcases hn with hn | hn
        · simp only [Tok.ver] at hn; omega
        · exact hpre w' this.symm hn
    | mg3 hd c x w =>
      cases c with
      | help => cases hgr
      | grow x' w' y' =>
        obtain ⟨g1, g2, g3⟩ := hc'.2 _ _ _ rfl
        rw [g1] at hg
        have := hg.2.1
        rcases hn with hn | hn
        · simp only [Tok.ver] at hn; omega
        · exact hpre w' this.symm hn
    | mg4 hd c x w y =>
      cases c with
      | help => cases hgr
      | grow x' w' y' =>
        obtain ⟨g1, g2, g3⟩ := hc'.2.2 _ _ _ rfl
        rw [g1] at hg
        have := hg.2.1
        rcases hn with hn | hn
        · exact hpre w (by rw [← g3]; exact this.symm) hn
        · exact hpre w' this.symm hn
    | mg5 hd c x w y k' =>
      cases c with
      | help => cases hgr
      | grow x' w' y' =>
        obtain ⟨g1, g2, g3⟩ := hc'.2 _ _ _ rfl
        rw [g1] at hg
        have := hg.2.1
        rcases hn with hn | hn
        · exact hpre w (by rw [← g3]; exact this.symm) hn
        · exact hpre w' this.symm hn
    | mg6 hd c x w y =>
      cases c with
      | help => cases hgr
      | grow x' w' y' =>
        obtain ⟨g1, g2, g3⟩ := hc' _ _ _ rfl
        rw [g1] at hg
        exact hpre w' hg.2.1.symm hn
    | op | gr14 => cases hgr
    | _ => exact hn

/-- The thread that makes a step. -/
theorem HInv.run {o : Orders} {s : St T A} {b b2 : HB T} (hx : HInv ⟨s, b2⟩) {tm t : T} {p p' : PC A} {s' : St T A}
    (ht : ∀ t', t' ≠ tm → s'.pc t' = s.pc t') (hp : s.pc t = p) (hpc : s'.pc = upd s.pc t p') (hne : p' ≠ p)
    (hI : SInv s') (C : tm = t → Chg s b2 t p p' s' (eff o b t p p')) :
    HInv ⟨s', eff o b tm (s.pc tm) (s'.pc tm)⟩ := by
  by_cases e : t = tm
  · subst e
    have : eff o b t (s.pc t) (s'.pc t) = eff o b t p p' := by rw [hp, hpc, upd_self]
    rw [this]
    exact hx.go hp hpc hI (C rfl)
  · have := ht t e
    rw [hpc, upd_self, hp] at this
    exact absurd this hne

theorem eff_self (o : Orders) (b : HB T) (t : T) (p : PC A) : eff o b t p p = b := by
  cases p <;> simp [eff]

/-- A step in which no thread moves. -/
theorem HInv.stay {o : Orders} {s : St T A} {b : HB T} (hx : HInv ⟨s, b⟩) {tm : T} {s' : St T A} (hI : SInv s')
    (hpc : s'.pc = s.pc) (htab : s'.table = s.table) (hep : s'.epoch = s.epoch) (hph : s'.phase = s.phase)
    (hu : s'.used = s.used) (hl : s.last ≤ s'.last) : HInv ⟨s', eff o b tm (s.pc tm) (s'.pc tm)⟩ := by
  rw [hpc, eff_self]
  have hcap : s'.cap = s.cap := by unfold St.cap; rw [hph, hep]
  have hatt : ∀ v, s'.att v = s.att v := by intro v; unfold St.att; rw [hph, hep]
  refine hx.go (t := tm) (p := s.pc tm) (p' := s.pc tm) rfl (by rw [hpc]; funext t'; unfold upd; split <;> simp_all) hI ?_
  exact
    { last := hl
      own := .inr (.inl rfl)
      free := fun f h => .inl ⟨by rw [← hu]; exact h, fun _ h => h⟩
      omp := fun _ _ _ _ => .inl rfl
      mmp := fun h => .inl ⟨h, rfl⟩
      cap := .inl (Int.le_of_eq hcap)
      att := fun v h => .inl (by rw [← hatt]; exact h)
      need := fun k h hn => hx.need tm k h hn
      aux := Aux.mono (fun v h => by rw [hatt]; exact h) (fun a v h1 h2 => .inr ⟨by rw [htab]; exact h1, by rw [hep]; exact h2⟩)
        (Int.le_of_eq hcap.symm) _ (hx.aux tm)
      auxo := Aux.mono (fun v h => by rw [hatt]; exact h) (fun a v h1 h2 => .inr ⟨by rw [htab]; exact h1, by rw [hep]; exact h2⟩)
        (Int.le_of_eq hcap.symm) }

/-- Going on to another stage of growing. -/
theorem stage {s s' : St T A} (hep : s'.epoch = s.epoch) (htab : s'.table = s.table) (hcap : s'.cap = s.cap)
    (hatt : ∀ v, s'.att v ↔ s.att v) :
    s'.cap ≤ s.cap ∧ (∀ v, s'.att v → s.att v) ∧ ∀ q, Aux s q → Aux s' q :=
  ⟨Int.le_of_eq hcap, fun v => (hatt v).1, Aux.mono (fun v => (hatt v).2)
    (fun a v h1 h2 => .inr ⟨by rw [htab]; exact h1, by rw [hep]; exact h2⟩) (Int.le_of_eq hcap.symm)⟩

/-- The invariant is preserved. -/
theorem HInv.step {o : Orders} (ho : o.Ok) {x x' : HSt T A} (hx : HInv x) (hs : HStep o x x') : HInv x' := by
  obtain ⟨s, b⟩ := x
  cases hs with
  | @move t t' h hp hs hp' =>
    have hp : s.pc t = .idle h := hp
    have hp' : s.pc t' = .out := hp'
    have hI' : SInv ((s.at t .out).at t' (.idle h)) := step_inv hx.i (Step.move (shells := false) hp hs hp')
    have hne : t' ≠ t := by rintro rfl; rw [hp] at hp'; cases hp'
    have hk : ∀ t1 k, b.know t1 k = true → (b.learn t' true (b.know t)).know t1 k = true := learn_le _ _ _ _
    have h1 : upd (upd s.pc t .out) t' (.idle h) t' = .idle h := upd_self _ _ _
    have h2 : upd (upd s.pc t .out) t' (.idle h) t = .out := by
      rw [upd_ne _ _ (fun h => hne h.symm), upd_self]
    have h3 : ∀ t1, t1 ≠ t → t1 ≠ t' → upd (upd s.pc t .out) t' (.idle h) t1 = s.pc t1 := by
      intro t1 e1 e2; rw [upd_ne _ _ e2, upd_ne _ _ e1]
    constructor
    · exact hI'
    · exact hx.last
    · intro t1 k f hd hf hfl
      have hfl : (upd (upd s.pc t .out) t' (.idle h) t1).flags = some f := hfl
      by_cases e1 : t1 = t'
      · subst e1
        rw [h1] at hfl
        exact learn_get _ _ rfl (hx.own t k f hd hf (by show (s.pc t).flags = _; rw [hp]; exact hfl))
      · by_cases e2 : t1 = t
        · subst e2; rw [h2] at hfl; cases hfl
        · rw [h3 t1 e2 e1] at hfl
          exact hk _ _ (hx.own t1 k f hd hf hfl)
    · exact hx.free
    · intro v f c hd
      rcases hx.om v f c hd with h4 | ⟨t1, hd, a, w, h4, h5⟩
      · exact .inl h4
      · have h4 : s.pc t1 = .op hd a w := h4
        refine .inr ⟨t1, hd, a, w, ?_, h5⟩
        show upd (upd s.pc t .out) t' (.idle h) t1 = _
        rw [h3 t1 (by rintro rfl; rw [hp] at h4; cases h4) (by rintro rfl; rw [hp'] at h4; cases h4)]
        exact h4
    · intro v k f hd
      rcases hx.mm v k f hd with h4 | ⟨t1, h4, h5⟩
      · exact .inl h4
      · have h4 : (s.pc t1).inMig = true := h4
        have e := h3 t1 (by rintro rfl; rw [hp] at h4; cases h4) (by rintro rfl; rw [hp'] at h4; cases h4)
        refine .inr ⟨t1, ?_, ?_⟩
        · show (upd (upd s.pc t .out) t' (.idle h) t1).inMig = _
          rw [e]; exact h4
        · show (upd (upd s.pc t .out) t' (.idle h) t1).flags = _
          rw [e]; exact h5
    · exact hx.tab
    · exact hx.nx
    · intro t1 k hd hn
      have hn : Needs (upd (upd s.pc t .out) t' (.idle h) t1) k := hn
      by_cases e1 : t1 = t'
      · subst e1; rw [h1] at hn; exact hn.elim
      · by_cases e2 : t1 = t
        · subst e2; rw [h2] at hn; exact hn.elim
        · rw [h3 t1 e2 e1] at hn; exact hk _ _ (hx.need t1 k hd hn)
    · intro t1
      show Aux _ (upd (upd s.pc t .out) t' (.idle h) t1)
      by_cases e1 : t1 = t'
      · subst e1; rw [h1]; trivial
      · by_cases e2 : t1 = t
        · subst e2; rw [h2]; trivial
        · rw [h3 t1 e2 e1]
          have := hx.aux t1
          simp only at this
          generalize s.pc t1 = q at this
          cases q <;> exact this
  | @one l s' tm hs ht =>
    have hI' := step_inv hx.i hs
    have hi : SInv s := hx.i
    simp only at hs ht hI' ⊢
    cases hs with
    | create hp => exact hx.run ht hp rfl nofun hI' fun _ => { need := nofun }
    | regUsed hp h1 h2 => exact hx.run ht hp rfl (by simp) hI' fun _ => { need := nofun }
    | regFree hp h1 h2 => exact hx.run ht hp rfl nofun hI' fun _ => { know := learn_le _ _ _ _, need := nofun }
    | regNone hp h1 => exact hx.run ht hp rfl nofun hI' fun _ => { need := nofun }
    | @reserve t i hp hu =>
      exact hx.run ht hp rfl nofun hI' fun _ =>
        { know := rmwUsed_know _ _ _ _
          own := .inr (.inr ⟨i, rfl, hu, fun k h => learn_get b t ho.usedX h⟩)
          free := fun f hf => .inl ⟨by
            by_cases e : f = i
            · subst e; exact hu
            · have hf : upd s.used i true f = false := hf
              rw [upd_ne _ _ e] at hf; exact hf, rmwUsed_um _ _ _ _ f⟩
          need := nofun }
    | reserveFail hp hu =>
      exact hx.run ht hp rfl nofun hI' fun _ =>
        { know := rmwUsed_know _ _ _ _
          free := fun f hf => .inl ⟨hf, rmwUsed_um _ _ _ _ f⟩
          need := nofun }
    | regLoad hp => exact hx.run ht hp rfl nofun hI' fun _ => { need := nofun }
    | @regCas t i n hp hn hl =>
      exact hx.stay hI' rfl rfl rfl rfl rfl (by show s.last ≤ i + 1; omega)
    | @regCasFail t i n hp hn =>
      by_cases e : s.last = n
      · have : upd s.pc t (.regCas i s.last) = s.pc := by
          rw [e, ← hp]; funext t'; unfold upd; split <;> simp_all
        exact hx.stay hI' this rfl rfl rfl rfl (Nat.le_refl _)
      · exact hx.run ht hp rfl (by intro h; injection h with _ h; exact e h) hI' fun _ => { need := nofun }
    | regEnd hp hn => exact hx.run ht hp rfl nofun hI' fun _ => { need := nofun }
    | @destroy t h hp hs =>
      exact hx.run ht hp rfl nofun hI' fun _ =>
        { free := fun f hf => by
            by_cases e : f = h.i
            · subst e; exact .inr ⟨rfl, put_self ho.usedSt _⟩
            · have hf : upd s.used h.i false f = false := hf
              rw [upd_ne _ _ e] at hf
              exact .inl ⟨hf, fun k hk => by show upd b.um _ _ f k = true; rw [upd_ne _ _ e]; exact hk⟩
          need := nofun }
    | @move t t' h hp hs hp' =>
      exfalso
      have hne : t' ≠ t := by rintro rfl; rw [hp] at hp'; cases hp'
      by_cases e : t' = tm
      · have h1 := ht t (by rw [← e]; exact fun h => hne h.symm)
        have h2 : ((s.at t (if false = true then PC.idle ⟨h.i, true⟩ else PC.out)).at t' (.idle h)).pc t = .out := by
          show upd (upd s.pc t _) t' _ t = _
          rw [upd_ne _ _ (fun h => hne h.symm), upd_self]; rfl
        rw [h2, hp] at h1; cases h1
      · have h1 := ht t' e
        have h2 : ((s.at t (if false = true then PC.idle ⟨h.i, true⟩ else PC.out)).at t' (.idle h)).pc t' = .idle h :=
          upd_self _ _ _
        rw [h2, hp'] at h1; cases h1
    | call hp => exact hx.run ht hp rfl nofun hI' fun _ => { need := nofun }
    | gtNull hp h1 => exact hx.stay hI' rfl rfl rfl rfl rfl (Nat.le_refl _)
    | gtMark hp h1 => exact hx.run ht hp rfl nofun hI' fun _ => { know := learn_le _ _ _ _, need := nofun }
    | gtLoad hp h1 => exact hx.run ht hp rfl nofun hI' fun _ => { know := learn_le _ _ _ _, need := nofun }
    | @gtStore t h a hp =>
      exact hx.run ht hp rfl nofun hI' fun _ => { om := put_at ho.opsSt rfl, need := nofun }
    | @gtSame t h a ob hp h1 h2 =>
      exact hx.run ht hp rfl nofun hI' fun _ =>
        { know := learn_le _ _ _ _
          need := fun k hk hn => learn_get _ _ ho.tabLd (hx.tab k hk (by
            rw [hi.cap_clear h1 h2]; have hn : k.ver ≤ ob.ver := hn; omega)) }
    | gtOther hp h1 => exact hx.run ht hp rfl nofun hI' fun _ => { know := learn_le _ _ _ _, need := nofun }
    | gtClear hp => exact hx.run ht hp rfl nofun hI' fun _ => { om := put_at ho.opsSt rfl, need := nofun }
    | opStep hp h1 h2 => exact hx.stay hI' rfl rfl rfl rfl rfl (Nat.le_refl _)
    | @opEnd t h a v hp x =>
      have hb := hi.base hp rfl
      obtain ⟨⟨n1, n2⟩, n3⟩ := hx.new_op (c := b.cnt) hp
      have hx2 := hx.tok (t := t) (n := .op v h.i b.cnt) (fun f hf => by cases hf; rw [hp]; exact ⟨rfl, hb.last⟩)
        (fun _ _ _ e => by cases e; exact ⟨h, a, v, hp, rfl⟩) nofun n1 n2 (fun t' e => (n3 t').resolve_right e)
      have C : ∀ p', Needs (A := A) p' = (fun _ => False) → (p' : PC A).flags = some h.i → (∀ s : St T A, Aux s p') → Chg s
          (b.tok t (.op v h.i b.cnt)) t (.op h a v) p' { s.at t p' with ops := upd s.ops h.i none }
          ((b.tok t (.op v h.i b.cnt)).stOps t o h.i) := fun p' q1 q2 q3 =>
        { own := .inr (.inl q2)
          om := put_at ho.opsSt rfl
          omp := fun _ _ _ e => by cases e; exact .inr (put_self ho.opsSt _)
          mmp := nofun
          need := fun k _ hn => by rw [q1] at hn; exact hn.elim
          aux := q3 _ }
      have hsh : h.shell = false := hb.shell
      cases x with
      | plain =>
        have e : (Exit.plain.next h v : PC A) = .idle h := by simp [Exit.next, hsh]
        rw [e] at hI' ht ⊢
        exact hx2.run ht hp rfl nofun hI' fun _ => C _ rfl rfl (fun _ => trivial)
      | grow =>
        have e : (Exit.grow.next h v : PC A) = .gr1 h v := by simp [Exit.next, hsh]
        rw [e] at hI' ht ⊢
        exact hx2.run ht hp rfl nofun hI' fun _ => C _ rfl rfl (fun _ => trivial)
      | help =>
        have e : (Exit.help.next h v : PC A) = .mg1 h .help := by simp [Exit.next, hsh]
        rw [e] at hI' ht ⊢
        exact hx2.run ht hp rfl nofun hI' fun _ => C _ rfl rfl (fun _ => trivial)
    | grEpoch hp => exact hx.run ht hp rfl nofun hI' fun _ => { know := learn_le _ _ _ _, need := nofun }
    | grNot hp h1 => exact hx.run ht hp rfl nofun hI' fun _ => { need := nofun }
    | @grCas t h v e hp hv he =>
      have hc := hi.core t
      rw [hp] at hc
      have hc : (v : Int) ≤ s.cap := hc
      have hph : s.phase = .quiet := by
        unfold St.cap at hc
        cases hph : s.phase <;> simp only [hph] at hc <;> first
          | rfl
          | omega
      have hcap : s.cap = s.epoch + 1 := by simp only [St.cap, hph]
      have hg := hi.glob
      unfold Glob at hg
      simp only [hph] at hg
      obtain ⟨a, ob, g1, -⟩ := hg
      exact hx.run ht hp rfl nofun hI' fun _ =>
        { know := learn_le _ _ _ _
          cap := .inl (by show (v : Int) ≤ s.cap; exact hc)
          att := fun w hw => .inl (by
            have hw : (w : Int) < v := hw
            simp only [St.att, hph]; omega)
          need := nofun
          auxo := Aux.mono (fun w hw => by
              simp only [St.att, hph] at hw
              show (w : Int) < v
              omega)
            (fun a v h1 _ => by rw [g1] at h1; cases h1)
            (by show s.cap ≤ (v : Int); omega) }
    | @grLoad t h a ob hp h1 h2 =>
      exact hx.run ht hp rfl nofun hI' fun _ =>
        { know := learn_le _ _ _ _
          need := fun k hk hn => learn_get _ _ ho.tabLd (hx.tab k hk (by
            rw [hi.cap_clear h1 h2]; have hn : k.ver ≤ ob.ver := hn; omega)) }
    | grLoadMark hp h1 => exact hx.run ht hp rfl nofun hI' fun _ => { need := nofun }
    | @grMark t h a v hp h1 =>
      have hc := hi.core t
      rw [hp] at hc
      have hph : s.phase = .begun := hc.1
      exact hx.run ht hp rfl nofun hI' fun _ =>
        { know := rmwTab_know _ _ _
          tab := rmwTab_tab _ _ _
          cap := .inl (Int.le_of_eq (by simp [St.cap, St.at, hph]))
          att := fun w hw => .inl (by simp [St.att, St.at, hph] at hw ⊢; exact hw)
          need := fun k hk hn => rmwTab_know _ _ _ _ _ (hx.need t k hk (by rw [hp]; exact hn))
          auxo := Aux.mono (fun w hw => by simp [St.att, St.at, hph] at hw ⊢; exact hw)
            (fun a v h2 _ => by rw [h1] at h2; cases h2) (Int.le_of_eq (by simp [St.cap, St.at, hph])) }
    | grMarkFail hp h1 => exact hx.run ht hp rfl nofun hI' fun _ => { need := nofun }
    | @grMake t h a c v ob n hp h1 h2 =>
      have hc := hi.core t
      rw [hp] at hc
      have hph : s.phase = .marked a v := hc
      have hg := hi.glob
      unfold Glob at hg
      rw [hph] at hg
      have he := hg.2.1
      have n1 : s.cap < (Tok.made (v + 1)).ver := by simp only [St.cap, hph, Tok.ver]; omega
      have n2 : ∀ w, (Tok.made (v + 1) = .made (w + 1) ∨ ∃ i c, Tok.made (v + 1) = .op w i c) → ¬ s.att w := by
        rintro w (h3 | ⟨_, _, h3⟩) h4
        · cases h3; simp only [St.att, hph] at h4; omega
        · cases h3
      have hgr : (s.pc t).grower = true := by rw [hp]; rfl
      have hx2 := hx.tok (t := t) (n := .made (v + 1)) nofun nofun nofun n1 n2
        (fun t' e => hx.new n1 n2 (hi.others hgr t' e))
      obtain ⟨g1, g2, g3⟩ := stage (s := s) (s' := { s.at t (.gr6 h a v c) with
        heap := upd s.heap c (some ⟨ob.ver + 1, none, 0, n⟩), phase := .made a v c }) rfl rfl
        (by simp [St.cap, St.at, hph]) (fun w => by simp [St.att, St.at, hph])
      exact hx2.run ht hp rfl nofun hI' fun _ =>
        { cap := .inl g1
          att := fun w hw => .inl (g2 w hw)
          need := fun k hk hn => by
            rcases hn with hn | rfl
            · exact hx2.need t k hk (by rw [hp]; exact hn)
            · exact tok_know b t _
          auxo := g3 }
    | @grOps t h a c v hp =>
      have hc := hi.core t
      rw [hp] at hc
      have hph : s.phase = .made a v c := hc
      obtain ⟨g1, g2, g3⟩ := stage (s := s) (s' := { s.at t (.gr7 h a v c s.last 0) with
        phase := .waitOps a v c s.last 0 }) rfl rfl
        (by simp [St.cap, St.at, hph]) (fun w => by simp [St.att, St.at, hph])
      exact hx.run ht hp rfl nofun hI' fun _ =>
        { cap := .inl g1
          att := fun w hw => .inl (g2 w hw)
          need := fun k hk hn => by
            rcases hn with hn | hn | ⟨i, c', rfl, hn⟩
            · exact hx.need t k hk (by rw [hp]; exact .inl hn)
            · exact hx.need t k hk (by rw [hp]; exact .inr hn)
            · have h1 : i < s.last := hx.last _ i hk rfl
              omega
          auxo := g3 }
    | @grOpsNext t h a c v n j hp hj h1 =>
      have hc := hi.core t
      rw [hp] at hc
      have hph : s.phase = .waitOps a v c n j := hc
      obtain ⟨g1, g2, g3⟩ := stage (s := s) (s' := { s.at t (.gr7 h a v c n (j + 1)) with
        phase := .waitOps a v c n (j + 1) }) rfl rfl
        (by simp [St.cap, St.at, hph]) (fun w => by simp [St.att, St.at, hph])
      have e : eff o b t (.gr7 h a v c n j) (.gr7 h a v c n (j + 1)) = b.learn t o.opsLd (b.om j) := by simp [eff]
      refine hx.run ht hp rfl (by simp) hI' fun _ => ?_
      rw [e]
      exact
        { know := learn_le _ _ _ _
          cap := .inl g1
          att := fun w hw => .inl (g2 w hw)
          need := fun k hk hn => by
            rcases hn with hn | hn | ⟨i, c', rfl, hn⟩
            · exact learn_le _ _ _ _ _ _ (hx.need t k hk (by rw [hp]; exact .inl hn))
            · exact learn_le _ _ _ _ _ _ (hx.need t k hk (by rw [hp]; exact .inr (.inl hn)))
            · by_cases e : i = j
              · subst e
                refine learn_get _ _ ho.opsLd ?_
                rcases hx.om _ _ _ hk with h2 | ⟨t', hd, a', w, h2, h3⟩
                · exact h2
                · exfalso
                  have h2 : s.pc t' = .op hd a' w := h2
                  have h4 := (hi.loc t').op hd a' w h2
                  have h5 := hi.core t'
                  rw [h2] at h5
                  have h6 := h5.2.1
                  have hg := hi.glob
                  unfold Glob at hg
                  rw [hph] at hg
                  have hg1 : s.table = .mark a := hg.1
                  rcases h6 with h6 | ⟨h6, -⟩
                  · rw [hg1] at h6; cases h6
                  · rw [hg1] at h6; cases h6
                    rw [h3] at h4; exact h1 h4
              · exact learn_le _ _ _ _ _ _ (hx.need t _ hk (by
                  rw [hp]; exact .inr (.inr ⟨i, c', rfl, by omega⟩)))
          auxo := g3 }
    | grOpsWait hp hj h1 => exact hx.stay hI' rfl rfl rfl rfl rfl (Nat.le_refl _)
    | @grOpsEnd t h a c v n j hp hj =>
      have hc := hi.core t
      rw [hp] at hc
      have hph : s.phase = .waitOps a v c n j := hc
      obtain ⟨g1, g2, g3⟩ := stage (s := s) (s' := { s.at t (.gr8 h a v c) with phase := .ready a v c }) rfl rfl
        (by simp [St.cap, St.at, hph]) (fun w => by simp [St.att, St.at, hph])
      exact hx.run ht hp rfl nofun hI' fun _ =>
        { cap := .inl g1
          att := fun w hw => .inl (g2 w hw)
          need := fun k hk hn => hx.need t k hk (by
            rw [hp]
            rcases hn with hn | hn | ⟨i, c', hn⟩
            · exact .inl hn
            · exact .inr (.inl hn)
            · exact .inr (.inr ⟨i, c', hn, by omega⟩))
          auxo := g3 }
    | @grNext t h a c v ob hp h1 =>
      have hc := hi.core t
      rw [hp] at hc
      have hph : s.phase = .ready a v c := hc
      have hg := hi.glob
      unfold Glob at hg
      rw [hph] at hg
      have he : s.epoch = v := hg.2.1
      have hcap : s.cap = s.epoch := by simp only [St.cap, hph]
      exact hx.run ht hp rfl nofun hI' fun _ =>
        { cap := .inl (by show s.epoch ≤ s.cap; omega)
          nx := fun w k hk => by
            by_cases e : w = v
            · subst e; show upd b.nx w _ w k = true; simp [upd_self, join, hk]
            · show upd b.nx v _ w k = true; rw [upd_ne _ _ e]; exact hk
          att := fun w hw => by
            have hw : (w : Int) ≤ s.epoch := hw
            by_cases e : w = v
            · subst e
              refine .inr fun k hk hn => ?_
              have := hx.need t k hk (by rw [hp]; exact .inr hn)
              show upd b.nx w _ w k = true
              simp [upd_self, join, ho.nextX]; exact .inr this
            · refine .inl ?_
              simp only [St.att, hph]; omega
          need := fun k hk hn => hx.need t k hk (by rw [hp]; exact hn)
          auxo := Aux.mono (fun w hw => by
              simp only [St.att, hph] at hw
              show (w : Int) ≤ s.epoch; omega)
            (fun x w _ h3 => .inl (by show (w : Int) ≤ s.epoch; omega)) (by show s.cap ≤ s.epoch; omega) }
    | @grNull t h a c v hp =>
      have hc := hi.core t
      rw [hp] at hc
      have hph : s.phase = .drained a v c := hc
      have hcap : s.cap = s.epoch := by simp only [St.cap, hph]
      exact hx.run ht hp rfl nofun hI' fun _ =>
        { know := rmwTab_know _ _ _
          tab := rmwTab_tab _ _ _
          cap := .inl (by show s.epoch ≤ s.cap; omega)
          att := fun w hw => .inl (by simp [St.att, St.at, hph] at hw ⊢; exact hw)
          need := fun k hk hn => rmwTab_know _ _ _ _ _ (hx.need t k hk (by rw [hp]; exact hn))
          auxo := Aux.mono (fun w hw => by simp [St.att, St.at, hph] at hw ⊢; exact hw)
            (fun x w _ h3 => .inl (by show (w : Int) ≤ s.epoch; omega)) (by show s.cap ≤ s.epoch; omega) }
    | @grMig t h a c v hp =>
      have hc := hi.core t
      rw [hp] at hc
      have hph : s.phase = .nulled a v c := hc
      obtain ⟨g1, g2, g3⟩ := stage (s := s) (s' := { s.at t (.gr12 h a v c s.last 0) with
        phase := .waitMig a v c s.last 0 }) rfl rfl
        (by simp [St.cap, St.at, hph]) (fun w => by simp [St.att, St.at, hph])
      exact hx.run ht hp rfl nofun hI' fun _ =>
        { cap := .inl g1
          att := fun w hw => .inl (g2 w hw)
          need := fun k hk hn => by
            rcases hn with hn | ⟨i, c', rfl, hn⟩
            · exact hx.need t k hk (by rw [hp]; exact hn)
            · have h1 : c' < s.last := hx.last _ c' hk rfl
              omega
          auxo := g3 }
    | @grMigNext t h a c v n j hp hj h1 =>
      have hc := hi.core t
      rw [hp] at hc
      have hph : s.phase = .waitMig a v c n j := hc
      obtain ⟨g1, g2, g3⟩ := stage (s := s) (s' := { s.at t (.gr12 h a v c n (j + 1)) with
        phase := .waitMig a v c n (j + 1) }) rfl rfl
        (by simp [St.cap, St.at, hph]) (fun w => by simp [St.att, St.at, hph])
      have e : eff o b t (.gr12 h a v c n j) (.gr12 h a v c n (j + 1)) = b.learn t o.migLd (b.mm j) := by simp [eff]
      refine hx.run ht hp rfl (by simp) hI' fun _ => ?_
      rw [e]
      exact
        { know := learn_le _ _ _ _
          cap := .inl g1
          att := fun w hw => .inl (g2 w hw)
          need := fun k hk hn => by
            rcases hn with hn | ⟨k', i, rfl, hn⟩
            · exact learn_le _ _ _ _ _ _ (hx.need t k hk (by rw [hp]; exact .inl hn))
            · by_cases e : i = j
              · subst e
                refine learn_get _ _ ho.migLd ?_
                rcases hx.mm _ _ _ hk with h2 | ⟨t', h2, h3⟩
                · exact h2
                · exfalso
                  have h2 : (s.pc t').inMig = true := h2
                  have h3 : (s.pc t').flags = some i := h3
                  have h4 := hi.loc t'
                  generalize s.pc t' = q at h2 h3 h4
                  cases q with
                  | mg4 hd c' a' w b' =>
                    have := h4.mg4 _ _ _ _ _ rfl
                    injection h3 with h3
                    rw [h3, h1] at this; cases this
                  | mg5 hd c' a' w b' k' =>
                    have := h4.mg5 _ _ _ _ _ _ rfl
                    injection h3 with h3
                    rw [h3, h1] at this; cases this
                  | mg6 hd c' a' w b' =>
                    have := h4.mg6 _ _ _ _ _ rfl
                    injection h3 with h3
                    rw [h3, h1] at this; cases this
                  | _ => cases h2
              · exact learn_le _ _ _ _ _ _ (hx.need t _ hk (by
                  rw [hp]; exact .inr ⟨k', i, rfl, by omega⟩))
          auxo := g3 }
    | grMigWait hp hj h1 => exact hx.stay hI' rfl rfl rfl rfl rfl (Nat.le_refl _)
    | @grMigEnd t h a c v n j hp hj =>
      have hc := hi.core t
      rw [hp] at hc
      have hph : s.phase = .waitMig a v c n j := hc
      obtain ⟨g1, g2, g3⟩ := stage (s := s) (s' := { s.at t (.gr13 h a v c) with phase := .empty a v c }) rfl rfl
        (by simp [St.cap, St.at, hph]) (fun w => by simp [St.att, St.at, hph])
      exact hx.run ht hp rfl nofun hI' fun _ =>
        { cap := .inl g1
          att := fun w hw => .inl (g2 w hw)
          need := fun k hk hn => hx.need t k hk (by
            rw [hp]
            have hn : k.ver ≤ v + 1 := hn
            by_cases e : k.ver ≤ v
            · exact .inl (.inl e)
            · cases k with
              | made w =>
                simp only [Tok.ver] at hn e
                have : w = v + 1 := by omega
                subst this
                exact .inl (.inr (.inl rfl))
              | op w i c' =>
                simp only [Tok.ver] at hn e
                have : w = v := by omega
                subst this
                exact .inl (.inr (.inr ⟨i, c', rfl⟩))
              | blk w k' i =>
                simp only [Tok.ver] at hn e
                have : w = v := by omega
                subst this
                exact .inr ⟨k', i, rfl, by omega⟩)
          auxo := g3 }
    | @grPublish t h a c v hp =>
      have hc := hi.core t
      rw [hp] at hc
      have hph : s.phase = .empty a v c := hc
      have hg := hi.glob
      unfold Glob at hg
      rw [hph] at hg
      have he : s.epoch = v := hg.2.1
      have htb : s.table = .null := hg.1
      exact hx.run ht hp rfl nofun hI' fun _ =>
        { know := rmwTab_know _ _ _
          tab := rmwTab_tab _ _ _
          cap := .inr fun k hk hv => by
            have hv : (k.ver : Int) ≤ s.epoch + 1 := hv
            have := hx.need t k hk (by rw [hp]; show k.ver ≤ v + 1; omega)
            simp [eff, HB.rmwTab, join, ho.tabX]; exact .inr this
          att := fun w hw => .inl (by simp [St.att, St.at, hph] at hw ⊢; exact hw)
          need := fun k hk hn => rmwTab_know _ _ _ _ _ (hx.need t k hk (by rw [hp]; exact hn))
          aux := by show (v : Int) + 1 ≤ s.epoch + 1; omega
          auxo := Aux.mono (fun w hw => by simp [St.att, St.at, hph] at hw ⊢; exact hw)
            (fun x w h2 _ => by rw [htb] at h2; cases h2) (by
              show s.cap ≤ s.epoch + 1
              simp only [St.cap, hph]; omega) }
    | grDelete hp => exact hx.run ht hp rfl nofun hI' fun _ => { need := nofun }
    | @mgNone t h c hp h1 =>
      have hc := hi.core t
      rw [hp] at hc
      cases c with
      | help => exact hx.run ht hp rfl nofun hI' fun _ => { know := learn_le _ _ _ _, need := nofun }
      | grow a v c =>
        exfalso
        have hph := hc a v c rfl
        have hg := hi.glob
        unfold Glob at hg
        rw [hph] at hg
        exact h1 a hg.1
    | @mgLoad t h c a ob hp h1 h2 =>
      exact hx.run ht hp rfl nofun hI' fun _ =>
        { know := learn_le _ _ _ _
          need := fun k hk hn => by
            rcases hn with hn | hn
            · exact learn_get _ _ ho.tabLd (hx.tab k hk (by rw [hi.cap_mark h1 h2]; omega))
            · exact learn_le _ _ _ _ _ _ (hx.need t k hk (by rw [hp]; exact hn))
          aux := .inr ⟨h1, hi.marked h1 h2⟩ }
    | @mgStore t h c a v hp =>
      exact hx.run ht hp rfl nofun hI' fun _ =>
        { mm := put_at ho.migSt rfl
          need := fun k hk hn => hx.need t k hk (by rw [hp]; exact hn)
          aux := by
            have := hx.aux t
            rw [hp] at this
            exact this }
    | mgWait hp h1 h2 h3 => exact hx.stay hI' rfl rfl rfl rfl rfl (Nat.le_refl _)
    | @mgNext t h c a y v ob hp h1 h2 h3 =>
      have ha := hx.aux t
      rw [hp] at ha
      have ha : s.att v := by
        rcases ha with ha | ⟨ha, hb⟩
        · exact ha
        · have ha : s.table = .mark a := ha
          have hb : s.epoch = v := hb
          have hg := hi.glob
          unfold Glob St.two at hg
          unfold St.att
          cases hph : s.phase <;> simp only [hph] at hg ⊢ <;> first
            | omega
            | (exfalso
               obtain ⟨_, _, g1, -⟩ := hg
               rw [ha] at g1; cases g1)
            | (exfalso
               obtain ⟨g1, g2, o1, g3, g4, g5⟩ := hg
               rw [ha] at g1; cases g1
               rw [h1] at g3; cases g3
               rw [g5.1] at h3; cases h3)
            | (exfalso
               obtain ⟨g1, g2, -, ⟨o1, g3, g4, g5⟩, -⟩ := hg
               rw [ha] at g1; cases g1
               rw [h1] at g3; cases g3
               rw [g5.1] at h3; cases h3)
      exact hx.run ht hp rfl nofun hI' fun _ =>
        { know := learn_le _ _ _ _
          need := fun k hk hn => by
            rcases hn with (hn | hn) | hn
            · exact learn_le _ _ _ _ _ _ (hx.need t k hk (by rw [hp]; exact .inl hn))
            · exact learn_get _ _ ho.nextLd (hx.nx v k hk hn ha)
            · exact learn_le _ _ _ _ _ _ (hx.need t k hk (by rw [hp]; exact .inr hn))
          aux := ha }
    | @mgClaim t h c a y v ob hp h1 h2 h3 =>
      exact hx.run ht hp rfl nofun hI' fun _ =>
        { know := rmwCopy_know _ _ _ _
          need := fun k hk hn => rmwCopy_know _ _ _ _ _ _ (hx.need t k hk (by rw [hp]; exact hn)) }
    | @mgLeave t h c a y v ob hp h1 h2 h3 =>
      exact hx.run ht hp rfl nofun hI' fun _ =>
        { know := rmwCopy_know _ _ _ _
          need := fun k hk hn => rmwCopy_know _ _ _ _ _ _ (hx.need t k hk (by rw [hp]; exact .inr hn)) }
    | mgWork hp h1 h2 h3 h4 => exact hx.stay hI' rfl rfl rfl rfl rfl (Nat.le_refl _)
    | @mgDone t h c a y v blk hp =>
      have hc := hi.core t
      rw [hp] at hc
      have hb := hi.base hp rfl
      obtain ⟨⟨n1, n2⟩, n3⟩ := hx.new_blk hp
      have hx2 := hx.tok (t := t) (n := .blk v blk h.i) (fun f hf => by cases hf; rw [hp]; exact ⟨rfl, hb.last⟩)
        nofun (fun _ _ _ _ => by rw [hp]; rfl) n1 n2 (fun t' e => (n3 t').resolve_right e)
      exact hx2.run ht hp rfl nofun hI' fun _ =>
        { need := fun k hk hn => hx2.need t k hk (by rw [hp]; exact hn)
          aux := (hi.mig_epoch hc.1).2.2.1 }
    | @mgEnd t h c a y v ob hp h1 h2 =>
      have hc := hi.core t
      rw [hp] at hc
      cases c with
      | help =>
        exact hx.run ht hp rfl nofun hI' fun _ =>
          { mm := put_at ho.migSt rfl
            mmp := fun _ => .inr fun f hf => by cases hf; exact put_self ho.migSt _
            need := nofun }
      | grow a' v' b' =>
        have hph : s.phase = .migrating a' v' b' := (hc a' v' b' rfl).1
        obtain ⟨g1, g2, g3⟩ := stage (s := s) (s' := { s.at t (.gr10 h a' v' b') with
          mig := upd s.mig h.i none, phase := .drained a' v' b' }) rfl rfl
          (by simp [St.cap, St.at, hph]) (fun w => by simp [St.att, St.at, hph])
        exact hx.run ht hp rfl nofun hI' fun _ =>
          { mm := put_at ho.migSt rfl
            mmp := fun _ => .inr fun f hf => by cases hf; exact put_self ho.migSt _
            cap := .inl g1
            att := fun w hw => .inl (g2 w hw)
            need := fun k hk hn => hx.need t k hk (by rw [hp]; exact hn)
            auxo := g3 }
    | hgWait hp h1 => exact hx.stay hI' rfl rfl rfl rfl rfl (Nat.le_refl _)
    | hgEnd hp h1 => exact hx.run ht hp rfl nofun hI' fun _ => { know := learn_le _ _ _ _, need := nofun }

theorem HInv.reach {o : Orders} (ho : o.Ok) {a : A} {n : Nat} {x : HSt T A} (h : HReach o a n x) : HInv x := by
  induction h with
  | init => exact ⟨SInv.init a n, nofun, nofun, nofun, nofun, nofun, nofun, nofun, nofun, fun _ => trivial⟩
  | step _ hs ih => exact ih.step ho hs

/-! ## Weaker orders -/

/-- Weaker orders. (proof, no code) -/
structure Orders.Le (o o' : Orders) : Prop where
  tabLd : o.tabLd = true → o'.tabLd = true
  mark : o.mark = true → o'.mark = true
  tabX : o.tabX = true → o'.tabX = true
  opsSt : o.opsSt = true → o'.opsSt = true
  opsLd : o.opsLd = true → o'.opsLd = true
  migSt : o.migSt = true → o'.migSt = true
  migLd : o.migLd = true → o'.migLd = true
  nextX : o.nextX = true → o'.nextX = true
  nextLd : o.nextLd = true → o'.nextLd = true
  copy : o.copy = true → o'.copy = true
  ep : o.ep = true → o'.ep = true
  usedSt : o.usedSt = true → o'.usedSt = true
  usedLd : o.usedLd = true → o'.usedLd = true
  usedX : o.usedX = true → o'.usedX = true

/-- Less is known. (proof, no code) -/
structure HB.Le (b b' : HB T) : Prop where
  cnt : b.cnt = b'.cnt
  done : b.done = b'.done
  know : ∀ t k, b.know t k = true → b'.know t k = true
  tab : ∀ k, b.tab k = true → b'.tab k = true
  ep : ∀ k, b.ep k = true → b'.ep k = true
  nx : ∀ v k, b.nx v k = true → b'.nx v k = true
  copy : ∀ v k, b.copy v k = true → b'.copy v k = true
  om : ∀ v k, b.om v k = true → b'.om v k = true
  mm : ∀ v k, b.mm v k = true → b'.mm v k = true
  um : ∀ v k, b.um v k = true → b'.um v k = true

theorem join_le {o o' : Bool} {x x' y y' : Tok → Bool} (ho : o = true → o' = true)
    (hx : ∀ k, x k = true → x' k = true) (hy : ∀ k, y k = true → y' k = true) (k : Tok)
    (h : join o x y k = true) : join o' x' y' k = true := by
  simp only [join, Bool.or_eq_true, Bool.and_eq_true] at h ⊢
  exact h.imp (hx k) (fun h => ⟨ho h.1, hy k h.2⟩)

theorem put_le {o o' : Bool} {y y' : Tok → Bool} (ho : o = true → o' = true)
    (hy : ∀ k, y k = true → y' k = true) (k : Tok) (h : put o y k = true) : put o' y' k = true := by
  simp only [put, Bool.and_eq_true] at h ⊢
  exact ⟨ho h.1, hy k h.2⟩

theorem addTok_le {x x' : Tok → Bool} {n : Tok} (hx : ∀ k, x k = true → x' k = true) (k : Tok)
    (h : addTok x n k = true) : addTok x' n k = true := by
  simp only [addTok, Bool.or_eq_true] at h ⊢
  exact h.imp_left (hx k)

theorem upd_le {I : Type} [DecidableEq I] {f f' : I → Tok → Bool} {i : I} {g g' : Tok → Bool}
    (hf : ∀ j k, f j k = true → f' j k = true) (hg : ∀ k, g k = true → g' k = true) (j : I) (k : Tok)
    (h : upd f i g j k = true) : upd f' i g' j k = true := by
  by_cases e : j = i
  · subst e; rw [upd_self] at h ⊢; exact hg k h
  · rw [upd_ne _ _ e] at h ⊢; exact hf j k h

theorem HB.Le.learn {b b' : HB T} (h : b.Le b') (t : T) {o o' : Bool} (ho : o = true → o' = true) {m m' : Tok → Bool}
    (hm : ∀ k, m k = true → m' k = true) : (b.learn t o m).Le (b'.learn t o' m') :=
  { h with know := upd_le h.know (join_le ho (h.know t) hm) }

theorem HB.Le.tok {b b' : HB T} (h : b.Le b') (t : T) (n : Tok) : (b.tok t n).Le (b'.tok t n) :=
  { h with
    cnt := congrArg (· + 1) h.cnt
    done := congrArg (addTok · n) h.done
    know := upd_le h.know (addTok_le (h.know t)) }

theorem HB.Le.stOps {b b' : HB T} (h : b.Le b') (t : T) {o o' : Orders} (ho : o.Le o') (i : Nat) :
    (b.stOps t o i).Le (b'.stOps t o' i) := { h with om := upd_le h.om (put_le ho.opsSt (h.know t)) }

theorem HB.Le.stMig {b b' : HB T} (h : b.Le b') (t : T) {o o' : Orders} (ho : o.Le o') (i : Nat) :
    (b.stMig t o i).Le (b'.stMig t o' i) := { h with mm := upd_le h.mm (put_le ho.migSt (h.know t)) }

theorem HB.Le.rmwTab {b b' : HB T} (h : b.Le b') (t : T) {o o' : Bool} (ho : o = true → o' = true) :
    (b.rmwTab t o).Le (b'.rmwTab t o') :=
  { h with know := upd_le h.know (join_le ho (h.know t) h.tab), tab := join_le ho h.tab (h.know t) }

theorem HB.Le.rmwUsed {b b' : HB T} (h : b.Le b') (t : T) {o o' : Bool} (ho : o = true → o' = true) (i : Nat) :
    (b.rmwUsed t o i).Le (b'.rmwUsed t o' i) :=
  { h with
    know := upd_le h.know (join_le ho (h.know t) (h.um i))
    um := upd_le h.um (join_le ho (h.um i) (h.know t)) }

theorem HB.Le.rmwCopy {b b' : HB T} (h : b.Le b') (t : T) {o o' : Bool} (ho : o = true → o' = true) (v : Nat) :
    (b.rmwCopy t o v).Le (b'.rmwCopy t o' v) :=
  { h with
    know := upd_le h.know (join_le ho (h.know t) (h.copy v))
    copy := upd_le h.copy (join_le ho (h.copy v) (h.know t)) }

theorem eff_le {o o' : Orders} (ho : o.Le o') {b b' : HB T} (h : b.Le b') (t : T) (p p' : PC A) :
    (eff o b t p p').Le (eff o' b' t p p') := by
  have hop : ∀ hd v, ((b.tok t (.op v hd b.cnt)).stOps t o hd).Le ((b'.tok t (.op v hd b'.cnt)).stOps t o' hd) := by
    intro hd v
    rw [h.cnt]
    exact (h.tok t _).stOps t ho _
  unfold eff
  split <;> first
    | exact h
    | exact h.learn t ho.tabLd h.tab
    | exact h.learn t ho.usedLd (h.um _)
    | exact h.rmwUsed t ho.usedX _
    | exact h.stOps t ho _
    | exact h.stMig t ho _
    | exact hop _ _
    | exact h.learn t ho.ep h.ep
    | exact h.rmwTab t ho.mark
    | exact h.rmwTab t ho.tabX
    | exact h.tok t _
    | exact h.learn t ho.nextLd (h.nx _)
    | exact h.rmwCopy t ho.copy _
    | (split
       · exact h
       · first
           | exact h.learn t ho.opsLd (h.om _)
           | exact h.learn t ho.migLd (h.mm _))
    | exact { h with um := upd_le h.um (put_le ho.usedSt (h.know t)) }
    | exact { h with know := upd_le h.know (join_le ho.ep (h.know t) h.ep), ep := join_le ho.ep h.ep (h.know t) }
    | exact { h with nx := upd_le h.nx (join_le ho.nextX (h.nx _) (h.know t)) }

/-- The same execution with weaker orders: less is known. -/
theorem HReach.weaken {o o' : Orders} (ho : o.Le o') {a : A} {n : Nat} {x' : HSt T A} (h : HReach o' a n x') :
    ∃ b, HReach o a n ⟨x'.s, b⟩ ∧ b.Le x'.b := by
  induction h with
  | init => exact ⟨_, .init, ⟨rfl, rfl, fun _ _ h => h, fun _ h => h, fun _ h => h, fun _ _ h => h,
      fun _ _ h => h, fun _ _ h => h, fun _ _ h => h, fun _ _ h => h⟩⟩
  | step _ hs ih =>
    obtain ⟨b, h1, h2⟩ := ih
    cases hs with
    | one t hs ht => exact ⟨_, .step h1 (.one t hs ht), eff_le ho h2 _ _ _⟩
    | move hp hs hp' => exact ⟨_, .step h1 (.move hp hs hp'), h2.learn _ id (h2.know _)⟩

end
end Sync
end Growt
