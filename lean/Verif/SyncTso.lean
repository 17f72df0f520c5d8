import Verif.SyncInv

/-!
# Synchronised growth with store buffers

`estrat_sync.hpp` writes the flags `ops_protect` and `mig_protect` with `memory_order_release` (lines 284, 291,
298, 407, 413, 424) and reads them and `_table` with `memory_order_acquire`.  These orders allow a thread to
read `_table` before its own earlier store is visible to others; x86 processors do so, with a buffer of
pending stores per thread.  Here the protocol of `Sync.lean` is run on such a machine (total store order):
a store of a flag is put into the buffer of the thread and reaches memory later, in order; read-modify-write
accesses and sequentially consistent stores wait until the buffer of their thread is empty.

`_table`, `_epoch`, `_next_table`, `_current_copy_block`, `_last_handle_id` and `used` are written only by such
accesses (lines 109, 214, 262, 307, 326, 342, 358, 364, 439), so only the two flags are delayed.  A thread that
reads its own flags (`wait_for_table_op`, `wait_for_migration`) has made a read-modify-write access since it last
wrote them (lines 307 and 358), so reading memory instead of its own buffer makes no difference.
-/

set_option linter.unusedSectionVars false

namespace Growt
namespace Sync

/-- A delayed store to a flag (`flags_type`, `estrat_sync.hpp:97-111`). -/
inductive Sto (A : Type) where
  | ops (i : Nat) (x : Option A)
  | mig (i : Nat) (x : Option A)

/-- The index of the flags that are written (`estrat_sync.hpp:97-111`, one `flags_type` per handle). -/
def Sto.idx {A : Type} : Sto A → Nat
  | .ops i _ => i
  | .mig i _ => i

section
variable {T A : Type} [DecidableEq T] [DecidableEq A]

/-- The store (`estrat_sync.hpp` lines 284, 291, 298, 407, 424) reaches memory. -/
def Sto.apply (s : St T A) : Sto A → St T A
  | .ops i x => { s with ops := upd s.ops i x }
  | .mig i x => { s with mig := upd s.mig i x }

/-- The stores that a thread executes when it goes from one place to another: `estrat_sync.hpp` lines 284,
291, 298, 407, 424. -/
def stores : PC A → PC A → List (Sto A)
  | .gt2 h a, .gt3 _ _ => [.ops h.i (some a)]
  | .gt4 h, .gt1 _ => [.ops h.i none]
  | .op _ _ _, .op _ _ _ => []
  | .op h _ _, _ => [.ops h.i none]
  | .mg2 h _ a _, .mg3 _ _ _ _ => [.mig h.i (some a)]
  | .mg6 _ _ _ _ _, .mg6 _ _ _ _ _ => []
  | .mg6 h _ _ _ _, _ => [.mig h.i none]
  | _, _ => []

/-- The accesses that wait until the buffer is empty: `used.exchange` (`estrat_sync.hpp:109`), `used.store` (262; also the
hand-over of a handle to another thread, 237-247), the successful compare-exchanges of `_epoch` (307) and
`_table` (326), `_next_table.exchange` (342), `_table.exchange` (358, 364), `_current_copy_block.fetch_add` (439,
445). The compare-exchange in line 214 and those inside operations are not required to wait, which only
allows more executions. -/
def drains : PC A → PC A → Bool
  | .regTry _, .regLast _ => true
  | .idle _, .out => true
  | .gr2 _ _ _, .gr3 _ => true
  | .gr4 _ _ _, .gr5 _ _ _ => true
  | .gr8 _ _ _ _, .mg1 _ _ => true
  | .gr10 _ _ _ _, .gr11 _ _ _ _ => true
  | .gr13 _ _ _ _, .gr14 _ _ _ => true
  | .mg4 _ _ _ _ _, .mg5 _ _ _ _ _ _ => true
  | .mg4 _ _ _ _ _, .mg6 _ _ _ _ _ => true
  | _, _ => false

/-- The reads that rely on a flag being visible: the second load of `_table` in `get_table` (`estrat_sync.hpp:286`) when it
finds the same table, and the load of `_next_table` in `migrate` (line 418). -/
def checks : PC A → PC A → Bool
  | .gt3 _ _, .op _ _ _ => true
  | .mg3 _ _ _ _, .mg4 _ _ _ _ _ => true
  | _, _ => false

/-- The protocol with store buffers: `s` has the flags as they are in memory. (`estrat_sync.hpp:97-137`) -/
structure TSt (T A : Type) where
  s : St T A
  buf : T → List (Sto A)

/-- Steps of the protocol with store buffers.  `careful`: the reads of `checks` wait until the buffer is empty
as well (in the code they do not). (`estrat_sync.hpp:202-505`) -/
inductive TStep (careful : Bool) : TSt T A → TSt T A → Prop where
  /-- a step of a thread; its stores are delayed -/
  | run {x : TSt T A} {l : Lbl T A} {s' : St T A} (hs : Step false x.s l s')
      (hd : ∀ u, (drains (x.s.pc u) (s'.pc u) || (careful && checks (x.s.pc u) (s'.pc u))) = true → x.buf u = []) :
      TStep careful x ⟨{ s' with ops := x.s.ops, mig := x.s.mig },
        fun u => x.buf u ++ stores (x.s.pc u) (s'.pc u)⟩
  /-- the oldest store of a thread reaches memory -/
  | commit {x : TSt T A} {t : T} {e : Sto A} {b : List (Sto A)} (hb : x.buf t = e :: b) :
      TStep careful x ⟨e.apply x.s, upd x.buf t b⟩

/-- Reachable states, from a new table (`estrat_sync.hpp:189-195`). -/
inductive TReach (careful : Bool) (a : A) (n : Nat) : TSt T A → Prop where
  | init : TReach careful a n ⟨St.init a n, fun _ => []⟩
  | step {x x' : TSt T A} (h : TReach careful a n x) (hs : TStep careful x x') : TReach careful a n x'

theorem stores_self (p : PC A) : stores p p = [] := by
  cases p <;> rfl

/-! ## Flags are set only by their owners -/

/-- Places at which `ops_protect` is set. (proof, no code) -/
def PC.holdsOps : PC A → Bool
  | .gt3 _ _ => true
  | .gt4 _ => true
  | .op _ _ _ => true
  | _ => false

/-- Places at which `mig_protect` is set. (proof, no code) -/
def PC.holdsMig : PC A → Bool
  | .mg3 _ _ _ _ => true
  | .mg4 _ _ _ _ _ => true
  | .mg5 _ _ _ _ _ _ => true
  | .mg6 _ _ _ _ _ => true
  | _ => false

/-- A flag that is set has an owner that has set it. (proof, no code) -/
structure Held (s : St T A) : Prop where
  ops : ∀ i, s.ops i ≠ none → ∃ t h, (s.pc t).hd = some h ∧ h.i = i ∧ (s.pc t).holdsOps = true
  mig : ∀ i, s.mig i ≠ none → ∃ t h, (s.pc t).hd = some h ∧ h.i = i ∧ (s.pc t).holdsMig = true

/-- Steps that leave the flags alone. -/
theorem Held.keep {s s' : St T A} (hH : Held s) {t : T} {p p' : PC A} (hp : s.pc t = p)
    (hpc : s'.pc = upd s.pc t p') (ho : s'.ops = s.ops) (hm : s'.mig = s.mig)
    (h1 : p.holdsOps = true → p'.holdsOps = true ∧ p'.hd = p.hd)
    (h2 : p.holdsMig = true → p'.holdsMig = true ∧ p'.hd = p.hd) : Held s' := by
  constructor
  · intro i hi
    rw [ho] at hi
    obtain ⟨u, h, e1, e2, e3⟩ := hH.ops i hi
    refine ⟨u, h, ?_⟩
    rw [hpc]
    by_cases e : u = t
    · subst e; rw [upd_self]; rw [hp] at e1 e3
      exact ⟨(h1 e3).2.trans e1, e2, (h1 e3).1⟩
    · rw [upd_ne _ _ e]; exact ⟨e1, e2, e3⟩
  · intro i hi
    rw [hm] at hi
    obtain ⟨u, h, e1, e2, e3⟩ := hH.mig i hi
    refine ⟨u, h, ?_⟩
    rw [hpc]
    by_cases e : u = t
    · subst e; rw [upd_self]; rw [hp] at e1 e3
      exact ⟨(h2 e3).2.trans e1, e2, (h2 e3).1⟩
    · rw [upd_ne _ _ e]; exact ⟨e1, e2, e3⟩

/-- Steps that write `ops_protect`. -/
theorem Held.setOps {s s' : St T A} (hH : Held s) {t : T} {p p' : PC A} {h : Hd} {x : Option A} (hp : s.pc t = p)
    (hh : p.hd = some h) (hpc : s'.pc = upd s.pc t p') (ho : s'.ops = upd s.ops h.i x) (hm : s'.mig = s.mig)
    (h1 : x ≠ none → p'.holdsOps = true ∧ p'.hd = some h) (h2 : p.holdsMig = false) : Held s' := by
  constructor
  · intro i hi
    rw [ho] at hi
    by_cases ei : i = h.i
    · subst ei
      rw [upd_self] at hi
      refine ⟨t, h, ?_⟩
      rw [hpc, upd_self]
      exact ⟨(h1 hi).2, rfl, (h1 hi).1⟩
    · rw [upd_ne _ _ ei] at hi
      obtain ⟨u, h', e1, e2, e3⟩ := hH.ops i hi
      have e : u ≠ t := by
        intro e; subst e; rw [hp, hh] at e1; cases e1; exact ei e2.symm
      refine ⟨u, h', ?_⟩
      rw [hpc, upd_ne _ _ e]; exact ⟨e1, e2, e3⟩
  · intro i hi
    rw [hm] at hi
    obtain ⟨u, h', e1, e2, e3⟩ := hH.mig i hi
    have e : u ≠ t := by
      intro e; subst e; rw [hp, h2] at e3; cases e3
    refine ⟨u, h', ?_⟩
    rw [hpc, upd_ne _ _ e]; exact ⟨e1, e2, e3⟩

/-- Steps that write `mig_protect`. -/
theorem Held.setMig {s s' : St T A} (hH : Held s) {t : T} {p p' : PC A} {h : Hd} {x : Option A} (hp : s.pc t = p)
    (hh : p.hd = some h) (hpc : s'.pc = upd s.pc t p') (ho : s'.mig = upd s.mig h.i x) (hm : s'.ops = s.ops)
    (h1 : x ≠ none → p'.holdsMig = true ∧ p'.hd = some h) (h2 : p.holdsOps = false) : Held s' := by
  constructor
  · intro i hi
    rw [hm] at hi
    obtain ⟨u, h', e1, e2, e3⟩ := hH.ops i hi
    have e : u ≠ t := by
      intro e; subst e; rw [hp, h2] at e3; cases e3
    refine ⟨u, h', ?_⟩
    rw [hpc, upd_ne _ _ e]; exact ⟨e1, e2, e3⟩
  · intro i hi
    rw [ho] at hi
    by_cases ei : i = h.i
    · subst ei
      rw [upd_self] at hi
      refine ⟨t, h, ?_⟩
      rw [hpc, upd_self]
      exact ⟨(h1 hi).2, rfl, (h1 hi).1⟩
    · rw [upd_ne _ _ ei] at hi
      obtain ⟨u, h', e1, e2, e3⟩ := hH.mig i hi
      have e : u ≠ t := by
        intro e; subst e; rw [hp, hh] at e1; cases e1; exact ei e2.symm
      refine ⟨u, h', ?_⟩
      rw [hpc, upd_ne _ _ e]; exact ⟨e1, e2, e3⟩

theorem Held.step {s s' : St T A} {l : Lbl T A} (hH : Held s) (hs : Step false s l s') : Held s' := by
  cases hs with
  | gtStore hp => exact hH.setOps (x := some _) hp rfl rfl rfl rfl (fun _ => ⟨rfl, rfl⟩) rfl
  | gtClear hp => exact hH.setOps (x := none) hp rfl rfl rfl rfl (fun h => absurd rfl h) rfl
  | opEnd hp x => exact hH.setOps (x := none) hp rfl rfl rfl rfl (fun h => absurd rfl h) rfl
  | mgStore hp => exact hH.setMig (x := some _) hp rfl rfl rfl rfl (fun _ => ⟨rfl, rfl⟩) rfl
  | mgEnd hp _ _ => exact hH.setMig (x := none) hp rfl rfl rfl rfl (fun h => absurd rfl h) rfl
  | move hp hsh hp' =>
    refine Held.keep (hH.keep (s' := s.at _ .out) hp rfl rfl rfl nofun nofun) (t := _) (p := .out) ?_ rfl rfl rfl
      nofun nofun
    simp only [St.at, upd]
    split
    · rfl
    · exact hp'
  | gtNull | opStep | grOpsWait | grMigWait | mgWait | mgWork | hgWait => exact hH
  | regCas => exact ⟨hH.ops, hH.mig⟩
  | gtSame hp _ _ => exact hH.keep hp rfl rfl rfl (fun _ => ⟨rfl, rfl⟩) nofun
  | gtOther hp _ => exact hH.keep hp rfl rfl rfl (fun _ => ⟨rfl, rfl⟩) nofun
  | mgNext hp _ _ _ => exact hH.keep hp rfl rfl rfl nofun (fun _ => ⟨rfl, rfl⟩)
  | mgClaim hp _ _ _ => exact hH.keep hp rfl rfl rfl nofun (fun _ => ⟨rfl, rfl⟩)
  | mgLeave hp _ _ _ => exact hH.keep hp rfl rfl rfl nofun (fun _ => ⟨rfl, rfl⟩)
  | mgDone hp => exact hH.keep hp rfl rfl rfl nofun (fun _ => ⟨rfl, rfl⟩)
  | create hp | regUsed hp _ _ | regFree hp _ _ | regNone hp _ | reserve hp _ | reserveFail hp _ | regLoad hp
  | regCasFail hp _ | regEnd hp _ | destroy hp _ | call hp | gtMark hp _ | gtLoad hp _ | grEpoch hp
  | grNot hp _ | grCas hp _ _ | grLoad hp _ _ | grLoadMark hp _ | grMark hp _ | grMarkFail hp _
  | grMake _ hp _ _ | grOps hp | grOpsNext hp _ _ | grOpsEnd hp _ | grNext hp _ | grNull hp | grMig hp
  | grMigNext hp _ _ | grMigEnd hp _ | grPublish hp | grDelete hp | mgNone hp _ | mgLoad hp _ _ | hgEnd hp _ =>
    exact hH.keep hp rfl rfl rfl nofun nofun

theorem Reach.held {a : A} {n : Nat} {s : St T A} (h : Reach false a n s) : Held s := by
  induction h with
  | init => exact ⟨fun _ h => absurd rfl h, fun _ h => absurd rfl h⟩
  | step _ hs ih => exact ih.step hs

/-- A thread that has not set its flags: they are not set. -/
theorem Reach.free {a : A} {n : Nat} {s : St T A} (h : Reach false a n s) {t : T} {hd : Hd}
    (hh : (s.pc t).hd = some hd) :
    ((s.pc t).holdsOps = false → s.ops hd.i = none) ∧ ((s.pc t).holdsMig = false → s.mig hd.i = none) := by
  have hf := PC.flags_of_hd hh
  constructor
  · intro h1
    cases e : s.ops hd.i with
    | none => rfl
    | some x =>
      obtain ⟨u, h', e1, e2, e3⟩ := h.held.ops hd.i (by rw [e]; nofun)
      have := h.inv.flags u t hd.i (by rw [PC.flags_of_hd e1, e2]) hf
      subst this
      rw [h1] at e3; cases e3
  · intro h1
    cases e : s.mig hd.i with
    | none => rfl
    | some x =>
      obtain ⟨u, h', e1, e2, e3⟩ := h.held.mig hd.i (by rw [e]; nofun)
      have := h.inv.flags u t hd.i (by rw [PC.flags_of_hd e1, e2]) hf
      subst this
      rw [h1] at e3; cases e3

/-! ## Careful executions are sequentially consistent -/

/-- Where the thread is in the sequentially consistent execution: a store that protects a table happens when it
reaches memory; if the thread finds in the meantime that the table has changed, it happens and is taken back at
once; a store that clears a flag happens when it is put into the buffer. (proof, no code) -/
def ThrRel (buf : List (Sto A)) (p q : PC A) : Prop :=
  match p with
  | .gt3 h a => (q = .gt3 h a ∧ buf = []) ∨ (q = .gt2 h a ∧ ∃ b, buf = b ++ [.ops h.i (some a)])
  | .gt4 h => q = .gt1 h
  | .mg3 h c a v => (q = .mg3 h c a v ∧ buf = []) ∨ (q = .mg2 h c a v ∧ ∃ b, buf = b ++ [.mig h.i (some a)])
  | .op _ _ _ => q = p ∧ buf = []
  | .mg4 _ _ _ _ _ => q = p ∧ buf = []
  | .mg5 _ _ _ _ _ _ => q = p ∧ buf = []
  | .mg6 _ _ _ _ _ => q = p ∧ buf = []
  | .out => q = p ∧ buf = []
  | .reg _ => q = p ∧ buf = []
  | .regTry _ => q = p ∧ buf = []
  | .regLast _ => q = p ∧ buf = []
  | .regCas _ _ => q = p ∧ buf = []
  | .lost => q = p ∧ buf = []
  | p => q = p

/-- The state with store buffers and the sequentially consistent one. (proof, no code) -/
structure Rel (x : TSt T A) (s : St T A) : Prop where
  table : x.s.table = s.table
  epoch : x.s.epoch = s.epoch
  heap : x.s.heap = s.heap
  used : x.s.used = s.used
  last : x.s.last = s.last
  phase : x.s.phase = s.phase
  thr : ∀ t, ThrRel (x.buf t) (x.s.pc t) (s.pc t)
  own : ∀ t e, e ∈ x.buf t → ∃ h, (x.s.pc t).hd = some h ∧ e.idx = h.i
  ops : ∀ i a, s.ops i = some a → x.s.ops i = some a
  mig : ∀ i a, s.mig i = some a → x.s.mig i = some a

/-- A thread with delayed stores has not set its flags in the sequentially consistent execution. -/
theorem ThrRel.free {buf : List (Sto A)} {p q : PC A} (h : ThrRel buf p q) (hb : buf ≠ []) :
    q.holdsOps = false ∧ q.holdsMig = false ∧ q.hd = p.hd := by
  cases p
  case gt3 => rcases h with ⟨-, h⟩ | ⟨h, -⟩; exact absurd h hb; subst h; exact ⟨rfl, rfl, rfl⟩
  case mg3 => rcases h with ⟨-, h⟩ | ⟨h, -⟩; exact absurd h hb; subst h; exact ⟨rfl, rfl, rfl⟩
  all_goals first
    | exact absurd h.2 hb
    | (cases (show q = _ from h); exact ⟨rfl, rfl, rfl⟩)

/-- One thread moves. -/
theorem Rel.build {x : TSt T A} {s : St T A} (hR : Rel x s) {t : T} {p p' q' : PC A} {y z : St T A}
    (hx : x.s.pc t = p) (hy : y.pc = upd x.s.pc t p') (hz : z.pc = upd s.pc t q')
    (e1 : y.table = z.table) (e2 : y.epoch = z.epoch) (e3 : y.heap = z.heap) (e4 : y.used = z.used)
    (e5 : y.last = z.last) (e6 : y.phase = z.phase)
    (hthr : ThrRel (x.buf t ++ stores p p') p' q')
    (hown : ∀ e ∈ x.buf t ++ stores p p', ∃ h, p'.hd = some h ∧ e.idx = h.i)
    (hops : ∀ i a, z.ops i = some a → s.ops i = some a)
    (hmig : ∀ i a, z.mig i = some a → s.mig i = some a) :
    Rel ⟨{ y with ops := x.s.ops, mig := x.s.mig }, fun u => x.buf u ++ stores (x.s.pc u) (y.pc u)⟩ z := by
  refine ⟨e1, e2, e3, e4, e5, e6, ?_, ?_, fun i a h => hR.ops i a (hops i a h), fun i a h => hR.mig i a (hmig i a h)⟩
  · intro u
    show ThrRel (x.buf u ++ stores (x.s.pc u) (y.pc u)) (y.pc u) (z.pc u)
    rw [hy, hz]
    by_cases e : u = t
    · subst e; rw [upd_self, upd_self, hx]; exact hthr
    · rw [upd_ne _ _ e, upd_ne _ _ e, stores_self, List.append_nil]; exact hR.thr u
  · intro u e he
    have he : e ∈ x.buf u ++ stores (x.s.pc u) (y.pc u) := he
    show ∃ h, (y.pc u).hd = some h ∧ e.idx = h.i
    rw [hy] at he ⊢
    by_cases eu : u = t
    · subst eu; rw [upd_self, hx] at he; rw [upd_self]; exact hown e he
    · rw [upd_ne _ _ eu, stores_self, List.append_nil] at he; rw [upd_ne _ _ eu]; exact hR.own u e he

/-- A thread moves between places with the same handle; nothing is written. -/
theorem Rel.simple {x : TSt T A} {s : St T A} (hR : Rel x s) {t : T} {p p' q' : PC A} {y z : St T A}
    (hx : x.s.pc t = p) (hy : y.pc = upd x.s.pc t p') (hz : z.pc = upd s.pc t q')
    (e1 : y.table = z.table) (e2 : y.epoch = z.epoch) (e3 : y.heap = z.heap) (e4 : y.used = z.used)
    (e5 : y.last = z.last) (e6 : y.phase = z.phase) (eo : z.ops = s.ops) (em : z.mig = s.mig)
    (hst : stores p p' = []) (hthr : ThrRel (x.buf t) p' q') (hown : p'.hd = p.hd ∨ x.buf t = []) :
    Rel ⟨{ y with ops := x.s.ops, mig := x.s.mig }, fun u => x.buf u ++ stores (x.s.pc u) (y.pc u)⟩ z := by
  refine hR.build hx hy hz e1 e2 e3 e4 e5 e6 (by rw [hst, List.append_nil]; exact hthr) ?_
    (fun i a h => by rw [eo] at h; exact h) (fun i a h => by rw [em] at h; exact h)
  intro e he
  rw [hst, List.append_nil] at he
  rcases hown with h | h
  · rw [h, ← hx]; exact hR.own t e he
  · rw [h] at he; cases he

/-- Nothing changes. -/
theorem Rel.same {x : TSt T A} {s : St T A} (hR : Rel x s) :
    Rel ⟨{ x.s with ops := x.s.ops, mig := x.s.mig }, fun u => x.buf u ++ stores (x.s.pc u) (x.s.pc u)⟩ s := by
  have e : (fun u => x.buf u ++ stores (x.s.pc u) (x.s.pc u)) = x.buf := by
    funext u; rw [stores_self, List.append_nil]
  rw [e]; exact hR

/-- A delayed store reaches memory. -/
theorem Rel.commit {a : A} {n : Nat} {x : TSt T A} {s : St T A} (hR : Rel x s) (hs : Reach false a n s) {t : T}
    {e : Sto A} {b : List (Sto A)} (hb : x.buf t = e :: b) :
    ∃ z, Reach false a n z ∧ Rel ⟨e.apply x.s, upd x.buf t b⟩ z := by
  obtain ⟨h, hh, hi⟩ := hR.own t e (by rw [hb]; exact List.mem_cons_self ..)
  have ht := hR.thr t
  have hne : x.buf t ≠ [] := by rw [hb]; nofun
  obtain ⟨f1, f2, f3⟩ := ht.free hne
  have hfr := hs.free (f3.trans hh)
  have hf1 := hfr.1 f1
  have hf2 := hfr.2 f2
  have hpc : (e.apply x.s).pc = x.s.pc := by cases e <;> rfl
  -- unless the store is the one that protects, nothing happens in the sequentially consistent execution
  have hstale : ThrRel b (x.s.pc t) (s.pc t) → Rel ⟨e.apply x.s, upd x.buf t b⟩ s := by
    intro hth
    refine ⟨?_, ?_, ?_, ?_, ?_, ?_, ?_, ?_, ?_, ?_⟩
    · rw [← hR.table]; cases e <;> rfl
    · rw [← hR.epoch]; cases e <;> rfl
    · rw [← hR.heap]; cases e <;> rfl
    · rw [← hR.used]; cases e <;> rfl
    · rw [← hR.last]; cases e <;> rfl
    · rw [← hR.phase]; cases e <;> rfl
    · intro u
      show ThrRel (upd x.buf t b u) ((e.apply x.s).pc u) (s.pc u)
      rw [hpc]
      by_cases eu : u = t
      · subst eu; rw [upd_self]; exact hth
      · rw [upd_ne _ _ eu]; exact hR.thr u
    · intro u e' he'
      show ∃ h, ((e.apply x.s).pc u).hd = some h ∧ e'.idx = h.i
      rw [hpc]
      have he' : e' ∈ upd x.buf t b u := he'
      by_cases eu : u = t
      · subst eu; rw [upd_self] at he'; exact hR.own u e' (by rw [hb]; exact List.mem_cons_of_mem _ he')
      · rw [upd_ne _ _ eu] at he'; exact hR.own u e' he'
    · intro i y hy
      show (e.apply x.s).ops i = some y
      cases e with
      | ops j w =>
        show upd x.s.ops j w i = some y
        have : i ≠ j := by
          intro e; subst e; simp only [Sto.idx] at hi; rw [hi, hf1] at hy; cases hy
        rw [upd_ne _ _ this]; exact hR.ops i y hy
      | mig j w => exact hR.ops i y hy
    · intro i y hy
      show (e.apply x.s).mig i = some y
      cases e with
      | mig j w =>
        show upd x.s.mig j w i = some y
        have : i ≠ j := by
          intro e; subst e; simp only [Sto.idx] at hi; rw [hi, hf2] at hy; cases hy
        rw [upd_ne _ _ this]; exact hR.mig i y hy
      | ops j w => exact hR.mig i y hy
  by_cases hst : ThrRel b (x.s.pc t) (s.pc t)
  · exact ⟨s, hs, hstale hst⟩
  · -- the store that protects
    rw [hb] at ht
    cases hp : x.s.pc t <;> rw [hp] at ht hst
    case gt3 h' c =>
      rcases ht with ⟨-, h1⟩ | ⟨hq, b', hb'⟩
      · cases h1
      · cases b' with
        | cons e' b'' =>
          simp only [List.cons_append, List.cons.injEq] at hb'
          exact absurd (.inr ⟨hq, b'', hb'.2⟩) hst
        | nil =>
          simp only [List.nil_append, List.cons.injEq] at hb'
          obtain ⟨rfl, rfl⟩ := hb'
          refine ⟨_, hs.step (Step.gtStore hq), ?_⟩
          refine ⟨hR.table, hR.epoch, hR.heap, hR.used, hR.last, hR.phase, ?_, ?_, ?_, hR.mig⟩
          · intro u
            show ThrRel (upd x.buf t [] u) (x.s.pc u) (upd s.pc t (.gt3 h' c) u)
            by_cases eu : u = t
            · subst eu; rw [upd_self, upd_self, hp]; exact .inl ⟨rfl, rfl⟩
            · rw [upd_ne _ _ eu, upd_ne _ _ eu]; exact hR.thr u
          · intro u e' he'
            have he' : e' ∈ upd x.buf t [] u := he'
            by_cases eu : u = t
            · subst eu; rw [upd_self] at he'; cases he'
            · rw [upd_ne _ _ eu] at he'; exact hR.own u e' he'
          · intro i y hy
            have hy : upd s.ops h'.i (some c) i = some y := hy
            show upd x.s.ops h'.i (some c) i = some y
            by_cases ei : i = h'.i
            · subst ei; rw [upd_self] at hy ⊢; exact hy
            · rw [upd_ne _ _ ei] at hy ⊢; exact hR.ops i y hy
    case mg3 h' c a' v =>
      rcases ht with ⟨-, h1⟩ | ⟨hq, b', hb'⟩
      · cases h1
      · cases b' with
        | cons e' b'' =>
          simp only [List.cons_append, List.cons.injEq] at hb'
          exact absurd (.inr ⟨hq, b'', hb'.2⟩) hst
        | nil =>
          simp only [List.nil_append, List.cons.injEq] at hb'
          obtain ⟨rfl, rfl⟩ := hb'
          refine ⟨_, hs.step (Step.mgStore hq), ?_⟩
          refine ⟨hR.table, hR.epoch, hR.heap, hR.used, hR.last, hR.phase, ?_, ?_, hR.ops, ?_⟩
          · intro u
            show ThrRel (upd x.buf t [] u) (x.s.pc u) (upd s.pc t (.mg3 h' c a' v) u)
            by_cases eu : u = t
            · subst eu; rw [upd_self, upd_self, hp]; exact .inl ⟨rfl, rfl⟩
            · rw [upd_ne _ _ eu, upd_ne _ _ eu]; exact hR.thr u
          · intro u e' he'
            have he' : e' ∈ upd x.buf t [] u := he'
            by_cases eu : u = t
            · subst eu; rw [upd_self] at he'; cases he'
            · rw [upd_ne _ _ eu] at he'; exact hR.own u e' he'
          · intro i y hy
            have hy : upd s.mig h'.i (some a') i = some y := hy
            show upd x.s.mig h'.i (some a') i = some y
            by_cases ei : i = h'.i
            · subst ei; rw [upd_self] at hy ⊢; exact hy
            · rw [upd_ne _ _ ei] at hy ⊢; exact hR.mig i y hy
    all_goals first
      | exact absurd ht hst
      | cases ht.2

theorem drained {x : TSt T A} {s' : St T A} {careful : Bool} {t : T} {p p' : PC A}
    (hd : ∀ u, (drains (x.s.pc u) (s'.pc u) || (careful && checks (x.s.pc u) (s'.pc u))) = true → x.buf u = [])
    (hp : x.s.pc t = p) (hp' : s'.pc t = p') (h : (drains p p' || (careful && checks p p')) = true) : x.buf t = [] := by
  have := hd t
  rw [hp, hp'] at this
  exact this h

theorem upd_same {X Y : Type} [DecidableEq X] {f : X → Y} {x : X} {y : Y} (h : f x = y) : upd f x y = f := by
  funext z; unfold upd; split
  · rename_i e; rw [e]; exact h.symm
  · rfl

theorem Rel.at' {x : TSt T A} {s : St T A} (hR : Rel x s) {t : T} {p : PC A} (hp : x.s.pc t = p) :
    ThrRel (x.buf t) p (s.pc t) := by
  rw [← hp]; exact hR.thr t

/-- A step of a thread. -/
theorem Rel.run {a : A} {n : Nat} {x : TSt T A} {s : St T A} (hR : Rel x s) (h : Reach false a n s) {l : Lbl T A}
    {s' : St T A} (hs : Step false x.s l s')
    (hd : ∀ u, (drains (x.s.pc u) (s'.pc u) || (true && checks (x.s.pc u) (s'.pc u))) = true → x.buf u = []) :
    ∃ z, Reach false a n z ∧ Rel ⟨{ s' with ops := x.s.ops, mig := x.s.mig },
      fun u => x.buf u ++ stores (x.s.pc u) (s'.pc u)⟩ z := by
  obtain ⟨⟨table, epoch, heap, used, ops, mig, last, pc, phase⟩, buf⟩ := x
  obtain ⟨stable, sepoch, sheap, sused, sops, smig, slast, spc, sphase⟩ := s
  obtain ⟨rfl, rfl, rfl, rfl, rfl, rfl⟩ : table = stable ∧ epoch = sepoch ∧ heap = sheap ∧ used = sused ∧
    last = slast ∧ phase = sphase := ⟨hR.table, hR.epoch, hR.heap, hR.used, hR.last, hR.phase⟩
  cases hs with
  | create hp =>
    have hq := hR.at' hp
    exact ⟨_, h.step (Step.create hq.1), hR.simple hp rfl rfl rfl rfl rfl rfl rfl rfl rfl rfl rfl ⟨rfl, hq.2⟩ (.inr hq.2)⟩
  | regUsed hp hi hu =>
    have hq := hR.at' hp
    exact ⟨_, h.step (Step.regUsed hq.1 hi hu), hR.simple hp rfl rfl rfl rfl rfl rfl rfl rfl rfl rfl rfl ⟨rfl, hq.2⟩ (.inr hq.2)⟩
  | regFree hp hi hu =>
    have hq := hR.at' hp
    exact ⟨_, h.step (Step.regFree hq.1 hi hu), hR.simple hp rfl rfl rfl rfl rfl rfl rfl rfl rfl rfl rfl ⟨rfl, hq.2⟩ (.inr hq.2)⟩
  | regNone hp hi =>
    have hq := hR.at' hp
    exact ⟨_, h.step (Step.regNone hq.1 hi), hR.simple hp rfl rfl rfl rfl rfl rfl rfl rfl rfl rfl rfl ⟨rfl, hq.2⟩ (.inr hq.2)⟩
  | reserve hp hu =>
    have hq := hR.at' hp
    exact ⟨_, h.step (Step.reserve hq.1 hu), hR.simple hp rfl rfl rfl rfl rfl rfl rfl rfl rfl rfl rfl ⟨rfl, hq.2⟩ (.inr hq.2)⟩
  | reserveFail hp hu =>
    have hq := hR.at' hp
    exact ⟨_, h.step (Step.reserveFail hq.1 hu), hR.simple hp rfl rfl rfl rfl rfl rfl rfl rfl rfl rfl rfl ⟨rfl, hq.2⟩ (.inr hq.2)⟩
  | regLoad hp =>
    have hq := hR.at' hp
    exact ⟨_, h.step (Step.regLoad hq.1), hR.simple hp rfl rfl rfl rfl rfl rfl rfl rfl rfl rfl rfl ⟨rfl, hq.2⟩ (.inr hq.2)⟩
  | regCas hp hn hl =>
    have hq := hR.at' hp
    refine ⟨_, h.step (Step.regCas hq.1 hn hl), ?_⟩
    have := hR.same
    exact ⟨rfl, rfl, rfl, rfl, rfl, rfl, this.thr, this.own, this.ops, this.mig⟩
  | regCasFail hp hn =>
    have hq := hR.at' hp
    exact ⟨_, h.step (Step.regCasFail hq.1 hn), hR.simple hp rfl rfl rfl rfl rfl rfl rfl rfl rfl rfl rfl ⟨rfl, hq.2⟩ (.inr hq.2)⟩
  | regEnd hp hn =>
    have hq := hR.at' hp
    exact ⟨_, h.step (Step.regEnd hq.1 hn), hR.simple hp rfl rfl rfl rfl rfl rfl rfl rfl rfl rfl rfl rfl (.inr hq.2)⟩
  | destroy hp hsh =>
    have hq := hR.at' hp
    have hb := drained hd hp (upd_self ..) rfl
    exact ⟨_, h.step (Step.destroy hq hsh), hR.simple hp rfl rfl rfl rfl rfl rfl rfl rfl rfl rfl rfl ⟨rfl, hb⟩ (.inr hb)⟩
  | @move t t' hd' hp hsh hp' =>
    have hq := hR.at' hp
    have hq' := hR.at' hp'
    have hne : t' ≠ t := by intro e; subst e; rw [hp] at hp'; cases hp'
    have hb := drained hd hp (by show upd (upd pc t .out) t' (.idle hd') t = _; rw [upd_ne _ _ (Ne.symm hne), upd_self]) rfl
    refine ⟨_, h.step (Step.move hq hsh hq'.1), ?_⟩
    have h1 := hR.simple (y := St.at ⟨table, epoch, heap, used, ops, mig, last, pc, phase⟩ t .out)
      (z := St.at ⟨table, epoch, heap, used, sops, smig, last, spc, phase⟩ t .out) hp rfl rfl rfl rfl rfl rfl rfl rfl
      rfl rfl rfl ⟨rfl, hb⟩ (.inr hb)
    have h2 := h1.simple (t := t') (p := .out) (p' := .idle hd') (q' := .idle hd')
      (y := St.at (St.at ⟨table, epoch, heap, used, ops, mig, last, pc, phase⟩ t .out) t' (.idle hd'))
      (z := St.at (St.at ⟨table, epoch, heap, used, sops, smig, last, spc, phase⟩ t .out) t' (.idle hd'))
      (by show upd pc t .out t' = _; rw [upd_ne _ _ hne]; exact hp') rfl rfl rfl rfl rfl rfl rfl rfl
      rfl rfl rfl rfl (.inr (by
        show buf t' ++ stores (pc t') (upd pc t .out t') = []
        rw [upd_ne _ _ hne, stores_self, List.append_nil]; exact hq'.2))
    have e : (fun u => (buf u ++ stores (pc u) (upd pc t .out u)) ++
        stores (upd pc t .out u) (upd (upd pc t .out) t' (.idle hd') u)) =
        fun u => buf u ++ stores (pc u) (upd (upd pc t .out) t' (.idle hd') u) := by
      funext u
      by_cases e1 : u = t
      · subst e1; rw [upd_self, show pc u = _ from hp, upd_ne _ _ (Ne.symm hne), upd_self]; simp [stores]
      · by_cases e2 : u = t'
        · subst e2; rw [upd_self, upd_ne _ _ e1, show pc u = _ from hp']; simp [stores]
        · rw [upd_ne _ _ e2, upd_ne _ _ e1, stores_self]; simp
    have h2 : Rel ⟨_, fun u => (buf u ++ stores (pc u) (upd pc t .out u)) ++
        stores (upd pc t .out u) (upd (upd pc t .out) t' (.idle hd') u)⟩ _ := h2
    rw [e] at h2
    exact h2
  | call hp =>
    have hq := hR.at' hp
    exact ⟨_, h.step (Step.call hq), hR.simple hp rfl rfl rfl rfl rfl rfl rfl rfl rfl rfl rfl rfl (.inl rfl)⟩
  | gtNull hp ht => exact ⟨_, h, hR.same⟩
  | gtMark hp ht =>
    have hq := hR.at' hp
    exact ⟨_, h.step (Step.gtMark hq ht), hR.simple hp rfl rfl rfl rfl rfl rfl rfl rfl rfl rfl rfl rfl (.inl rfl)⟩
  | gtLoad hp ht =>
    have hq := hR.at' hp
    exact ⟨_, h.step (Step.gtLoad hq ht), hR.simple hp rfl rfl rfl rfl rfl rfl rfl rfl rfl rfl rfl rfl (.inl rfl)⟩
  | @gtStore t h' a' hp =>
    have hq := hR.at' hp
    refine ⟨_, h, hR.build (z := ⟨table, epoch, heap, used, sops, smig, last, spc, phase⟩) (q' := .gt2 h' a') hp rfl (upd_same hq).symm rfl rfl rfl rfl rfl rfl
      (.inr ⟨rfl, _, rfl⟩) ?_ (fun _ _ h => h) (fun _ _ h => h)⟩
    intro e he
    rcases List.mem_append.1 he with he | he
    · have := hR.own t e he
      rw [hp] at this
      exact this
    · cases List.mem_singleton.1 he; exact ⟨h', rfl, rfl⟩
  | gtSame hp ht ho =>
    have hq := hR.at' hp
    have hb := drained hd hp (upd_self ..) rfl
    rcases hq with ⟨hq, -⟩ | ⟨-, b, hb'⟩
    · exact ⟨_, h.step (Step.gtSame hq ht ho), hR.simple hp rfl rfl rfl rfl rfl rfl rfl rfl rfl rfl rfl ⟨rfl, hb⟩ (.inl rfl)⟩
    · rw [hb] at hb'; cases b <;> cases hb'
  | @gtOther t h' a' hp ht =>
    have hq := hR.at' hp
    have key : ∀ z : St T A, Reach false a n z → z.pc = upd spc t (.gt3 h' a') → z.table = table → z.epoch = epoch →
        z.heap = heap → z.used = used → z.last = last → z.phase = phase → (∀ i, i ≠ h'.i → z.ops i = sops i) →
        z.mig = smig → ∃ w, Reach false a n w ∧ Rel ⟨⟨table, epoch, heap, used, ops, mig, last, upd pc t (.gt4 h'), phase⟩,
          fun u => buf u ++ stores (pc u) (upd pc t (.gt4 h') u)⟩ w := by
      intro z hz e0 e1 e2 e3 e4 e5 e6 e7 e8
      have h1 := hz.step (Step.gtOther (t := t) (h := h') (a := a') (by rw [e0, upd_self]) (by rw [e1]; exact ht))
      have h2 := h1.step (Step.gtClear (t := t) (h := h') (upd_self ..))
      refine ⟨_, h2, hR.build (y := St.at ⟨table, epoch, heap, used, ops, mig, last, pc, phase⟩ t (.gt4 h'))
        (p' := .gt4 h') (q' := .gt1 h') hp rfl ?_ e1.symm e2.symm e3.symm e4.symm e5.symm e6.symm rfl ?_ ?_ ?_⟩
      · show upd (upd z.pc t _) t _ = _
        rw [e0]; funext u; simp only [upd]; split <;> rfl
      · intro e he
        have : stores (.gt3 h' a') (.gt4 h' : PC A) = [] := rfl
        rw [this, List.append_nil] at he
        have := hR.own t e he
        rw [hp] at this
        exact this
      · intro i x hx
        have hx : upd z.ops h'.i none i = some x := hx
        by_cases ei : i = h'.i
        · subst ei; rw [upd_self] at hx; cases hx
        · rw [upd_ne _ _ ei, e7 i ei] at hx; exact hx
      · intro i x hx
        have hx : z.mig i = some x := hx
        rw [e8] at hx; exact hx
    rcases hq with ⟨hq, -⟩ | ⟨hq, -⟩
    · exact key _ h (upd_same hq).symm rfl rfl rfl rfl rfl rfl (fun _ _ => rfl) rfl
    · exact key _ (h.step (Step.gtStore hq)) rfl rfl rfl rfl rfl rfl rfl (fun i hi => upd_ne _ _ hi) rfl
  | @gtClear t h' hp =>
    have hq := hR.at' hp
    refine ⟨_, h, hR.build (z := ⟨table, epoch, heap, used, sops, smig, last, spc, phase⟩) (q' := .gt1 h') hp rfl (upd_same hq).symm rfl rfl rfl rfl rfl rfl
      rfl ?_ (fun _ _ h => h) (fun _ _ h => h)⟩
    intro e he
    rcases List.mem_append.1 he with he | he
    · have := hR.own t e he
      rw [hp] at this
      exact this
    · cases List.mem_singleton.1 he; exact ⟨h', rfl, rfl⟩
  | opStep hp ho hv =>
    have hq := hR.at' hp
    exact ⟨_, h.step (Step.opStep hq.1 ho hv), hR.same⟩
  | @opEnd t h' a' v hp x =>
    have hq := hR.at' hp
    have hsh : h'.shell = false := ((h.inv.loc t).base h' (by rw [hq.1]; rfl)).shell
    obtain ⟨i, sh⟩ := h'
    simp only at hsh
    subst hsh
    have hst : ∀ p' : PC A, p' = Exit.next ⟨i, false⟩ v x → stores (.op ⟨i, false⟩ a' v) p' = [.ops i none] ∧
        p'.hd = some ⟨i, false⟩ ∧ ∀ b, ThrRel b p' p' := by
      intro p' e; subst e; cases x <;> exact ⟨rfl, rfl, fun _ => rfl⟩
    obtain ⟨k1, k2, k3⟩ := hst _ rfl
    refine ⟨_, h.step (Step.opEnd hq.1 x), hR.build hp rfl rfl rfl rfl rfl rfl rfl rfl (k3 _) ?_ ?_ (fun _ _ h => h)⟩
    · intro e he
      rw [k1, hq.2] at he
      cases List.mem_singleton.1 he; exact ⟨_, k2, rfl⟩
    · intro j y hy
      have hy : upd sops i none j = some y := hy
      by_cases ei : j = i
      · subst ei; rw [upd_self] at hy; cases hy
      · rw [upd_ne _ _ ei] at hy; exact hy
  | grEpoch hp =>
    have hq := hR.at' hp
    exact ⟨_, h.step (Step.grEpoch hq), hR.simple hp rfl rfl rfl rfl rfl rfl rfl rfl rfl rfl rfl rfl (.inl rfl)⟩
  | grNot hp he =>
    have hq := hR.at' hp
    exact ⟨_, h.step (Step.grNot hq he), hR.simple hp rfl rfl rfl rfl rfl rfl rfl rfl rfl rfl rfl rfl (.inl rfl)⟩
  | grCas hp hv he =>
    have hq := hR.at' hp
    exact ⟨_, h.step (Step.grCas hq hv he), hR.simple hp rfl rfl rfl rfl rfl rfl rfl rfl rfl rfl rfl rfl (.inl rfl)⟩
  | grLoad hp ht ho =>
    have hq := hR.at' hp
    exact ⟨_, h.step (Step.grLoad hq ht ho), hR.simple hp rfl rfl rfl rfl rfl rfl rfl rfl rfl rfl rfl rfl (.inl rfl)⟩
  | grLoadMark hp ht =>
    have hq := hR.at' hp
    exact ⟨_, h.step (Step.grLoadMark hq ht), hR.simple hp rfl rfl rfl rfl rfl rfl rfl rfl rfl rfl rfl rfl (.inl rfl)⟩
  | grMark hp ht =>
    have hq := hR.at' hp
    exact ⟨_, h.step (Step.grMark hq ht), hR.simple hp rfl rfl rfl rfl rfl rfl rfl rfl rfl rfl rfl rfl (.inl rfl)⟩
  | grMarkFail hp ht =>
    have hq := hR.at' hp
    exact ⟨_, h.step (Step.grMarkFail hq ht), hR.simple hp rfl rfl rfl rfl rfl rfl rfl rfl rfl rfl rfl rfl (.inl rfl)⟩
  | grMake k hp ho hb =>
    have hq := hR.at' hp
    exact ⟨_, h.step (Step.grMake k hq ho hb), hR.simple hp rfl rfl rfl rfl rfl rfl rfl rfl rfl rfl rfl rfl (.inl rfl)⟩
  | grOps hp =>
    have hq := hR.at' hp
    exact ⟨_, h.step (Step.grOps hq), hR.simple hp rfl rfl rfl rfl rfl rfl rfl rfl rfl rfl rfl rfl (.inl rfl)⟩
  | @grOpsNext t h' a' b' v m j hp hj ho =>
    have hq := hR.at' hp
    exact ⟨_, h.step (Step.grOpsNext hq hj (fun e => ho (hR.ops j a' e))), hR.simple hp rfl rfl rfl rfl rfl rfl rfl rfl rfl rfl rfl rfl (.inl rfl)⟩
  | grOpsWait hp hj ho => exact ⟨_, h, hR.same⟩
  | grOpsEnd hp hj =>
    have hq := hR.at' hp
    exact ⟨_, h.step (Step.grOpsEnd hq hj), hR.simple hp rfl rfl rfl rfl rfl rfl rfl rfl rfl rfl rfl rfl (.inl rfl)⟩
  | grNext hp ho =>
    have hq := hR.at' hp
    exact ⟨_, h.step (Step.grNext hq ho), hR.simple hp rfl rfl rfl rfl rfl rfl rfl rfl rfl rfl rfl rfl (.inl rfl)⟩
  | grNull hp =>
    have hq := hR.at' hp
    exact ⟨_, h.step (Step.grNull hq), hR.simple hp rfl rfl rfl rfl rfl rfl rfl rfl rfl rfl rfl rfl (.inl rfl)⟩
  | grMig hp =>
    have hq := hR.at' hp
    exact ⟨_, h.step (Step.grMig hq), hR.simple hp rfl rfl rfl rfl rfl rfl rfl rfl rfl rfl rfl rfl (.inl rfl)⟩
  | @grMigNext t h' a' b' v m j hp hj ho =>
    have hq := hR.at' hp
    have ho' : smig j = none := by
      cases e : smig j with
      | none => rfl
      | some y => have := hR.mig j y e; rw [ho] at this; cases this
    exact ⟨_, h.step (Step.grMigNext hq hj ho'), hR.simple hp rfl rfl rfl rfl rfl rfl rfl rfl rfl rfl rfl rfl (.inl rfl)⟩
  | grMigWait hp hj ho => exact ⟨_, h, hR.same⟩
  | grMigEnd hp hj =>
    have hq := hR.at' hp
    exact ⟨_, h.step (Step.grMigEnd hq hj), hR.simple hp rfl rfl rfl rfl rfl rfl rfl rfl rfl rfl rfl rfl (.inl rfl)⟩
  | grPublish hp =>
    have hq := hR.at' hp
    exact ⟨_, h.step (Step.grPublish hq), hR.simple hp rfl rfl rfl rfl rfl rfl rfl rfl rfl rfl rfl rfl (.inl rfl)⟩
  | grDelete hp =>
    have hq := hR.at' hp
    exact ⟨_, h.step (Step.grDelete hq), hR.simple hp rfl rfl rfl rfl rfl rfl rfl rfl rfl rfl rfl rfl (.inl rfl)⟩
  | @mgNone t h' c hp ht =>
    have hq := hR.at' hp
    refine ⟨_, h.step (Step.mgNone hq ht), hR.simple hp rfl rfl rfl rfl rfl rfl rfl rfl rfl rfl ?_ ?_ (.inl ?_)⟩ <;>
      cases c <;> rfl
  | mgLoad hp ht ho =>
    have hq := hR.at' hp
    exact ⟨_, h.step (Step.mgLoad hq ht ho), hR.simple hp rfl rfl rfl rfl rfl rfl rfl rfl rfl rfl rfl rfl (.inl rfl)⟩
  | @mgStore t h' c a' v hp =>
    have hq := hR.at' hp
    refine ⟨_, h, hR.build (z := ⟨table, epoch, heap, used, sops, smig, last, spc, phase⟩) (q' := .mg2 h' c a' v) hp rfl (upd_same hq).symm rfl rfl rfl rfl rfl rfl
      (.inr ⟨rfl, _, rfl⟩) ?_ (fun _ _ h => h) (fun _ _ h => h)⟩
    intro e he
    rcases List.mem_append.1 he with he | he
    · have := hR.own t e he
      rw [hp] at this
      exact this
    · cases List.mem_singleton.1 he; exact ⟨h', rfl, rfl⟩
  | mgWait hp ho hv hn => exact ⟨_, h, hR.same⟩
  | mgNext hp ho hv hn =>
    have hq := hR.at' hp
    have hb := drained hd hp (upd_self ..) rfl
    rcases hq with ⟨hq, -⟩ | ⟨-, b, hb'⟩
    · exact ⟨_, h.step (Step.mgNext hq ho hv hn), hR.simple hp rfl rfl rfl rfl rfl rfl rfl rfl rfl rfl rfl ⟨rfl, hb⟩ (.inl rfl)⟩
    · rw [hb] at hb'; cases b <;> cases hb'
  | mgClaim hp ho hv hc =>
    have hq := hR.at' hp
    exact ⟨_, h.step (Step.mgClaim hq.1 ho hv hc), hR.simple hp rfl rfl rfl rfl rfl rfl rfl rfl rfl rfl rfl ⟨rfl, hq.2⟩ (.inl rfl)⟩
  | mgLeave hp ho hv hc =>
    have hq := hR.at' hp
    exact ⟨_, h.step (Step.mgLeave hq.1 ho hv hc), hR.simple hp rfl rfl rfl rfl rfl rfl rfl rfl rfl rfl rfl ⟨rfl, hq.2⟩ (.inl rfl)⟩
  | mgWork hp ho hv ho' hv' =>
    have hq := hR.at' hp
    exact ⟨_, h.step (Step.mgWork hq.1 ho hv ho' hv'), hR.same⟩
  | mgDone hp =>
    have hq := hR.at' hp
    exact ⟨_, h.step (Step.mgDone hq.1), hR.simple hp rfl rfl rfl rfl rfl rfl rfl rfl rfl rfl rfl ⟨rfl, hq.2⟩ (.inl rfl)⟩
  | @mgEnd t h' c a' b' v o' hp ho' hv' =>
    have hq := hR.at' hp
    have hst : stores (.mg6 h' c a' v b') (c.next h') = [.mig h'.i none] ∧ (c.next h').hd = some h' ∧
        ∀ b, ThrRel b (c.next h') (c.next h') := by
      cases c <;> exact ⟨rfl, rfl, fun _ => rfl⟩
    obtain ⟨k1, k2, k3⟩ := hst
    refine ⟨_, h.step (Step.mgEnd hq.1 ho' hv'), hR.build hp rfl rfl rfl rfl rfl rfl rfl rfl (k3 _) ?_ (fun _ _ h => h) ?_⟩
    · intro e he
      rw [k1, hq.2] at he
      cases List.mem_singleton.1 he; exact ⟨_, k2, rfl⟩
    · intro j y hy
      have hy : upd smig h'.i none j = some y := hy
      by_cases ei : j = h'.i
      · subst ei; rw [upd_self] at hy; cases hy
      · rw [upd_ne _ _ ei] at hy; exact hy
  | hgWait hp ht => exact ⟨_, h, hR.same⟩
  | hgEnd hp ht =>
    have hq := hR.at' hp
    exact ⟨_, h.step (Step.hgEnd hq ht), hR.simple hp rfl rfl rfl rfl rfl rfl rfl rfl rfl rfl rfl rfl (.inl rfl)⟩

/-- Every careful execution with store buffers is explained by a sequentially consistent one. -/
theorem TReach.rel {a : A} {n : Nat} {x : TSt T A} (h : TReach true a n x) : ∃ s, Reach false a n s ∧ Rel x s := by
  induction h with
  | init => exact ⟨_, .init, rfl, rfl, rfl, rfl, rfl, rfl, fun _ => ⟨rfl, rfl⟩, nofun, nofun, nofun⟩
  | step _ hs ih =>
    obtain ⟨s, h, hR⟩ := ih
    cases hs with
    | run hs hd => exact hR.run h hs hd
    | commit hb => exact hR.commit h hb

/-! ## Sequentially consistent executions are executions with store buffers -/

theorem TReach.neutral {c : Bool} {a : A} {n : Nat} {s s' : St T A} {l : Lbl T A} (h : TReach c a n ⟨s, fun _ => []⟩)
    (hs : Step false s l s') (h0 : ∀ u, stores (s.pc u) (s'.pc u) = []) (ho : s'.ops = s.ops) (hm : s'.mig = s.mig) :
    TReach c a n ⟨s', fun _ => []⟩ := by
  have := h.step (TStep.run hs (fun _ _ => rfl))
  have e : (fun u => ([] : List (Sto A)) ++ stores (s.pc u) (s'.pc u)) = fun _ => [] := by
    funext u; rw [h0]; rfl
  have e' : ({ s' with ops := s.ops, mig := s.mig } : St T A) = s' := by
    cases s'; simp only at ho hm; rw [ho, hm]
  have : TReach c a n ⟨{ s' with ops := s.ops, mig := s.mig }, fun u => [] ++ stores (s.pc u) (s'.pc u)⟩ := this
  rw [e, e'] at this
  exact this

theorem TReach.move1 {c : Bool} {a : A} {n : Nat} {s s' : St T A} {l : Lbl T A} (h : TReach c a n ⟨s, fun _ => []⟩)
    (hs : Step false s l s') {t : T} {p p' : PC A} (hp : s.pc t = p) (hpc : s'.pc = upd s.pc t p')
    (h0 : stores p p' = []) (ho : s'.ops = s.ops) (hm : s'.mig = s.mig) : TReach c a n ⟨s', fun _ => []⟩ := by
  refine h.neutral hs (fun u => ?_) ho hm
  rw [hpc]
  by_cases e : u = t
  · subst e; rw [upd_self, hp]; exact h0
  · rw [upd_ne _ _ e]; exact stores_self _

theorem TReach.store1 {c : Bool} {a : A} {n : Nat} {s s' : St T A} {l : Lbl T A} (h : TReach c a n ⟨s, fun _ => []⟩)
    (hs : Step false s l s') {t : T} {p p' : PC A} {e : Sto A} (hp : s.pc t = p) (hpc : s'.pc = upd s.pc t p')
    (h0 : stores p p' = [e]) (he : e.apply { s' with ops := s.ops, mig := s.mig } = s') :
    TReach c a n ⟨s', fun _ => []⟩ := by
  have h1 := h.step (TStep.run hs (fun _ _ => rfl))
  have eb : (fun u => ([] : List (Sto A)) ++ stores (s.pc u) (s'.pc u)) = upd (fun _ => []) t [e] := by
    funext u
    rw [hpc]
    by_cases eu : u = t
    · subst eu; rw [upd_self, upd_self, hp, h0]; rfl
    · rw [upd_ne _ _ eu, upd_ne _ _ eu, stores_self]; rfl
  have h1 : TReach c a n ⟨{ s' with ops := s.ops, mig := s.mig }, fun u => [] ++ stores (s.pc u) (s'.pc u)⟩ := h1
  rw [eb] at h1
  have h2 := h1.step (TStep.commit (t := t) (e := e) (b := []) (upd_self (fun _ => []) t [e]))
  have h2 : TReach c a n ⟨e.apply { s' with ops := s.ops, mig := s.mig }, upd (upd (fun _ => []) t [e]) t []⟩ := h2
  rw [he] at h2
  have : upd (upd (fun _ => []) t [e]) t [] = (fun _ : T => ([] : List (Sto A))) := by
    funext u; simp only [upd]; split <;> rfl
  rw [this] at h2
  exact h2

/-- If every store reaches memory at once, the execution is sequentially consistent. -/
theorem Reach.tso {c : Bool} {a : A} {n : Nat} {s : St T A} (h : Reach false a n s) : TReach c a n ⟨s, fun _ => []⟩ := by
  induction h with
  | init => exact .init
  | step hr hs ih =>
    have hs' := hs
    cases hs with
    | gtStore hp | gtClear hp => exact ih.store1 hs' hp rfl rfl rfl
    | mgStore hp => exact ih.store1 hs' hp rfl rfl rfl
    | @opEnd t h' a' v hp x =>
      have hsh : h'.shell = false := ((hr.inv.loc t).base h' (by rw [hp]; rfl)).shell
      obtain ⟨i, sh⟩ := h'
      simp only at hsh
      subst hsh
      exact ih.store1 (e := .ops i none) hs' hp rfl (by cases x <;> rfl) rfl
    | @mgEnd t h' k a' b' v o' hp _ _ =>
      exact ih.store1 (e := .mig h'.i none) hs' hp rfl (by cases k <;> rfl) rfl
    | @mgNone t h' k hp _ => exact ih.move1 hs' hp rfl (by cases k <;> rfl) rfl rfl
    | @move t t' hd hp _ hp' =>
      refine ih.neutral hs' (fun u => ?_) rfl rfl
      show stores (_) (upd (upd _ t .out) t' (.idle hd) u) = []
      by_cases e1 : u = t'
      · subst e1; rw [upd_self, hp']; rfl
      · rw [upd_ne _ _ e1]
        by_cases e2 : u = t
        · subst e2; rw [upd_self, hp]; rfl
        · rw [upd_ne _ _ e2]; exact stores_self _
    | gtNull | opStep | grOpsWait | grMigWait | mgWait | mgWork | hgWait => exact ih
    | regCas => exact ih.neutral hs' (fun u => stores_self _) rfl rfl
    | create hp | regUsed hp _ _ | regFree hp _ _ | regNone hp _ | reserve hp _ | reserveFail hp _ | regLoad hp
    | regCasFail hp _ | regEnd hp _ | destroy hp _ | call hp | gtMark hp _ | gtLoad hp _ | gtSame hp _ _
    | gtOther hp _ | grEpoch hp
    | grNot hp _ | grCas hp _ _ | grLoad hp _ _ | grLoadMark hp _ | grMark hp _ | grMarkFail hp _
    | grMake _ hp _ _ | grOps hp | grOpsNext hp _ _ | grOpsEnd hp _ | grNext hp _ | grNull hp | grMig hp
    | grMigNext hp _ _ | grMigEnd hp _ | grPublish hp | grDelete hp | mgLoad hp _ _ | mgNext hp _ _ _
    | mgClaim hp _ _ _ | mgLeave hp _ _ _ | mgDone hp | hgEnd hp _ => exact ih.move1 hs' hp rfl rfl rfl rfl

end
end Sync
end Growt
