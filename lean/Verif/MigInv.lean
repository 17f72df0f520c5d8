import Verif.MigHead

/-!
# Invariant of a migration
-/

set_option linter.unusedSectionVars false

namespace Growt
section
variable {K V : Type} [DecidableEq K] [DecidableEq V] [Inhabited V]

/-- Ghost: (start, slots marked up to here, elements inserted up to here) of a running job.
(proof, no code) -/
def JobPC.ext : JobPC K V → Option (Nat × Nat × Nat)
  | .fill st _ _ i | .load st _ i | .mark st _ i _ | .fin st i => some (st, i, i)
  | .probe st _ i _ _ | .put st _ i _ _ => some (st, i, i - 1)
  | .scan _ | .scanMark _ _ | .nothing => none

/-- All target slots over the source indices `[st, c)` are initialised. (proof, no code) -/
def Inited (G : MEnv K) (g : MTbl K V) (st c : Nat) : Prop :=
  ∀ j, st ≤ j → j < c → ∀ q, q < G.tgt.M.total → fiber G q = G.src.M.remap j → g q ≠ none

/-- Home slot in the target. (proof, no code) -/
def tHome (G : MEnv K) (x : K) : Nat := G.tgt.M.map (G.tgt.h x)

/-- The first `d` target slots probed for `x` hold other elements. (proof, no code) -/
def Walked (G : MEnv K) (g : MTbl K V) (x : K) (d : Nat) : Prop :=
  ∀ d', d' < d → ∃ y, g (G.tgt.M.remap (tHome G x + d')) = some y ∧ y.c ≠ .empty ∧
    ∀ w, y.c ≠ .live x w

/-- State of an insertion of the element of source index `i0` in the target. (proof, no code) -/
structure InsInfo (G : MEnv K) (m : MMem K V) (e st : Nat) (tail : Bool) (nxt u : Nat) (x : Cell K V)
    (i0 : Nat) (key : K) (v : V) (i d : Nat) : Prop where
  nxt : nxt = i0 + 1
  lo : st ≤ i0
  phase : if tail then e ≤ i0 else i0 < e
  cell : (m.src (G.src.M.remap i0)).c = .live key v
  copy : x = ⟨false, .live key v⟩
  pos : G.src.M.remap i = G.src.M.remap i0
  passed : Passed G.src m.src key i
  at_ : u = tHome G key + d
  fib : fib G key d ≤ i
  walked : Walked G m.tgt key d

/-- Invariant of one job. (proof, no code) -/
def JobInv (G : MEnv K) (m : MMem K V) (b e : Nat) : JobPC K V → Prop
  | .scan i => b ≤ i ∧ i < e ∧ (∀ j, b ≤ j → j < i → (m.src j).c ≠ .empty) ∧
      (G.src.M.cp = true ∨ b > 0)
  | .scanMark i curr => (b ≤ i ∧ i < e ∧ (∀ j, b ≤ j → j < i → (m.src j).c ≠ .empty) ∧
        (G.src.M.cp = true ∨ b > 0)) ∧
      curr.c = .empty ∧ (G.src.m = false → m.src i = curr)
  | .fill st qs tail i => JCells G m.src b e st i ∧
      if tail then e ≤ i ∧ Inited G m.tgt st i ∧
        (∀ q, q ∈ qs → q < G.tgt.M.total ∧ fiber G q = G.src.M.remap i) ∧
        ∀ q, q < G.tgt.M.total → fiber G q = G.src.M.remap i → q ∈ qs ∨ m.tgt q ≠ none
      else i = st ∧ (∀ q, q ∈ qs → q < G.tgt.M.total ∧ st ≤ fiber G q ∧ fiber G q < e) ∧
        ∀ q, q < G.tgt.M.total → st ≤ fiber G q → fiber G q < e → q ∈ qs ∨ m.tgt q ≠ none
  | .load st tail i => JCells G m.src b e st i ∧ (if tail then e ≤ i else i < e) ∧
      Inited G m.tgt st (if tail then i + 1 else e)
  | .mark st tail i curr => JCells G m.src b e st i ∧ (if tail then e ≤ i else i < e) ∧
      Inited G m.tgt st (if tail then i + 1 else e) ∧
      (G.src.m = false → m.src (G.src.M.remap i) = curr) ∧
      (curr.c ≠ .empty → curr.marked = false) ∧
      (curr.marked = true → (m.src (G.src.M.remap i)).marked = true)
  | .probe st tail nxt u x => JCells G m.src b e st nxt ∧
      Inited G m.tgt st (if tail then nxt else e) ∧
      ∃ i0 key v i d, InsInfo G m e st tail nxt u x i0 key v i d
  | .put st tail nxt u x => JCells G m.src b e st nxt ∧
      Inited G m.tgt st (if tail then nxt else e) ∧
      (∃ i0 key v i d, InsInfo G m e st tail nxt u x i0 key v i d) ∧
      ∃ y, m.tgt (G.tgt.M.remap u) = some y ∧ y.c = .empty
  | .fin st i => JCells G m.src b e st i ∧ e ≤ i ∧ Inited G m.tgt st (i + 1) ∧
      Frozen G.src.m (m.src (G.src.M.remap i)) ∧ (m.src (G.src.M.remap i)).c = .empty
  | .nothing => (∀ j, b ≤ j → j < e → (m.src j).c ≠ .empty) ∧ (G.src.M.cp = true ∨ b > 0)

/-- Origin of an element in the target. (proof, no code) -/
structure Prov (G : MEnv K) (m : MMem K V) (jobs : Nat → Option (JobPC K V)) (q : Nat) (key : K)
    (v : V) (b : Nat) (pc : JobPC K V) (st cur ins ic d i : Nat) : Prop where
  job : jobs b = some pc
  ext : pc.ext = some (st, cur, ins)
  lo : st ≤ ic
  hi : ic < ins
  cell : (m.src (G.src.M.remap ic)).c = .live key v
  pos : G.src.M.remap i = G.src.M.remap ic
  passed : Passed G.src m.src key i
  slot : q = G.tgt.M.remap (tHome G key + d)
  fib : fib G key d ≤ i
  walked : Walked G m.tgt key d
  buf : G.src.M.cp = false → q < G.tgt.M.addr ∨ q + G.src.M.addr ≤ G.tgt.M.addr + ic

/-- Proof, no code. -/
def Placed (G : MEnv K) (m : MMem K V) (jobs : Nat → Option (JobPC K V)) (q : Nat) (key : K)
    (v : V) : Prop :=
  ∃ b pc st cur ins ic d i, Prov G m jobs q key v b pc st cur ins ic d i

/-- Invariant of memory and jobs. (proof, no code) -/
structure Core (G : MEnv K) (k : Nat) (m : MMem K V) (jobs : Nat → Option (JobPC K V)) : Prop where
  inv : Inv G.src m.src
  job : ∀ b pc, jobs b = some pc →
    blockSize ∣ b ∧ b < 2 ^ k ∧ JobInv G m b (blockEnd (2 ^ k) b) pc
  sound : ∀ q x, m.tgt q = some x → x.c ≠ .empty →
    x.marked = false ∧ ∃ key v, x.c = .live key v ∧ Placed G m jobs q key v
  compl : ∀ b pc st cur ins ic key v, jobs b = some pc → pc.ext = some (st, cur, ins) → st ≤ ic →
    ic < ins → (m.src (G.src.M.remap ic)).c = .live key v →
    ∃ q x, m.tgt q = some x ∧ x.c = .live key v
  marks : ∀ p, (m.src p).marked = true → (m.src p).c ≠ .empty →
    ∃ b pc st cur ins ic, jobs b = some pc ∧ pc.ext = some (st, cur, ins) ∧ st ≤ ic ∧ ic < cur ∧
      G.src.M.remap ic = p
  nomark : G.src.m = false → ∀ p, (m.src p).marked = false
  dom : ∀ q, m.tgt q ≠ none → q < G.tgt.M.total
  buf : G.src.M.cp = false → ∀ q, G.tgt.M.addr ≤ q → q < G.tgt.M.total → m.tgt q ≠ none
  emp : ∀ q x, m.tgt q = some x → x.c = .empty → x.marked = false

/-- How the source may change. (proof, no code) -/
structure Upd (G : MEnv K) (t t' : Tbl K V) : Prop where
  inv : Inv G.src t'
  ev : Evolves t t'
  froz : ∀ p, Frozen G.src.m (t p) → (t' p).c = (t p).c ∧ Frozen G.src.m (t' p)
  same : G.src.m = false → t' = t
  mkd : ∀ p, (t p).marked = true → (t' p).marked = true

/-- How the target may change under other jobs: elements stay, initialised slots stay so. (proof, no code) -/
structure TLe (g g' : MTbl K V) : Prop where
  stay : ∀ q x, g q = some x → x.c ≠ .empty → g' q = some x
  init : ∀ q, g q ≠ none → g' q ≠ none

theorem Upd.refl {G : MEnv K} {t : Tbl K V} (h : Inv G.src t) : Upd G t t :=
  ⟨h, Evolves.refl t, fun _ h => ⟨rfl, h⟩, fun _ => rfl, fun _ h => h⟩

theorem TLe.refl (g : MTbl K V) : TLe g g := ⟨fun _ _ h _ => h, fun _ h => h⟩

theorem Upd.ne {G : MEnv K} {t t' : Tbl K V} (h : Upd G t t') {p : Nat} (hn : (t p).c ≠ .empty) :
    (t' p).c ≠ .empty := (h.ev p).1 hn

theorem JCells.upd {G : MEnv K} {t t' : Tbl K V} {b e st cur : Nat} (hJ : JCells G t b e st cur)
    (h : Upd G t t') : JCells G t' b e st cur := by
  refine ⟨hJ.lo, hJ.hi, fun j h1 h2 => h.ne (hJ.pre j h1 h2), ?_, hJ.le,
    fun j h1 h2 => (h.froz _ (hJ.froz j h1 h2)).2, fun j h1 h2 => h.ne (hJ.tailne j h1 h2), hJ.zero⟩
  rcases hJ.head with ⟨h1, h2⟩ | h1
  · obtain ⟨h3, h4⟩ := h.froz _ h2
    exact .inl ⟨by rw [h3, h1], h4⟩
  · exact .inr h1

theorem Inited.le {G : MEnv K} {g g' : MTbl K V} {st c : Nat} (h : Inited G g st c) (hg : TLe g g') :
    Inited G g' st c := fun j h1 h2 q h3 h4 => hg.init q (h j h1 h2 q h3 h4)

theorem Walked.le {G : MEnv K} {g g' : MTbl K V} {x : K} {d : Nat} (h : Walked G g x d)
    (hg : TLe g g') : Walked G g' x d := by
  intro d' hd
  obtain ⟨y, h1, h2, h3⟩ := h d' hd
  exact ⟨y, hg.stay _ _ h1 h2, h2, h3⟩

theorem InsInfo.upd {G : MEnv K} {m : MMem K V} {e st : Nat} {tail : Bool} {nxt u : Nat}
    {x : Cell K V} {i0 : Nat} {key : K} {v : V} {i d : Nat} {t' : Tbl K V} {g' : MTbl K V} {tn : Bool}
    (h : InsInfo G m e st tail nxt u x i0 key v i d) (hu : Upd G m.src t') (hg : TLe m.tgt g')
    (hf : Frozen G.src.m (m.src (G.src.M.remap i0))) :
    InsInfo G ⟨t', g', tn⟩ e st tail nxt u x i0 key v i d :=
  ⟨h.nxt, h.lo, h.phase, by simpa [(hu.froz _ hf).1] using h.cell, h.copy, h.pos,
    h.passed.evolve hu.ev, h.at_, h.fib, h.walked.le hg⟩

/-- The invariant of a job is not disturbed by others. -/
theorem JobInv.stable {G : MEnv K} {m : MMem K V} {b e : Nat} {pc : JobPC K V} {t' : Tbl K V}
    {g' : MTbl K V} {tn : Bool} (h : JobInv G m b e pc) (hu : Upd G m.src t') (hg : TLe m.tgt g')
    (hput : ∀ st tl nxt u x, pc = .put st tl nxt u x →
      g' (G.tgt.M.remap u) = m.tgt (G.tgt.M.remap u)) :
    JobInv G ⟨t', g', tn⟩ b e pc := by
  cases pc with
  | scan i => exact ⟨h.1, h.2.1, fun j h1 h2 => hu.ne (h.2.2.1 j h1 h2), h.2.2.2⟩
  | scanMark i curr =>
    obtain ⟨⟨h1, h2, h3, h3'⟩, h4, h5⟩ := h
    refine ⟨⟨h1, h2, fun j a c => hu.ne (h3 j a c), h3'⟩, h4, fun hm => ?_⟩
    simp only [hu.same hm]; exact h5 hm
  | fill st qs tail i =>
    obtain ⟨h1, h2⟩ := h
    refine ⟨h1.upd hu, ?_⟩
    cases tail with
    | true =>
      simp only [if_true] at h2 ⊢
      obtain ⟨h3, h4, h5, h6⟩ := h2
      refine ⟨h3, h4.le hg, h5, fun q a c => ?_⟩
      rcases h6 q a c with h | h
      · exact .inl h
      · exact .inr (hg.init q h)
    | false =>
      simp only [Bool.false_eq_true, if_false] at h2 ⊢
      obtain ⟨h3, h4, h5⟩ := h2
      refine ⟨h3, h4, fun q a c c' => ?_⟩
      rcases h5 q a c c' with h | h
      · exact .inl h
      · exact .inr (hg.init q h)
  | load st tail i => exact ⟨h.1.upd hu, h.2.1, h.2.2.le hg⟩
  | mark st tail i curr =>
    obtain ⟨h1, h2, h3, h4, h5, h6⟩ := h
    refine ⟨h1.upd hu, h2, h3.le hg, fun hm => ?_, h5, fun hm => hu.mkd _ (h6 hm)⟩
    simp only [hu.same hm]; exact h4 hm
  | probe st tail nxt u x =>
    obtain ⟨h1, h2, i0, key, v, i, d, h3⟩ := h
    refine ⟨h1.upd hu, h2.le hg, i0, key, v, i, d, h3.upd hu hg ?_⟩
    exact h1.froz i0 h3.lo (by have := h3.nxt; omega)
  | put st tail nxt u x =>
    obtain ⟨h1, h2, ⟨i0, key, v, i, d, h3⟩, h4⟩ := h
    refine ⟨h1.upd hu, h2.le hg, ⟨i0, key, v, i, d, h3.upd hu hg ?_⟩, ?_⟩
    · exact h1.froz i0 h3.lo (by have := h3.nxt; omega)
    · simpa [hput _ _ _ _ _ rfl] using h4
  | fin st i =>
    obtain ⟨h1, h2, h3, h4, h5⟩ := h
    obtain ⟨h6, h7⟩ := hu.froz _ h4
    exact ⟨h1.upd hu, h2, h3.le hg, h7, by rw [h6, h5]⟩
  | nothing => exact ⟨fun j h1 h2 => hu.ne (h.1 j h1 h2), h.2⟩

theorem JobInv.cells {G : MEnv K} {m : MMem K V} {b e : Nat} {pc : JobPC K V} {st cur ins : Nat}
    (h : JobInv G m b e pc) (he : pc.ext = some (st, cur, ins)) :
    JCells G m.src b e st cur ∧ ins ≤ cur := by
  cases pc <;> simp only [JobPC.ext, Option.some.injEq, Prod.mk.injEq, reduceCtorEq] at he <;>
    obtain ⟨rfl, rfl, rfl⟩ := he <;> exact ⟨h.1, by omega⟩

theorem upd1_self {A B : Type} [DecidableEq A] (f : A → B) (a : A) (b : B) : upd1 f a b a = b := by
  simp [upd1]

theorem upd1_ne {A B : Type} [DecidableEq A] {f : A → B} {a c : A} {b : B} (h : c ≠ a) :
    upd1 f a b c = f c := by
  simp [upd1, h]

/-- A step of one job: everything that has to be checked. -/
theorem Core.next {G : MEnv K} {k : Nat} {m : MMem K V} {jobs : Nat → Option (JobPC K V)}
    (h : Core G k m jobs) {b : Nat} {pc' : JobPC K V} {t' : Tbl K V} {g' : MTbl K V} {tn : Bool}
    (hu : Upd G m.src t') (hg : TLe m.tgt g')
    (hput : ∀ b2 st tl nxt u x, b2 ≠ b → jobs b2 = some (.put st tl nxt u x) →
      g' (G.tgt.M.remap u) = m.tgt (G.tgt.M.remap u))
    (hb : blockSize ∣ b ∧ b < 2 ^ k)
    (hnew : JobInv G ⟨t', g', tn⟩ b (blockEnd (2 ^ k) b) pc')
    (hext : ∀ pc st cur ins, jobs b = some pc → pc.ext = some (st, cur, ins) →
      ∃ cur' ins', pc'.ext = some (st, cur', ins') ∧ cur ≤ cur' ∧ ins ≤ ins')
    (hcomp : ∀ st' cur' ins' ic key v, pc'.ext = some (st', cur', ins') → st' ≤ ic → ic < ins' →
      (t' (G.src.M.remap ic)).c = .live key v →
      (∃ pc cur ins, jobs b = some pc ∧ pc.ext = some (st', cur, ins) ∧ ic < ins) ∨
      ∃ q x, g' q = some x ∧ x.c = .live key v)
    (hsound : ∀ q x, g' q = some x → x.c ≠ .empty → m.tgt q = some x ∨
      (x.marked = false ∧ ∃ key v, x.c = .live key v ∧
        Placed G ⟨t', g', tn⟩ (upd1 jobs b (some pc')) q key v))
    (hmarks : ∀ p, (t' p).marked = true → (t' p).c ≠ .empty → (m.src p).marked = true ∨
      ∃ st cur ins ic, pc'.ext = some (st, cur, ins) ∧ st ≤ ic ∧ ic < cur ∧ G.src.M.remap ic = p)
    (hdom : ∀ q, g' q ≠ none → q < G.tgt.M.total)
    (hemp : ∀ q x, g' q = some x → x.c = .empty → x.marked = false) :
    Core G k ⟨t', g', tn⟩ (upd1 jobs b (some pc')) := by
  -- ranges only grow
  have hgrow : ∀ b2 pc st cur ins, jobs b2 = some pc → pc.ext = some (st, cur, ins) →
      ∃ pc2 cur' ins', upd1 jobs b (some pc') b2 = some pc2 ∧ pc2.ext = some (st, cur', ins') ∧
        cur ≤ cur' ∧ ins ≤ ins' := by
    intro b2 pc st cur ins h1 h2
    by_cases hbb : b2 = b
    · subst hbb
      obtain ⟨cur', ins', h3, h4, h5⟩ := hext pc st cur ins h1 h2
      exact ⟨pc', cur', ins', upd1_self _ _ _, h3, h4, h5⟩
    · exact ⟨pc, cur, ins, by rw [upd1_ne hbb, h1], h2, Nat.le_refl _, Nat.le_refl _⟩
  -- slots already processed are frozen
  have hfr : ∀ b2 pc st cur ins ic, jobs b2 = some pc → pc.ext = some (st, cur, ins) → st ≤ ic →
      ic < ins → (t' (G.src.M.remap ic)).c = (m.src (G.src.M.remap ic)).c := by
    intro b2 pc st cur ins ic h1 h2 h3 h4
    obtain ⟨-, -, hji⟩ := h.job b2 pc h1
    obtain ⟨hc, hle⟩ := hji.cells h2
    exact (hu.froz _ (hc.froz ic h3 (by omega))).1
  refine ⟨hu.inv, ?_, ?_, ?_, ?_, ?_, hdom, ?_, hemp⟩
  · intro b2 pc2 h1
    by_cases hbb : b2 = b
    · subst hbb
      rw [upd1_self] at h1
      cases h1
      exact ⟨hb.1, hb.2, hnew⟩
    · rw [upd1_ne hbb] at h1
      obtain ⟨h2, h3, h4⟩ := h.job b2 pc2 h1
      exact ⟨h2, h3, h4.stable hu hg (fun st tl nxt u x he => hput b2 st tl nxt u x hbb (he ▸ h1))⟩
  · intro q x h1 h2
    rcases hsound q x h1 h2 with h3 | h3
    · obtain ⟨h4, key, v, h5, b2, pc, st, cur, ins, ic, d, i, hp⟩ := h.sound q x h3 h2
      refine ⟨h4, key, v, h5, ?_⟩
      obtain ⟨pc2, cur', ins', h6, h7, -, h8⟩ := hgrow b2 pc st cur ins hp.job hp.ext
      refine ⟨b2, pc2, st, cur', ins', ic, d, i, h6, h7, hp.lo, Nat.lt_of_lt_of_le hp.hi h8, ?_,
        hp.pos, hp.passed.evolve hu.ev, hp.slot, hp.fib, hp.walked.le hg, hp.buf⟩
      show (t' (G.src.M.remap ic)).c = _
      rw [hfr b2 pc st cur ins ic hp.job hp.ext hp.lo hp.hi]
      exact hp.cell
    · exact h3
  · intro b2 pc2 st cur ins ic key v h1 h2 h3 h4 h5
    have hold : ∀ pc cur ins, jobs b2 = some pc → pc.ext = some (st, cur, ins) → ic < ins →
        ∃ q x, g' q = some x ∧ x.c = .live key v := by
      intro pc cur0 ins0 h6 h7 h8
      rw [show (MMem.src ⟨t', g', tn⟩) = t' from rfl, hfr b2 pc st cur0 ins0 ic h6 h7 h3 h8] at h5
      obtain ⟨q, x, h9, h10⟩ := h.compl b2 pc st cur0 ins0 ic key v h6 h7 h3 h8 h5
      exact ⟨q, x, hg.stay q x h9 (by simp [h10]), h10⟩
    by_cases hbb : b2 = b
    · subst hbb
      rw [upd1_self] at h1
      cases h1
      rcases hcomp st cur ins ic key v h2 h3 h4 h5 with ⟨pc, cur0, ins0, h6, h7, h8⟩ | h6
      · exact hold pc cur0 ins0 h6 h7 h8
      · exact h6
    · rw [upd1_ne hbb] at h1
      exact hold pc2 cur ins h1 h2 h4
  · intro p h1 h2
    rcases hmarks p h1 h2 with h3 | ⟨st, cur, ins, ic, h3, h4, h5, h6⟩
    · have hne : (m.src p).c ≠ .empty := by
        cases hm : G.src.m with
        | false => have := h.nomark hm p; simp [this] at h3
        | true =>
          have := (hu.froz p (.inr h3)).1
          rw [← this]; exact h2
      obtain ⟨b2, pc, st, cur, ins, ic, h4, h5, h6, h7, h8⟩ := h.marks p h3 hne
      obtain ⟨pc2, cur', ins', h9, h10, h11, -⟩ := hgrow b2 pc st cur ins h4 h5
      exact ⟨b2, pc2, st, cur', ins', ic, h9, h10, h6, Nat.lt_of_lt_of_le h7 h11, h8⟩
    · exact ⟨b, pc', st, cur, ins, ic, upd1_self _ _ _, h3, h4, h5, h6⟩
  · intro hm p
    show (t' p).marked = false
    rw [hu.same hm]; exact h.nomark hm p
  · intro hc q h1 h2
    exact hg.init q (h.buf hc q h1 h2)

section
variable {G : MEnv K} {k g : Nat} (hS : Shape G k g)
include hS

theorem Shape.ok : G.src.OK := ⟨⟨k, hS.wf⟩, hS.h64⟩

theorem Shape.blockEnd_le {b : Nat} (hb : b < 2 ^ k) : blockEnd (2 ^ k) b ≤ 2 ^ k := by
  rw [hS.blockEnd_eq hb]; omega

theorem Shape.home_lt (x : K) : tHome G x < G.tgt.M.addr := by
  unfold tHome
  exact hS.wf'.map_lt (by rw [hS.hash]; exact hS.h64 x)

theorem Shape.addr' : G.tgt.M.addr = 2 ^ k * 2 ^ g := by rw [hS.wf'.addr_eq, Nat.pow_add]

/-- Probing over occupied source slots. -/
theorem Shape.chain {t : Tbl K V} (hI : Inv G.src t) {key : K} {i f : Nat}
    (hp : Passed G.src t key i) (hne : (t (G.src.M.remap i)).c ≠ .empty)
    (hf : G.src.M.map (G.src.h key) ≤ f) :
    (G.src.M.cp = true ∨ i < G.src.M.total) ∧
    ∀ j, f ≤ j → j ≤ i → (t (j % G.src.M.total)).c ≠ .empty := by
  have hi : G.src.M.cp = true ∨ i < G.src.M.total := by
    have hb := hp.inBounds hS.ok hI
    cases hc : G.src.M.cp with
    | true => exact .inl rfl
    | false => rw [Mapper.remap_lin hc] at hb; exact .inr hb
  refine ⟨hi, fun j h1 h2 => ?_⟩
  have hj : G.src.M.cp = true ∨ j < G.src.M.total := by
    rcases hi with h | h
    · exact .inl h
    · exact .inr (by omega)
  rw [← hS.remap_mod hj]
  by_cases hji : j = i
  · subst hji; exact hne
  · exact (hp.2 j (by omega) (by omega)).1

/-- Target slots probed for an element of the source lie inside the allocation. -/
theorem Shape.probe_in {t : Tbl K V} (hI : Inv G.src t) {key : K} {i d : Nat}
    (hp : Passed G.src t key i) (hne : (t (G.src.M.remap i)).c ≠ .empty) (hf : fib G key d ≤ i) :
    G.tgt.M.remap (tHome G key + d) < G.tgt.M.total := by
  cases hc : G.src.M.cp with
  | true => exact hS.wf'.remap_lt_cp (by rw [hS.cp, hc]) _
  | false =>
    have hcm : G.src.M.cm = false := by
      cases h : G.src.M.cm with
      | false => rfl
      | true => have := hS.combo h; simp [hc] at this
    rw [Mapper.remap_lin (by rw [hS.cp, hc])]
    rw [Mapper.remap_lin hc] at hne
    have hle : i ≤ 2 ^ k + 300 := by
      by_cases h : i ≤ 2 ^ k + 300
      · exact h
      · exact absurd (hS.last_empty hI hc (by omega)) hne
    unfold fib at hf
    rw [hS.gh, hcm] at hf
    simp only [Bool.false_eq_true, if_false] at hf
    rw [hS.total', hc]
    simp only [Bool.false_eq_true, if_false]
    unfold tHome
    generalize G.tgt.M.map (G.tgt.h key) + d = u at hf ⊢
    rcases hS.gpow with h | h <;> rw [h] at hf ⊢ <;> omega

variable {m : MMem K V} {jobs : Nat → Option (JobPC K V)}

/-- An element in a target slot over a slot of a job's cluster was put there by that job. -/
theorem Core.same (h : Core G k m jobs) {b st c ic i f q : Nat} {x : Cell K V}
    (hJ : JShape G m.src b (blockEnd (2 ^ k) b) st c) (hd : blockSize ∣ b) (hb : b < 2 ^ k)
    (h1 : st ≤ ic) (h2 : ic ≤ c) (hfi : f ≤ i) (hi : i % G.src.M.total = G.src.M.remap ic)
    (hf : ∀ j, f < j → j ≤ i → (m.src (j % G.src.M.total)).c ≠ .empty)
    (hx : m.tgt q = some x) (hne : x.c ≠ .empty) (hfib : fiber G q = f % G.src.M.total) :
    ∃ pc st2 cur ins ic2 n key v, jobs b = some pc ∧ pc.ext = some (st2, cur, ins) ∧ st2 ≤ ic2 ∧
      ic2 < ins ∧ ic + n = ic2 + (i - f) ∧ x.c = .live key v ∧
      (m.src (G.src.M.remap ic2)).c = .live key v ∧
      (G.src.M.cp = false → q < G.tgt.M.addr ∨ q + G.src.M.addr ≤ G.tgt.M.addr + ic2) := by
  obtain ⟨-, key, v, hxc, b2, pc, st2, cur, ins, ic2, d, i2, hp⟩ := h.sound q x hx hne
  obtain ⟨hd2, hb2, hji⟩ := h.job b2 pc hp.job
  obtain ⟨hJ2, hle⟩ := hji.cells hp.ext
  have hne2 : (m.src (G.src.M.remap i2)).c ≠ .empty := by rw [hp.pos, hp.cell]; simp
  have hge : G.src.M.map (G.src.h key) ≤ fib G key d := by
    rw [← hS.fib_zero key]; exact hS.fib_mono key (Nat.zero_le d)
  obtain ⟨hi2, hch⟩ := hS.chain h.inv hp.passed hne2 hge
  have hff : f % G.src.M.total = fib G key d % G.src.M.total := by
    rw [← hfib, hp.slot]
    exact hS.fiber_probe key d (hp.slot ▸ h.dom q (by simp [hx]))
  have hf' : ∀ j, f ≤ j → j ≤ i → (m.src (j % G.src.M.total)).c ≠ .empty := by
    intro j hj1 hj2
    by_cases hjf : j = f
    · subst hjf
      rw [hff]
      exact hch _ (Nat.le_refl _) hp.fib
    · exact hf j (by omega) hj2
  have hsh := hJ2.shape (c := cur) hJ2.le (.inl (Nat.le_refl _))
  have hip := hp.hi
  have hlo := hp.lo
  have hpos : i2 % G.src.M.total = G.src.M.remap ic2 := by rw [← hp.pos, hS.remap_mod hi2]
  obtain ⟨hbb, hn⟩ := own2 hS h.inv hJ hsh hd hb rfl hd2 hb2 rfl h1 h2 hlo (by omega) hfi hi hf'
    hp.fib hpos hch hff
  subst hbb
  exact ⟨pc, st2, cur, ins, ic2, _, key, v, hp.job, hp.ext, hlo, hip, hn, hxc, hp.cell, hp.buf⟩

/-- A marked non-empty source slot in the cluster of a job was marked by that job. -/
theorem Core.sameMark (h : Core G k m jobs) {b st c ic : Nat}
    (hJ : JShape G m.src b (blockEnd (2 ^ k) b) st c) (hd : blockSize ∣ b) (hb : b < 2 ^ k)
    (h1 : st ≤ ic) (h2 : ic ≤ c) (hm : (m.src (G.src.M.remap ic)).marked = true)
    (hne : (m.src (G.src.M.remap ic)).c ≠ .empty) :
    ∃ pc st2 cur ins, jobs b = some pc ∧ pc.ext = some (st2, cur, ins) ∧ ic < cur := by
  obtain ⟨b2, pc, st2, cur, ins, ic2, hj, he, h3, h4, h5⟩ := h.marks _ hm hne
  obtain ⟨hd2, hb2, hji⟩ := h.job b2 pc hj
  obtain ⟨hJ2, hle⟩ := hji.cells he
  have hsh := hJ2.shape (c := cur) hJ2.le (.inl (Nat.le_refl _))
  have hr : G.src.M.remap ic % G.src.M.total = G.src.M.remap ic :=
    Nat.mod_eq_of_lt (hS.remap_lt (hJ.cur_ok hS h.inv (hS.blockEnd_le hb) h2))
  have hone : ∀ j, G.src.M.remap ic ≤ j → j ≤ G.src.M.remap ic →
      (m.src (j % G.src.M.total)).c ≠ .empty := by
    intro j hj1 hj2
    have : j = G.src.M.remap ic := by omega
    subst this
    rwa [hr]
  obtain ⟨hbb, hn⟩ := own2 hS h.inv hJ hsh hd hb rfl hd2 hb2 rfl h1 h2 h3 (by omega)
    (Nat.le_refl _) hr hone (Nat.le_refl _) (by rw [hr, h5]) hone rfl
  subst hbb
  exact ⟨pc, st2, cur, ins, hj, he, by omega⟩

/-- Beginning of a round of the loops. -/
theorem loopHead_inv {b st nxt : Nat} {tail : Bool} (hI : Inv G.src m.src) (hb : b < 2 ^ k)
    (hJ : JCells G m.src b (blockEnd (2 ^ k) b) st nxt)
    (ht : if tail then blockEnd (2 ^ k) b ≤ nxt else nxt ≤ blockEnd (2 ^ k) b)
    (hin : Inited G m.tgt st (if tail then nxt else blockEnd (2 ^ k) b)) :
    JobInv G m b (blockEnd (2 ^ k) b) (loopHead G (blockEnd (2 ^ k) b) st tail nxt) ∧
      (loopHead (V := V) G (blockEnd (2 ^ k) b) st tail nxt).ext = some (st, nxt, nxt) := by
  unfold loopHead
  by_cases hc : tail = false ∧ nxt < blockEnd (2 ^ k) b
  · rw [if_pos hc]
    obtain ⟨rfl, hlt⟩ := hc
    exact ⟨⟨hJ, hlt, hin⟩, rfl⟩
  · rw [if_neg hc]
    have hle : blockEnd (2 ^ k) b ≤ nxt := by
      cases tail <;> simp_all
    have hin2 : Inited G m.tgt st nxt := by
      cases tail with
      | true => exact hin
      | false =>
        simp only [Bool.false_eq_true, if_false] at hin ht
        have : nxt = blockEnd (2 ^ k) b := by omega
        rwa [this]
    have hsh := hJ.shape (c := nxt) hJ.le (.inl (Nat.le_refl _))
    have hok := hsh.cur_ok hS hI (hS.blockEnd_le hb) (Nat.le_refl nxt)
    have hmem := hS.mem_initSlot (hS.remap_lt hok) (fun hcp => by
      rw [Mapper.remap_lin hcp]
      exact hsh.cur_lin hS hI (hS.blockEnd_le hb) hcp)
    refine ⟨⟨hJ, ?_⟩, rfl⟩
    simp only [if_true]
    exact ⟨hle, hin2, fun q hq => (hmem q).1 hq, fun q h1 h2 => .inl ((hmem q).2 ⟨h1, h2⟩)⟩

/-- A step that only moves a job. -/
theorem Core.move (h : Core G k m jobs) {b : Nat} {pc pc' : JobPC K V} (hj : jobs b = some pc)
    (hnew : JobInv G m b (blockEnd (2 ^ k) b) pc')
    (hext : pc'.ext = pc.ext ∨ (pc.ext = none ∧ ∃ st, pc'.ext = some (st, st, st))) :
    Core G k m (upd1 jobs b (some pc')) := by
  obtain ⟨hd, hb, -⟩ := h.job b pc hj
  refine h.next (t' := m.src) (g' := m.tgt) (tn := m.torn) (Upd.refl h.inv) (TLe.refl _)
    (fun _ _ _ _ _ _ _ _ => rfl) ⟨hd, hb⟩ hnew ?_ ?_ (fun q x h1 _ => .inl h1)
    (fun p h1 _ => .inl h1) h.dom h.emp
  · intro pc0 st cur ins h1 h2
    rw [hj] at h1; cases h1
    rcases hext with he | ⟨he, -⟩
    · exact ⟨cur, ins, by rw [he, h2], Nat.le_refl _, Nat.le_refl _⟩
    · rw [he] at h2; cases h2
  · intro st' cur' ins' ic key v h1 h2 h3 h4
    rcases hext with he | ⟨he, st, he2⟩
    · exact .inl ⟨pc, cur', ins', hj, by rw [← he, h1], h3⟩
    · rw [h1] at he2; cases he2; omega

/-- Slots above the job's progress are not marked elements. -/
theorem Core.notMarked (h : Core G k m jobs) {b st cur ins : Nat} {pc : JobPC K V}
    (hj : jobs b = some pc) (he : pc.ext = some (st, cur, ins))
    (hne : (m.src (G.src.M.remap cur)).c ≠ .empty) :
    (m.src (G.src.M.remap cur)).marked = false := by
  obtain ⟨hd, hb, hji⟩ := h.job b pc hj
  obtain ⟨hJ, -⟩ := hji.cells he
  cases hm : (m.src (G.src.M.remap cur)).marked with
  | false => rfl
  | true =>
    obtain ⟨pc2, st2, cur2, ins2, h1, h2, h3⟩ := h.sameMark hS
      (hJ.shape hJ.le (.inl (Nat.le_refl _))) hd hb hJ.le (Nat.le_refl _) hm hne
    rw [hj] at h1; cases h1
    rw [he] at h2; cases h2
    omega

end

end
end Growt
