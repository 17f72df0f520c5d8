import Verif.SyncData

/-! # Synchronised growth: the invariant of the tables -/

set_option linter.unusedSectionVars false

namespace Growt
namespace Sync
section
variable {T A K V : Type} [DecidableEq T] [DecidableEq A] [DecidableEq K] [DecidableEq V] [Inhabited V]

/-- Blocks handed out and number of blocks of the object at `a`. (proof, no code) -/
def St.cnt (s : St T A) (a : A) : Nat × Nat :=
  match s.heap a with
  | some o => (o.claimed, o.blocks)
  | none => (0, 0)

/-- Steps of the protocol that do not concern the contents. -/
theorem tau_frame {s s' : St T A} (hI : SInv s) (hs : Step false s .tau s') :
    (∀ t, (s'.pc t).block = (s.pc t).block) ∧ (∀ t, (s'.pc t).operates = (s.pc t).operates) ∧
    (∀ a, s'.cnt a = s.cnt a) ∧
    (s'.stage = s.stage ∨ ∃ a b, s.stage = .pair a b ∧ s'.stage = .mig a b) := by
  have hpc : ∀ (t : T) (p : PC A), p.block = (s.pc t).block →
      ∀ t', (upd s.pc t p t').block = (s.pc t').block := by
    intro t p h t'
    unfold upd
    split
    · subst t'; exact h
    · rfl
  have hop : ∀ (t : T) (p : PC A), p.operates = (s.pc t).operates →
      ∀ t', (upd s.pc t p t').operates = (s.pc t').operates := by
    intro t p h t'
    unfold upd
    split
    · subst t'; exact h
    · rfl
  have hgl := hI.glob
  have hcn : ∀ (h : Hd) (c : Cont A), (c.next h).block = none := by intro h c; cases c <;> rfl
  have hcn' : ∀ (h : Hd) (c : Cont A), (c.next h).operates = none := by intro h c; cases c <;> rfl
  cases hs with
  | @grCas t h v e hp hv he =>
    have hc : (v : Int) ≤ s.cap := by have := hI.core t; rw [hp] at this; exact this
    have hq : s.phase = .quiet := by
      unfold St.cap at hc
      cases hph : s.phase <;> simp only [hph] at hc <;> first | rfl | (exfalso; omega)
    refine ⟨hpc _ _ (by rw [hp]; rfl), hop _ _ (by rw [hp]; rfl), fun _ => rfl, .inl ?_⟩
    simp only [St.stage, St.at, hq]
  | @grMark t h a v hp ht =>
    have hc := hI.core t
    rw [hp] at hc
    refine ⟨hpc _ _ (by rw [hp]; rfl), hop _ _ (by rw [hp]; rfl), fun _ => rfl, .inl ?_⟩
    simp [St.stage, hc.1, ht]
  | @grOps t h a b v hp =>
    have hc := hI.core t
    rw [hp] at hc
    refine ⟨hpc _ _ (by rw [hp]; rfl), hop _ _ (by rw [hp]; rfl), fun _ => rfl, .inl ?_⟩
    simp only [St.stage]; rw [show s.phase = _ from hc]
  | @grOpsNext t h a b v n j hp hj ho =>
    have hc := hI.core t
    rw [hp] at hc
    refine ⟨hpc _ _ (by rw [hp]; rfl), hop _ _ (by rw [hp]; rfl), fun _ => rfl, .inl ?_⟩
    simp only [St.stage]; rw [show s.phase = _ from hc]
  | @grOpsEnd t h a b v n j hp hj =>
    have hc := hI.core t
    rw [hp] at hc
    refine ⟨hpc _ _ (by rw [hp]; rfl), hop _ _ (by rw [hp]; rfl), fun _ => rfl, .inl ?_⟩
    simp only [St.stage]; rw [show s.phase = _ from hc]
  | @grNext t h a b v o hp ho =>
    have hc := hI.core t
    rw [hp] at hc
    refine ⟨hpc _ _ (by rw [hp]; rfl), hop _ _ (by rw [hp]; rfl), fun x => ?_, .inr ⟨a, b, ?_, rfl⟩⟩
    · by_cases hx : x = a
      · subst hx; simp [St.cnt, upd, ho]
      · simp [St.cnt, upd, hx]
    · simp only [St.stage]; rw [show s.phase = _ from hc]
  | @grNull t h a b v hp =>
    have hc := hI.core t
    rw [hp] at hc
    refine ⟨hpc _ _ (by rw [hp]; rfl), hop _ _ (by rw [hp]; rfl), fun _ => rfl, .inl ?_⟩
    simp only [St.stage]; rw [show s.phase = _ from hc]
  | @grMig t h a b v hp =>
    have hc := hI.core t
    rw [hp] at hc
    refine ⟨hpc _ _ (by rw [hp]; rfl), hop _ _ (by rw [hp]; rfl), fun _ => rfl, .inl ?_⟩
    simp only [St.stage]; rw [show s.phase = _ from hc]
  | @grMigNext t h a b v n j hp hj ho =>
    have hc := hI.core t
    rw [hp] at hc
    refine ⟨hpc _ _ (by rw [hp]; rfl), hop _ _ (by rw [hp]; rfl), fun _ => rfl, .inl ?_⟩
    simp only [St.stage]; rw [show s.phase = _ from hc]
  | @grMigEnd t h a b v n j hp hj =>
    have hc := hI.core t
    rw [hp] at hc
    refine ⟨hpc _ _ (by rw [hp]; rfl), hop _ _ (by rw [hp]; rfl), fun _ => rfl, .inl ?_⟩
    simp only [St.stage]; rw [show s.phase = _ from hc]
  | @mgNone t h c hp ht =>
    have hc := hI.core t
    rw [hp] at hc
    refine ⟨hpc _ _ (by rw [hp, hcn]; rfl), hop _ _ (by rw [hp, hcn']; rfl), fun _ => rfl, .inl ?_⟩
    cases c with
    | help => rfl
    | grow a v b =>
      simp only [St.stage, Cont.phase]; rw [show s.phase = _ from hc _ _ _ rfl]
  | @mgEnd t h c a b v o' hp ho' hv' =>
    have hc := hI.core t
    rw [hp] at hc
    refine ⟨hpc _ _ (by rw [hp, hcn]; rfl), hop _ _ (by rw [hp, hcn']; rfl), fun _ => rfl, .inl ?_⟩
    cases c with
    | help => rfl
    | grow a v b =>
      simp only [St.stage, Cont.phase]; rw [show s.phase = _ from (hc _ _ _ rfl).1]
  | @move t t' h hp hs hp' =>
    refine ⟨fun x => ?_, fun x => ?_, fun _ => rfl, .inl rfl⟩ <;>
    · simp only [St.at, upd]
      split
      · subst x; rw [hp']; rfl
      · split
        · subst x; rw [hp]; rfl
        · rfl
  | gtNull hp ht => exact ⟨fun _ => rfl, fun _ => rfl, fun _ => rfl, .inl rfl⟩
  | grOpsWait hp hj ho => exact ⟨fun _ => rfl, fun _ => rfl, fun _ => rfl, .inl rfl⟩
  | grMigWait hp hj ho => exact ⟨fun _ => rfl, fun _ => rfl, fun _ => rfl, .inl rfl⟩
  | mgWait hp ho hv hn => exact ⟨fun _ => rfl, fun _ => rfl, fun _ => rfl, .inl rfl⟩
  | hgWait hp ht => exact ⟨fun _ => rfl, fun _ => rfl, fun _ => rfl, .inl rfl⟩
  | regCas hp hn hl => exact ⟨fun _ => rfl, fun _ => rfl, fun _ => rfl, .inl rfl⟩
  | _ =>
    have hp := ‹s.pc _ = _›
    exact ⟨hpc _ _ (by rw [hp]; rfl), hop _ _ (by rw [hp]; rfl), fun _ => rfl, .inl rfl⟩


/-- An operation works on the current table, before its migration begins. -/
theorem SInv.op_stage {s : St T A} (hI : SInv s) {t : T} {a : A} (h : (s.pc t).operates = some a) :
    s.stage = .solo a ∨ ∃ b, s.stage = .pair a b := by
  have hc := hI.core t
  have hg := hI.glob
  cases hp : s.pc t <;> rw [hp] at h <;> simp only [PC.operates] at h <;> try cases h
  rw [hp] at hc
  obtain ⟨-, hop, -⟩ := hc
  unfold St.opOK at hop
  unfold Glob at hg
  unfold St.stage
  cases hph : s.phase <;> simp only [hph] at hop hg ⊢
  · rcases hop with h | h
    · rw [h]; exact .inl rfl
    · exact h.2.elim
  · rcases hop with h | h
    · rw [h]; exact .inl rfl
    · exact h.2.elim
  · rcases hop with h | h
    · rw [hg.1] at h; cases h
    · rw [hg.1] at h; cases h.1; exact .inl rfl
  · rcases hop with h | h
    · rw [hg.1] at h; cases h
    · rw [hg.1] at h; cases h.1; exact .inr ⟨_, rfl⟩
  · rcases hop with h | h
    · rw [hg.1] at h; cases h
    · rw [hg.1] at h; cases h.1; exact .inr ⟨_, rfl⟩
  all_goals
    rcases hop with h | h
    · rw [hg.1] at h; cases h
    · exact h.2.elim

/-- A thread that migrates a block. -/
theorem SInv.block_stage {s : St T A} (hI : SInv s) {t : T} {h : Hd} {c : Cont A} {a b : A} {v k : Nat}
    (hp : s.pc t = .mg5 h c a v b k) : s.stage = .mig a b := by
  have hc := hI.core t
  rw [hp] at hc
  have hm := hc.1
  unfold St.migOK at hm
  unfold St.stage
  cases hph : s.phase <;> simp only [hph] at hm ⊢
  · rw [hm.1, hm.2.2]
  · rw [hm.1, hm.2.2]
  · rw [hm.1, hm.2.2]
  · rw [hm.1.1, hm.1.2.2]

theorem SInv.block_mig {s : St T A} (hI : SInv s) {t : T} {k : Nat} (h : (s.pc t).block = some k) :
    ∃ a b, s.stage = .mig a b := by
  cases hp : s.pc t <;> rw [hp] at h <;> simp only [PC.block] at h <;> try cases h
  exact ⟨_, _, hI.block_stage hp⟩

/-- The objects belonging to a stage. -/
theorem SInv.stage_objs {s : St T A} (hI : SInv s) :
    match s.stage with
    | .broken => False
    | .solo a => ∃ o, s.heap a = some o ∧ o.fresh
    | .pair a b => a ≠ b ∧ (∃ o, s.heap a = some o ∧ o.fresh) ∧ ∃ o, s.heap b = some o ∧ o.fresh
    | .mig a b => a ≠ b ∧ (∃ o, s.heap a = some o ∧ o.next = some b) ∧ ∃ o, s.heap b = some o ∧ o.fresh := by
  have hg := hI.glob
  unfold Glob at hg
  unfold St.stage
  cases hph : s.phase <;> simp only [hph] at hg ⊢
  · obtain ⟨a, o, h1, h2, h3, -⟩ := hg; rw [h1]; exact ⟨o, h2, h3⟩
  · obtain ⟨a, o, h1, h2, h3, -⟩ := hg; rw [h1]; exact ⟨o, h2, h3⟩
  · obtain ⟨-, -, o, h1, -, h2⟩ := hg; exact ⟨o, h1, h2⟩
  all_goals
    obtain ⟨-, -, hne, ⟨o, h1, -, h2⟩, o', h3, -, h4⟩ := hg
  all_goals first
    | exact ⟨hne, ⟨o, h1, h2⟩, o', h3, h4⟩
    | exact ⟨hne, ⟨o, h1, h2.1⟩, o', h3, h4⟩

/-! ## Contents -/

theorem published_store (g : MTbl K V) (t : Tbl K V) : published (store g t) = t := by
  funext q
  unfold published store
  split
  · rename_i h; exact h.symm
  · rfl

theorem store_full {g : MTbl K V} (t : Tbl K V) {q : Nat} (h : g q ≠ none) : store g t q ≠ none := by
  unfold store
  split
  · exact h
  · simp

/-- Configuration of a table. (proof, no code) -/
structure Kind (m : Bool) (E : Env K) : Prop where
  ok : E.OK
  combo : E.M.cm = true → E.M.cp = true
  slots : E.m = m

/-- A successor made by `resize`. (proof, no code) -/
structure Succ (E E' : Env K) : Prop where
  hash : E'.h = E.h
  slots : E'.m = E.m
  resized : ∃ i d, E'.M = E.M.resize i d

/-- A table in use. (proof, no code) -/
structure TabOK (m : Bool) (E : Env K) (g : MTbl K V) (d : Dict K V) : Prop where
  kind : Kind m E
  inv : Inv E (published g)
  marks : NoMarks (published g)
  stores : Stores E (published g) d
  full : ∀ q, q < E.M.total → g q ≠ none

/-- The migration from `a` to `b`, as in `Migrate.lean`. (proof, no code) -/
def DSt.view (s : DSt T A K V) (a b : A) : MSt T K V :=
  ⟨⟨published (s.mem a), s.mem b, s.torn⟩, (s.p.cnt a).1 * blockSize,
    fun t => match (s.p.pc t).block with
      | some k => .work (k * blockSize)
      | none => .claim,
    s.jobs⟩

/-- The tables in the different stages. (proof, no code) -/
def StageOK (u m : Bool) (s : DSt T A K V) (d : Dict K V) : Stage A → Prop
  | .broken => False
  | .solo a => TabOK m (s.env a) (s.mem a) d ∧ (s.p.cnt a).2 = blocksOf (s.env a).M
  | .pair a b => TabOK m (s.env a) (s.mem a) d ∧ (s.p.cnt a).2 = blocksOf (s.env a).M ∧
      Succ (s.env a) (s.env b) ∧ (s.p.cnt b).2 = blocksOf (s.env b).M ∧
      s.mem b = freshTarget (s.env b) ∧ s.torn = false ∧ s.jobs = fun _ => none
  | .mig a b => Kind m (s.env a) ∧ (s.p.cnt a).2 = blocksOf (s.env a).M ∧
      Succ (s.env a) (s.env b) ∧ (s.p.cnt b).2 = blocksOf (s.env b).M ∧
      (s.env a).M.addr < 2 ^ 32 ∧ ∃ t0 : Tbl K V, Inv (s.env a) t0 ∧ NoMarks t0 ∧
      Stores (s.env a) t0 d ∧ HasRoom (s.env a) t0 ∧ MQuiet ⟨s.env a, s.env b, u⟩ t0 (s.view a b)

/-- A call. (proof, no code) -/
def CallOK (ok : Op K V → Prop) (env : A → Env K) (mem : A → MTbl K V) (p : PC A) : UThr K V → Prop
  | .idle => True
  | .pend op => ok op
  | .busy op pc => ok op ∧ ∃ a, p.operates = some a ∧ PcInv (env a) (published (mem a)) op pc ∧
      SafeAct (env a) (published (mem a)) op pc
  | .again op _ => ok op
  | .fin _ _ => True

/-- The invariant. (proof, no code) -/
structure DInv (u m : Bool) (ok : Op K V → Prop) (s : DSt T A K V) (d : Dict K V) : Prop where
  sinv : SInv s.p
  stage : StageOK u m s d s.p.stage
  call : ∀ t, CallOK ok s.env s.mem (s.p.pc t) (s.thr t)

theorem blocks_iff (M : Mapper) (c : Nat) : c < blocksOf M ↔ c * blockSize < M.addr := by
  unfold blocksOf blockSize
  omega

theorem resize_wf {M : Mapper} {k : Nat} (hw : M.WF k) (hk : k < 63) (i d : Nat) :
    ∃ n, (M.resize i d).WF n := by
  have hA := hw.addr_eq
  have h9 := hw.1
  obtain ⟨big, hbig⟩ : ∃ b, Mapper.fillAboveExact (Mapper.sub64 i d) (2 ^ k) = b := ⟨_, rfl⟩
  have hr : M.resize i d = Mapper.mk' M.cm M.cp (2 ^ (k + if big then 1 else 0))
      (if M.cm then 2 ^ k else if big then 1 else 0) := by
    simp only [Mapper.resize, hA, hbig]
    cases big <;> simp [Nat.shiftLeft_eq, Nat.pow_succ]
  exact ⟨_, by rw [hr]; exact Mapper.wf_mk' (by omega) (by cases big <;> simp <;> omega)⟩

theorem Succ.menv {m : Bool} {E E' : Env K} (hk : Kind m E) (h : Succ E E') (hs : E.M.addr < 2 ^ 32)
    (u : Bool) : (⟨E, E', u⟩ : MEnv K).OK := by
  obtain ⟨i, d, hr⟩ := h.resized
  obtain ⟨k, hw⟩ := hk.ok.wf
  have : k < 32 := by
    rw [hw.addr_eq] at hs
    exact (Nat.pow_lt_pow_iff_right (by omega : 1 < 2)).1 hs
  exact ⟨hk.ok, h.hash, h.slots, ⟨i, d, hr⟩, by rw [show (MEnv.mk E E' u).tgt.M = E.M.resize i d from hr]; exact resize_wf hw (by omega) i d, hk.combo, hs⟩

theorem Succ.kind {m : Bool} {E E' : Env K} (hk : Kind m E) (h : Succ E E') (hs : E.M.addr < 2 ^ 32) :
    Kind m E' := by
  have hG := h.menv hk hs false
  refine ⟨hG.tgtOK, ?_, h.slots.trans hk.slots⟩
  obtain ⟨i, d, hr⟩ := h.resized
  rw [hr]
  intro hcm
  exact hk.combo hcm


/-! ## Steps -/

theorem CallOK.frame {ok : Op K V → Prop} {env env' : A → Env K} {mem mem' : A → MTbl K V}
    {p p' : PC A} {x : UThr K V} (h : CallOK ok env mem p x) (hp : p'.operates = p.operates)
    (hm : ∀ a, p.operates = some a → env' a = env a ∧ published (mem' a) = published (mem a)) :
    CallOK ok env' mem' p' x := by
  cases x with
  | busy op pc =>
    obtain ⟨h1, a, h2, h3, h4⟩ := h
    obtain ⟨e1, e2⟩ := hm a h2
    exact ⟨h1, a, hp.trans h2, by rw [e1, e2]; exact h3, by rw [e1, e2]; exact h4⟩
  | _ => exact h

/-- Only the protocol state changes, and only in ways that do not concern the tables. -/
theorem StageOK.frame {u m : Bool} {s : DSt T A K V} {d : Dict K V} {g : Stage A} {p' : St T A}
    {th : T → UThr K V}
    (h : StageOK u m s d g) (hb : ∀ t, (p'.pc t).block = (s.p.pc t).block)
    (hc : ∀ a, (match g with
      | .broken => False
      | .solo a' => a = a'
      | .pair a' b' => a = a' ∨ a = b'
      | .mig a' b' => a = a' ∨ a = b') → p'.cnt a = s.p.cnt a) :
    StageOK u m { s with p := p', thr := th } d g := by
  cases g with
  | broken => exact h
  | solo a =>
    simp only [StageOK] at h ⊢
    rw [hc a rfl]; exact h
  | pair a b =>
    simp only [StageOK] at h ⊢
    rw [hc a (.inl rfl), hc b (.inr rfl)]; exact h
  | mig a b =>
    simp only [StageOK] at h ⊢
    rw [hc a (.inl rfl), hc b (.inr rfl)]
    have : DSt.view { s with p := p', thr := th } a b = s.view a b := by
      unfold DSt.view
      simp only [hc a (.inl rfl), hb]
    rw [this]; exact h

theorem view_init {u m : Bool} {s : DSt T A K V} {d : Dict K V} {a b : A} (hI : SInv s.p)
    (hst : s.p.stage = .pair a b) (h : StageOK u m s d (.pair a b)) :
    s.view a b = MSt.init ⟨s.env a, s.env b, u⟩ (published (s.mem a)) := by
  obtain ⟨-, -, -, -, h1, h2, h3⟩ := h
  have ho := hI.stage_objs
  rw [hst] at ho
  obtain ⟨-, ⟨o, ho, hf⟩, -⟩ := ho
  have hb : ∀ t, (s.p.pc t).block = none := by
    intro t
    cases hk : (s.p.pc t).block with
    | none => rfl
    | some k =>
      obtain ⟨a', b', h⟩ := hI.block_mig hk
      rw [hst] at h; cases h
  unfold DSt.view MSt.init
  simp only [h1, h2, h3, hb, St.cnt, ho, hf.2, Nat.zero_mul]


section
variable {u m : Bool} {ok : Op K V → Prop} {s : DSt T A K V} {d : Dict K V}

/-- A running operation. -/
theorem DInv.running (hI : DInv u m ok s d) {t : T} {a : A} {op : Op K V} {pc : Growt.PC K V}
    (ht : s.thr t = .busy op pc) (ho : (s.p.pc t).operates = some a) :
    TabOK m (s.env a) (s.mem a) d ∧ ok op ∧ PcInv (s.env a) (published (s.mem a)) op pc ∧
      SafeAct (s.env a) (published (s.mem a)) op pc := by
  have hc := hI.call t
  rw [ht] at hc
  obtain ⟨h1, a', h2, h3, h4⟩ := hc
  rw [ho] at h2
  cases h2
  refine ⟨?_, h1, h3, h4⟩
  have hst := hI.stage
  rcases hI.sinv.op_stage ho with h | ⟨b, h⟩ <;> rw [h] at hst <;> exact hst.1

/-- A step of a running operation. -/
theorem DInv.opNext (hmix : Mix m ok) (hI : DInv u m ok s d) {t : T} {a : A} {op : Op K V}
    {pc : Growt.PC K V} (ht : s.thr t = .busy op pc) (ho : (s.p.pc t).operates = some a)
    {g : Tbl K V} {out : Out K V} (hst : step (s.env a) op pc (published (s.mem a)) = (g, out))
    {d' : Dict K V} (hd : Stores (s.env a) g d') {x : UThr K V}
    (hx : CallOK ok s.env (upd s.mem a (store (s.mem a) g)) (s.p.pc t) x) :
    DInv u m ok { s with mem := upd s.mem a (store (s.mem a) g), thr := setAt s.thr t x } d' := by
  obtain ⟨hT, hok, hpc, hsafe⟩ := hI.running ht ho
  obtain ⟨hinv, hev, -⟩ := step_good hT.kind.ok hT.inv hpc hsafe
  have hmk := hT.marks.step hpc
  have hst1 : (step (s.env a) op pc (published (s.mem a))).1 = g := by rw [hst]
  rw [hst] at hinv hev hmk
  have hT' : TabOK m (s.env a) (store (s.mem a) g) d' :=
    ⟨hT.kind, by rw [published_store]; exact hinv, by rw [published_store]; exact hmk,
      by rw [published_store]; exact hd, fun q hq => store_full _ (hT.full q hq)⟩
  refine ⟨hI.sinv, ?_, fun t' => ?_⟩
  · have hso := hI.sinv.stage_objs
    have hs' := hI.stage
    rcases hI.sinv.op_stage ho with h | ⟨b, h⟩
    · show StageOK _ _ _ _ s.p.stage
      rw [h] at hs' ⊢
      exact ⟨by simp only [upd_self]; exact hT', hs'.2⟩
    · show StageOK _ _ _ _ s.p.stage
      rw [h] at hs' hso ⊢
      obtain ⟨-, h2, h3, h4, h5, h6, h7⟩ := hs'
      refine ⟨by simp only [upd_self]; exact hT', h2, h3, h4, ?_, h6, h7⟩
      simp only [upd_ne _ _ (Ne.symm hso.1)]
      exact h5
  · by_cases htt : t' = t
    · subst htt
      simp only [setAt_same]
      exact hx
    · simp only [setAt_other htt]
      have hc := hI.call t'
      cases hb : s.thr t' with
      | busy op2 pc2 =>
        rw [hb] at hc
        obtain ⟨h1, a2, h2, h3, h4⟩ := hc
        have : a2 = a := by
          rcases hI.sinv.op_stage ho with h | ⟨b, h⟩ <;>
            rcases hI.sinv.op_stage h2 with h' | ⟨b', h'⟩ <;> rw [h] at h' <;> cases h' <;> rfl
        subst this
        refine ⟨h1, a2, h2, ?_, ?_⟩ <;> simp only [upd_self, published_store]
        · exact h3.evolve hev
        · have := safe_stable (E := s.env a2) (by rw [hT.kind.slots]; exact hmix) h1 hok h4 hpc
          rw [hst1] at this
          exact this
      | _ => rw [hb] at hc; exact hc

/-- What the handle answers is what the ideal map answers. -/
theorem answer_good {op : Op K V} {r : Ret K V} {x : SRes V} (hr : r.code ∈ codesOf op)
    (hx : answer op r = some x) {y : SRes V} (ha : Agrees op r y) : AgreesG op x y := by
  obtain ⟨h1, h2⟩ := ha
  have hok : x.ok = r.ok op ∧ x.shown = r.shown := by
    obtain ⟨code, it⟩ := r
    cases op <;> simp only [codesOf, List.mem_cons, List.not_mem_nil, or_false] at hr
    all_goals
      first
        | (rcases hr with rfl | rfl | rfl | rfl | rfl)
        | (rcases hr with rfl | rfl | rfl | rfl)
        | (rcases hr with rfl | rfl | rfl)
        | subst hr
    all_goals
      simp [answer, react, switchInsert, switchUpdate, switchBackoff, switchInsertOrUpdate,
        switchErase] at hx
    all_goals
      subst hx
      simp [Ret.ok, ReturnCode.successful, ReturnCode.toNat, Ret.shown]
  refine ⟨hok.1.trans h1, ?_⟩
  rw [hok.1, hok.2]
  exact h2

/-- The last step of an operation, if it gives an answer. -/
theorem DInv.linStep (hI : DInv u m ok s d) {t : T} {a : A} {op : Op K V} {pc : Growt.PC K V}
    (ht : s.thr t = .busy op pc) (ho : (s.p.pc t).operates = some a)
    {g : Tbl K V} {r : Ret K V} (hst : step (s.env a) op pc (published (s.mem a)) = (g, .done r))
    {x : SRes V} (hx : answer op r = some x) :
    ∃ d', Stores (s.env a) g d' ∧ (growObj m).legal d op x d' := by
  obtain ⟨hT, hok, hpc, hsafe⟩ := hI.running ht ho
  obtain ⟨-, -, hdone⟩ := step_good hT.kind.ok hT.inv hpc hsafe
  have hcode := step_code hst
  rw [hst] at hdone
  cases hdone with
  | invalid hr' ht' hm => obtain ⟨p, _, hp⟩ := hm; rw [hT.marks p] at hp; cases hp
  | refused c hc hr' ht' habs =>
    simp only at ht'
    refine ⟨d, by rw [ht']; exact hT.stores, .inr ?_⟩
    subst hr'
    cases op <;> simp [Op.mayRefuse] at hc
    all_goals first
      | (subst hc; simp [answer, react, switchInsert, switchInsertOrUpdate] at hx; done)
      | skip
    obtain ⟨rfl, n, hn⟩ := hc
    simp [answer, react, switchBackoff, ReturnCode.successful, ReturnCode.toNat, Ret.shown] at hx
    exact ⟨⟨_, _, _, n, rfl, hn⟩, hx.symm, rfl⟩
  | effect h =>
    obtain ⟨h1, h2⟩ := h d hT.stores
    rw [hT.kind.slots] at h1 h2
    exact ⟨_, h1, .inl ⟨rfl, answer_good hcode hx h2⟩⟩

/-- The last step of an operation, if it has to be tried again: nothing has happened. -/
theorem DInv.againStep (hI : DInv u m ok s d) {t : T} {a : A} {op : Op K V} {pc : Growt.PC K V}
    (ht : s.thr t = .busy op pc) (ho : (s.p.pc t).operates = some a)
    {g : Tbl K V} {r : Ret K V} (hst : step (s.env a) op pc (published (s.mem a)) = (g, .done r))
    {x : Exit} (hx : retryAs op r = some x) : Stores (s.env a) g d := by
  obtain ⟨hT, hok, hpc, hsafe⟩ := hI.running ht ho
  have hcode := step_code hst
  have hc : r.code = some .UNSUCCESS_FULL ∨ r.code = some .UNSUCCESS_INVALID := by
    obtain ⟨code, it⟩ := r
    cases op <;> simp only [codesOf, List.mem_cons, List.not_mem_nil, or_false] at hcode
    all_goals
      first
        | (rcases hcode with rfl | rfl | rfl | rfl | rfl)
        | (rcases hcode with rfl | rfl | rfl | rfl)
        | (rcases hcode with rfl | rfl | rfl)
        | subst hcode
    all_goals
      simp [retryAs, react, switchInsert, switchUpdate, switchBackoff, switchInsertOrUpdate,
        switchErase] at hx ⊢
  rcases hc with hc | hc
  · obtain ⟨e1, -⟩ := step_full hT.kind.ok hT.inv hpc hst hc
    rw [e1]; exact hT.stores
  · obtain ⟨p, -, hp⟩ := step_invalid hst hc
    rw [hT.marks p] at hp; cases hp


theorem upd_frame {X : Type} (f : PC A → X) {q : T → PC A} {t : T} {p : PC A} (h : f p = f (q t)) (t' : T) :
    f (upd q t p t') = f (q t') := by
  unfold upd
  split
  · subst t'; exact h
  · rfl

/-- Steps that change only the protocol state, and there nothing that concerns the tables. -/
theorem DInv.plain (hI : DInv u m ok s d) {p' : St T A} (hS : SInv p')
    (hb : ∀ t, (p'.pc t).block = (s.p.pc t).block)
    (ho : ∀ t, (p'.pc t).operates = (s.p.pc t).operates)
    (hg : p'.stage = s.p.stage)
    (hc : ∀ a, (match s.p.stage with
      | .broken => False
      | .solo a' => a = a'
      | .pair a' b' => a = a' ∨ a = b'
      | .mig a' b' => a = a' ∨ a = b') → p'.cnt a = s.p.cnt a) :
    DInv u m ok { s with p := p' } d := by
  refine ⟨hS, ?_, fun t => (hI.call t).frame (ho t) fun _ _ => ⟨rfl, rfl⟩⟩
  show StageOK _ _ _ _ p'.stage
  rw [hg]
  exact hI.stage.frame (th := s.thr) hb hc

theorem DInv.quietStep (hI : DInv u m ok s d) {p' : St T A} (hs : Step false s.p .tau p')
    (hw : DSt.Within { s with p := p' }) : DInv u m ok { s with p := p' } d := by
  obtain ⟨hb, ho, hc, hg⟩ := tau_frame hI.sinv hs
  have hS := step_inv hI.sinv hs
  rcases hg with hg | ⟨a, b, hg, hg'⟩
  · exact hI.plain hS hb ho hg fun a _ => hc a
  · have hst := hI.stage
    rw [hg] at hst
    have hv := view_init hI.sinv hg hst
    obtain ⟨hT, h2, h3, h4, h5, h6, h7⟩ := hst
    obtain ⟨hsm, hroom⟩ := hw a b (.inr hg')
    refine ⟨hS, ?_, fun t => (hI.call t).frame (ho t) fun _ _ => ⟨rfl, rfl⟩⟩
    show StageOK _ _ _ _ p'.stage
    rw [hg']
    refine ⟨hT.kind, by rw [hc a]; exact h2, h3, by rw [hc b]; exact h4, hsm, published (s.mem a),
      hT.inv, hT.marks, hT.stores, hroom, ?_⟩
    have : DSt.view { s with p := p' } a b = s.view a b := by
      unfold DSt.view
      simp only [hc a, hb]
    rw [this, hv]
    exact .init

theorem DInv.enterStep (hI : DInv u m ok s d) {p' : St T A} {t : T} {a : A}
    (hs : Step false s.p (.enter t a) p') {x : UThr K V}
    (hx : (x = s.thr t ∧ ∀ op, s.thr t ≠ .pend op) ∨
      ∃ op, s.thr t = .pend op ∧ x = .busy op (start (s.env a) op)) :
    DInv u m ok { s with p := p', thr := setAt s.thr t x } d := by
  have hS := step_inv hI.sinv hs
  cases hs with
  | @gtSame _ h _ o hp ht ho =>
    refine ⟨hS, ?_, fun t' => ?_⟩
    · exact hI.stage.frame (th := setAt s.thr t x) (upd_frame PC.block (by rw [hp]; rfl)) fun _ _ => rfl
    · by_cases htt : t' = t
      · subst htt
        simp only [setAt_same]
        have hc := hI.call t'
        rcases hx with ⟨rfl, hx⟩ | ⟨op, hx, rfl⟩
        · cases hb : s.thr t' with
          | busy op pc =>
            rw [hb, hp] at hc
            obtain ⟨-, a', h2, -⟩ := hc
            cases h2
          | pend op => exact absurd hb (hx op)
          | _ => rw [hb] at hc; exact hc
        · rw [hx] at hc
          refine ⟨hc, a, ?_, PcInv.start _ _ op, by intro a b c h; simp [start] at h⟩
          simp only [St.at, upd_self]; rfl
      · simp only [setAt_other htt]
        refine (hI.call t').frame ?_ fun _ _ => ⟨rfl, rfl⟩
        show (upd s.p.pc t _ t').operates = _
        rw [upd_ne _ _ htt]

theorem DInv.exitStep (hI : DInv u m ok s d) {p' : St T A} {t : T} {a : A} {x : Exit}
    (hs : Step false s.p (.exit t a x) p') {y : UThr K V} (hy : ∀ env mem p, CallOK (A := A) ok env mem p y) :
    DInv u m ok { s with p := p', thr := setAt s.thr t y } d := by
  have hS := step_inv hI.sinv hs
  cases hs with
  | @opEnd _ h _ v hp _ =>
    have hn : ∀ x, (Exit.next (A := A) h v x).block = none := by
      intro x; unfold Exit.next; split <;> (try split) <;> rfl
    refine ⟨hS, ?_, fun t' => ?_⟩
    · exact hI.stage.frame (th := setAt s.thr t y) (upd_frame PC.block (by rw [hp, hn]; rfl))
        fun _ _ => rfl
    · by_cases htt : t' = t
      · subst htt
        simp only [setAt_same]
        exact hy _ _ _
      · simp only [setAt_other htt]
        refine (hI.call t').frame ?_ fun _ _ => ⟨rfl, rfl⟩
        show (upd s.p.pc t _ t').operates = _
        rw [upd_ne _ _ htt]


theorem DInv.makeStep (hI : DInv u m ok s d) {p' : St T A} {t : T} {a b : A} {o : Obj A} {i n : Nat}
    (hs : Step false s.p (.make t a b) p') (ho : p'.heap b = some o)
    (hn : o.blocks = blocksOf ((s.env a).M.resize i n)) :
    DInv u m ok { s with
        p := p'
        env := Sync.upd s.env b { s.env a with M := (s.env a).M.resize i n }
        mem := Sync.upd s.mem b (freshTarget { s.env a with M := (s.env a).M.resize i n })
        torn := false
        jobs := fun _ => none } d := by
  have hS := step_inv hI.sinv hs
  cases hs with
  | @grMake _ h _ _ v o' n' hp ho' hb =>
    have hc := hI.sinv.core t
    rw [hp] at hc
    have hst : s.p.stage = .solo a := by
      simp only [St.stage]; rw [show s.p.phase = _ from hc]
    have hab : a ≠ b := by intro e; rw [e, hb] at ho'; cases ho'
    have hs' := hI.stage
    rw [hst] at hs'
    obtain ⟨hT, h2⟩ := hs'
    simp only [upd_self] at ho
    cases ho
    refine ⟨hS, ?_, fun t' => ?_⟩
    · show StageOK _ _ _ _ (.pair a b)
      refine ⟨?_, ?_, ?_, ?_, ?_, rfl, rfl⟩
      · simp only [upd_ne _ _ hab]; exact hT
      · simp only [upd_ne _ _ hab, St.cnt] at h2 ⊢; exact h2
      · simp only [upd_ne _ _ hab, upd_self]; exact ⟨rfl, rfl, i, n, rfl⟩
      · simp only [upd_self, St.cnt]; exact hn
      · simp only [upd_self]
    · refine (hI.call t').frame (upd_frame PC.operates (by rw [hp]; rfl) t') fun a' ha' => ?_
      have : a' = a := by
        rcases hI.sinv.op_stage ha' with h | ⟨b', h⟩ <;> rw [hst] at h <;> cases h
        rfl
      subst this
      simp only [upd_ne _ _ hab]
      exact ⟨trivial, trivial⟩

theorem view_quiet {s' : DSt T A K V} {a b : A} {x : MSt T K V} {G : MEnv K} {t0 : Tbl K V}
    (hq : MQuiet G t0 x) (h1 : x.mem = ⟨published (s'.mem a), s'.mem b, s'.torn⟩)
    (h2 : x.next = (s'.p.cnt a).1 * blockSize)
    (h3 : ∀ t, x.thr t = match (s'.p.pc t).block with
      | some k => .work (k * blockSize)
      | none => .claim)
    (h4 : x.jobs = s'.jobs) : MQuiet G t0 (s'.view a b) := by
  obtain ⟨mem, next, thr, jobs⟩ := x
  simp only at h1 h2 h3 h4
  subst h1 h2 h4
  have : thr = fun t => match (s'.p.pc t).block with
      | some k => .work (k * blockSize)
      | none => .claim := funext h3
  subst this
  exact hq

/-- Steps of the migration. -/
theorem DInv.migStep (hI : DInv u m ok s d) {a b : A} (hst : s.p.stage = .mig a b) {s' : DSt T A K V}
    (hS : SInv s'.p) (hst' : s'.p.stage = .mig a b) (henv : s'.env = s.env)
    (hthr : s'.thr = s.thr) (hc1 : (s'.p.cnt a).2 = (s.p.cnt a).2)
    (hc2 : (s'.p.cnt b).2 = (s.p.cnt b).2)
    (ho : ∀ t, (s'.p.pc t).operates = (s.p.pc t).operates)
    (hq : ∀ t0, MQuiet ⟨s.env a, s.env b, u⟩ t0 (s.view a b) →
      MQuiet ⟨s.env a, s.env b, u⟩ t0 (s'.view a b)) : DInv u m ok s' d := by
  have hs := hI.stage
  rw [hst] at hs
  obtain ⟨h1, h2, h3, h4, h5, t0, h6, h7, h8, h9, h10⟩ := hs
  refine ⟨hS, ?_, fun t => ?_⟩
  · rw [hst']
    simp only [StageOK]
    rw [henv, hc1, hc2]
    exact ⟨h1, h2, h3, h4, h5, t0, h6, h7, h8, h9, hq t0 h10⟩
  · rw [hthr]
    refine (hI.call t).frame (ho t) fun a' ha' => ?_
    rcases hI.sinv.op_stage ha' with h | ⟨b', h⟩ <;> rw [hst] at h <;> cases h

theorem DInv.claimStep (hI : DInv u m ok s d) {p' : St T A} {t : T} {a b : A} {o : Obj A}
    (hs : Step false s.p (.claim t a b) p') (ho : s.p.heap a = some o) :
    DInv u m ok { s with
        p := p'
        jobs := upd1 s.jobs (o.claimed * blockSize) (some (jobStart ⟨s.env a, s.env b, u⟩
          (o.claimed * blockSize) (blockEnd (s.env a).M.addr (o.claimed * blockSize)))) } d := by
  have hS := step_inv hI.sinv hs
  cases hs with
  | @mgClaim _ h c _ _ v o' hp ho' hv hlt =>
    rw [ho] at ho'
    cases ho'
    have hc := hI.sinv.core t
    rw [hp] at hc
    obtain ⟨-, hnx, -⟩ := hc
    have hnext := hnx o ho hv
    obtain ⟨v', b', hph⟩ := hI.sinv.heap a o ho (by rw [hnext]; simp) hlt
    have hst : s.p.stage = .mig a b' := by simp only [St.stage, hph]
    have hobj := hI.sinv.stage_objs
    rw [hst] at hobj
    obtain ⟨hne, ⟨o1, ho1, hn1⟩, -⟩ := hobj
    rw [ho] at ho1
    cases ho1
    rw [hnext] at hn1
    cases hn1
    have hst2 : StageOK u m s d (.mig a b) := hst ▸ hI.stage
    obtain ⟨hk, hbl, -⟩ := hst2
    have hcnt : (s.p.cnt a) = (o.claimed, o.blocks) := by simp only [St.cnt, ho]
    rw [hcnt] at hbl
    simp only at hbl
    have hlt' : o.claimed * blockSize < (s.env a).M.addr := (blocks_iff _ _).1 (hbl ▸ hlt)
    refine hI.migStep hst hS ?_ rfl rfl ?_ ?_ (upd_frame PC.operates (by rw [hp]; rfl)) ?_
    · show St.stage _ = _
      simp only [St.stage, St.at, hph]
    · simp only [St.cnt, upd_self, ho]
    · simp only [St.cnt, upd_ne _ _ (Ne.symm hne)]
    · intro t0 hq
      have hthr : (s.view a b).thr t = .claim := by
        simp only [DSt.view, hp, PC.block]
      have hnx' : (s.view a b).next = o.claimed * blockSize := by
        simp only [DSt.view, hcnt]
      have hm : MStep ⟨s.env a, s.env b, u⟩ (s.view a b) _ :=
        .claim hthr (by rw [hnx']; exact hlt')
      have := MQuiet.step hq hm fun _ => rfl
      rw [hnx'] at this
      refine view_quiet this rfl ?_ ?_ rfl
      · simp only [St.cnt, upd_self, Nat.add_mul, Nat.one_mul]
      · intro t'
        by_cases htt : t' = t
        · subst htt; simp only [upd1_self, upd_self, St.at, PC.block]
        · simp only [upd1_ne htt, upd_ne _ _ htt, St.at, DSt.view]


theorem upd1_upd1 {X Y : Type} [DecidableEq X] (f : X → Y) (x : X) (y z : Y) :
    upd1 (upd1 f x y) x z = upd1 f x z := by
  funext w; unfold upd1; split <;> rfl

theorem upd1_id {X Y : Type} [DecidableEq X] (f : X → Y) (x : X) (y : Y) (h : f x = y) :
    upd1 f x y = f := by
  funext w; unfold upd1; split
  · subst w; exact h.symm
  · rfl

theorem DInv.leaveStep (hI : DInv u m ok s d) {p' : St T A} {t : T} {a b : A}
    (hs : Step false s.p (.leave t a b) p') : DInv u m ok { s with p := p' } d := by
  have hS := step_inv hI.sinv hs
  cases hs with
  | @mgLeave _ h c _ _ v o hp ho hv hge =>
    have hc := hI.sinv.core t
    rw [hp] at hc
    obtain ⟨-, hnx, -⟩ := hc
    have hnext := hnx o ho hv
    have hobj := hI.sinv.stage_objs
    have hkeep : ∀ a', a' ≠ a → St.cnt { s.p.at t (.mg6 h c a v b) with
        heap := upd s.p.heap a (some { o with claimed := o.claimed + 1 }) } a' = s.p.cnt a' := by
      intro a' hne
      simp only [St.cnt, upd_ne _ _ hne]
    have hb : ∀ t', (upd s.p.pc t (.mg6 h c a v b) t').block = (s.p.pc t').block :=
      upd_frame PC.block (by rw [hp]; rfl)
    have ho' : ∀ t', (upd s.p.pc t (.mg6 h c a v b) t').operates = (s.p.pc t').operates :=
      upd_frame PC.operates (by rw [hp]; rfl)
    have hfr : ∀ a' o', s.p.heap a' = some o' → o'.fresh → a' ≠ a := by
      intro a' o' h1 h2 he
      rw [he, ho] at h1
      cases h1
      rw [h2.1] at hnext; cases hnext
    cases hst : s.p.stage with
    | broken => rw [hst] at hobj; exact hobj.elim
    | solo a1 =>
      rw [hst] at hobj
      obtain ⟨o1, h1, h2⟩ := hobj
      refine hI.plain hS hb ho' rfl ?_
      rw [hst]
      rintro a' rfl
      exact hkeep _ (hfr _ _ h1 h2)
    | pair a1 b1 =>
      rw [hst] at hobj
      obtain ⟨hne, ⟨o1, h1, h2⟩, o2, h3, h4⟩ := hobj
      refine hI.plain hS hb ho' rfl ?_
      rw [hst]
      rintro a' (rfl | rfl)
      · exact hkeep _ (hfr _ _ h1 h2)
      · exact hkeep _ (hfr _ _ h3 h4)
    | mig a1 b1 =>
      rw [hst] at hobj
      obtain ⟨hne, ⟨o1, h1, h2⟩, o2, h3, h4⟩ := hobj
      by_cases hc : a1 = a
      · subst hc
        rw [ho] at h1
        cases h1
        rw [hnext] at h2
        cases h2
        have hst2 : StageOK u m s d (.mig a1 b) := hst ▸ hI.stage
        obtain ⟨hk, hbl, -⟩ := hst2
        have hcnt : (s.p.cnt a1) = (o.claimed, o.blocks) := by simp only [St.cnt, ho]
        rw [hcnt] at hbl
        simp only at hbl
        have hge' : ¬ o.claimed * blockSize < (s.env a1).M.addr :=
          fun h => hge (hbl ▸ (blocks_iff _ _).2 h)
        refine hI.migStep hst hS ?_ rfl rfl ?_ ?_ ho' ?_
        · exact hst
        · simp only [St.cnt, upd_self, ho]
        · simp only [St.cnt, upd_ne _ _ (Ne.symm hne)]
        · intro t0 hq
          have hthr : (s.view a1 b).thr t = .claim := by
            simp only [DSt.view, hp, PC.block]
          have hnx' : (s.view a1 b).next = o.claimed * blockSize := by
            simp only [DSt.view, hcnt]
          have hm : MStep ⟨s.env a1, s.env b, u⟩ (s.view a1 b) _ :=
            .leave hthr (by rw [hnx']; exact Nat.le_of_not_lt hge')
          have hq1 := MQuiet.step hq hm fun _ => rfl
          have hm2 : MStep ⟨s.env a1, s.env b, u⟩ _ _ := .enter (i := t) (s := ⟨(s.view a1 b).mem,
            (s.view a1 b).next + blockSize, upd1 (s.view a1 b).thr t .left, (s.view a1 b).jobs⟩)
            (by simp only [upd1_self])
          have hq2 := MQuiet.step hq1 hm2 fun _ => rfl
          simp only [upd1_upd1, upd1_id _ _ _ hthr, hnx'] at hq2
          refine view_quiet hq2 rfl ?_ ?_ rfl
          · simp only [St.cnt, upd_self, Nat.add_mul, Nat.one_mul]
          · intro t'
            simp only [DSt.view, hb, St.at]
      · refine hI.plain hS hb ho' rfl ?_
        rw [hst]
        rintro a' (rfl | rfl)
        · exact hkeep _ hc
        · exact hkeep _ (hfr _ _ h3 h4)

theorem DInv.workStep (hI : DInv u m ok s d) {p' : St T A} {t : T} {a b : A} {k : Nat}
    {pc pc' : JobPC K V} {mm : MMem K V} (hs : Step false s.p (.work t a b) p')
    (hk : (s.p.pc t).block = some k) (hj : s.jobs (k * blockSize) = some pc) (he : pc.ended = false)
    (hst : jobStep ⟨s.env a, s.env b, u⟩ (blockEnd (s.env a).M.addr (k * blockSize)) pc
      ⟨published (s.mem a), s.mem b, s.torn⟩ = (mm, .cont pc')) :
    DInv u m ok { s with
        p := p'
        mem := Sync.upd (Sync.upd s.mem a (store (s.mem a) mm.src)) b mm.tgt
        torn := mm.torn
        jobs := upd1 s.jobs (k * blockSize) (some pc') } d := by
  have hS := step_inv hI.sinv hs
  cases hs with
  | @mgWork _ h c _ _ v k' o o' hp ho hv ho' hv' =>
    rw [hp] at hk
    cases hk
    have hstage := hI.sinv.block_stage hp
    have hobj := hI.sinv.stage_objs
    rw [hstage] at hobj
    have hne := hobj.1
    refine hI.migStep hstage hS hstage rfl rfl rfl rfl (fun _ => rfl) ?_
    intro t0 hq
    have hthr : (s.view a b).thr t = .work (k * blockSize) := by
      simp only [DSt.view, hp, PC.block]
    have hm : MStep ⟨s.env a, s.env b, u⟩ (s.view a b) _ := .work hthr hj he hst
    obtain ⟨-, -, hfr⟩ := hq.good
    obtain ⟨-, hsame, -⟩ := jobStep_quiet (hfr _ _ hj) hst
    have hq' := MQuiet.step hq hm hsame
    refine view_quiet hq' ?_ rfl (fun _ => rfl) rfl
    simp only [upd_ne _ _ hne, upd_self, published_store]

theorem DInv.doneStep (hI : DInv u m ok s d) {p' : St T A} {t : T} {a b : A} {k : Nat}
    {pc : JobPC K V} (hs : Step false s.p (.done t a b) p')
    (hk : (s.p.pc t).block = some k) (hj : s.jobs (k * blockSize) = some pc) (he : pc.ended = true) :
    DInv u m ok { s with p := p' } d := by
  have hS := step_inv hI.sinv hs
  cases hs with
  | @mgDone _ h c _ _ v k' hp =>
    rw [hp] at hk
    cases hk
    have hstage := hI.sinv.block_stage hp
    refine hI.migStep hstage hS hstage rfl rfl rfl rfl (upd_frame PC.operates (by rw [hp]; rfl)) ?_
    intro t0 hq
    have hthr : (s.view a b).thr t = .work (k * blockSize) := by
      simp only [DSt.view, hp, PC.block]
    have hm : MStep ⟨s.env a, s.env b, u⟩ (s.view a b) _ := .ret hthr hj he
    have hq' := MQuiet.step hq hm fun _ => rfl
    refine view_quiet hq' rfl rfl ?_ rfl
    intro t'
    by_cases htt : t' = t
    · subst htt; simp only [upd1_self, upd_self, St.at, PC.block]
    · simp only [upd1_ne htt, upd_ne _ _ htt, St.at, DSt.view]

theorem DInv.publishStep (hI : DInv u m ok s d) {p' : St T A} {t : T} {a b : A}
    (hs : Step false s.p (.publish t a b) p') : DInv u m ok { s with p := p' } d := by
  have hS := step_inv hI.sinv hs
  cases hs with
  | @grPublish _ h _ _ v hp =>
    have hc := hI.sinv.core t
    rw [hp] at hc
    have hph : s.p.phase = .empty a v b := hc
    have hstage : s.p.stage = .mig a b := by simp only [St.stage, hph]
    have hg := hI.sinv.glob
    simp only [Glob, hph] at hg
    obtain ⟨-, -, hne, ⟨o, ho, -, -, hge⟩, -⟩ := hg
    have hst2 : StageOK u m s d (.mig a b) := hstage ▸ hI.stage
    obtain ⟨hk, hbl, hsucc, hbl', hsm, t0, h6, h7, h8, h9, hq⟩ := hst2
    have hcnt : (s.p.cnt a) = (o.claimed, o.blocks) := by simp only [St.cnt, ho]
    rw [hcnt] at hbl
    simp only at hbl
    have hfin : (s.view a b).finished ⟨s.env a, s.env b, u⟩ := by
      constructor
      · show (s.env a).M.addr ≤ (s.p.cnt a).1 * blockSize
        rw [hcnt]
        exact Nat.le_of_not_lt fun h => Nat.lt_irrefl _
          (Nat.lt_of_lt_of_le (hbl ▸ (blocks_iff _ _).2 h) hge)
      · intro i n
        simp only [DSt.view]
        cases hb : (s.p.pc i).block with
        | none => simp
        | some k =>
          exfalso
          cases hpi : s.p.pc i <;> rw [hpi] at hb <;> simp only [PC.block] at hb <;> try cases hb
          have := hI.sinv.core i
          rw [hpi] at this
          simp only [Core, St.migOK, hph] at this
          exact this.1
    have hG := hsucc.menv hk hsm u
    obtain ⟨htorn, hsame, -⟩ := hq.good
    have hr' : HasRoom (s.env a) (s.view a b).mem.src := fun h => by
      obtain ⟨p, hp, he⟩ := h9 h
      exact ⟨p, hp, by rw [hsame p]; exact he⟩
    obtain ⟨-, e2, e3, e4, -, e6, -, -⟩ := migration_end hG h6 h7 hq.reach htorn hfin hr'
    have hst' : Stores (s.env a) (s.view a b).mem.src d := fun key v => by
      rw [h8 key v]
      constructor <;> rintro ⟨i, hi, h⟩ <;> exact ⟨i, hi, by rw [← h, hsame i]⟩
    refine ⟨hS, ?_, fun t' => ?_⟩
    · exact ⟨⟨hsucc.kind hk hsm, e3, e4, e6 d hst', e2⟩, hbl'⟩
    · exact (hI.call t').frame (upd_frame PC.operates (by rw [hp]; rfl) t') fun _ _ => ⟨rfl, rfl⟩

theorem DInv.freeStep (hI : DInv u m ok s d) {p' : St T A} {t : T} {a : A}
    (hs : Step false s.p (.free t a) p') : DInv u m ok { s with p := p' } d := by
  have hS := step_inv hI.sinv hs
  cases hs with
  | @grDelete _ h _ v hp =>
    have hc := hI.sinv.core t
    rw [hp] at hc
    obtain ⟨⟨o, ho, -, hold⟩, -, -, hph⟩ := hc
    have hobj := hI.sinv.stage_objs
    have hkeep : ∀ a', a' ≠ a → St.cnt { s.p.at t (.idle h) with
        heap := upd s.p.heap a none } a' = s.p.cnt a' := by
      intro a' hne
      simp only [St.cnt, upd_ne _ _ hne]
    have hfr : ∀ a' o', s.p.heap a' = some o' → o'.fresh → a' ≠ a := by
      intro a' o' h1 h2 he
      rw [he, ho] at h1
      cases h1
      exact hold.1 h2.1
    refine hI.plain hS (upd_frame PC.block (by rw [hp]; rfl))
      (upd_frame PC.operates (by rw [hp]; rfl)) rfl ?_
    cases hst : s.p.stage with
    | broken => rw [hst] at hobj; exact hobj.elim
    | solo a1 =>
      rw [hst] at hobj
      obtain ⟨o1, h1, h2⟩ := hobj
      rintro a' rfl
      exact hkeep _ (hfr _ _ h1 h2)
    | pair a1 b1 =>
      rw [hst] at hobj
      obtain ⟨hne, ⟨o1, h1, h2⟩, o2, h3, h4⟩ := hobj
      rintro a' (rfl | rfl)
      · exact hkeep _ (hfr _ _ h1 h2)
      · exact hkeep _ (hfr _ _ h3 h4)
    | mig a1 b1 =>
      rw [hst] at hobj
      obtain ⟨hne, ⟨o1, h1, h2⟩, o2, h3, h4⟩ := hobj
      rintro a' (rfl | rfl)
      · refine hkeep _ fun e => hph ?_
        subst e
        unfold St.stage at hst
        cases hpp : s.p.phase <;> simp only [hpp] at hst <;> (try cases hst) <;>
          (try rfl) <;> (split at hst <;> cases hst)
      · exact hkeep _ (hfr _ _ h3 h4)

/-- Every step keeps the invariant; the stored dictionary changes only when a call takes effect,
and then as specified. -/
theorem DInv.next (hmix : Mix m ok) (hI : DInv u m ok s d) {s' : DSt T A K V}
    {e : Option (Ev T (Op K V) (SRes V))} (hs : DStep u ok s e s') (hw : s'.Within) :
    ∃ d', DInv u m ok s' d' ∧
      match e with
      | some (.lin _ op x) => (growObj m).legal d op x d'
      | _ => d' = d := by
  cases hs with
  | @call t h op hp ht ho =>
    refine ⟨d, ⟨hI.sinv, ?_, fun t' => ?_⟩, rfl⟩
    · exact hI.stage.frame (th := setAt s.thr t (.pend op)) (fun _ => rfl) fun _ _ => rfl
    · by_cases htt : t' = t
      · subst htt; simp only [setAt_same]; exact ho
      · simp only [setAt_other htt]; exact hI.call t'
  | @ret t h op x hp ht =>
    refine ⟨d, ⟨hI.sinv, ?_, fun t' => ?_⟩, rfl⟩
    · exact hI.stage.frame (th := setAt s.thr t .idle) (fun _ => rfl) fun _ _ => rfl
    · by_cases htt : t' = t
      · subst htt; simp only [setAt_same]; trivial
      · simp only [setAt_other htt]; exact hI.call t'
  | quiet hs => exact ⟨d, hI.quietStep hs hw, rfl⟩
  | enter hs ht => exact ⟨d, hI.enterStep hs (.inr ⟨_, ht, rfl⟩), rfl⟩
  | @visit p' t a hs ht =>
    have := hI.enterStep hs (.inl ⟨rfl, ht⟩)
    have he : setAt s.thr t (s.thr t) = s.thr := by
      funext t'; unfold setAt; split
      · subst t'; rfl
      · rfl
    rw [he] at this
    exact ⟨d, this, rfl⟩
  | @op p' t a op pc pc' g hs ht hst =>
    cases hs with
    | @opStep _ h _ v o hp ho hv =>
      have hop : (s.p.pc t).operates = some a := by rw [hp]; rfl
      obtain ⟨hT, hok, hpc, hsafe⟩ := hI.running ht hop
      obtain ⟨-, -, hcont⟩ := step_good hT.kind.ok hT.inv hpc hsafe
      rw [hst] at hcont
      obtain ⟨hg, hpc'⟩ := hcont
      simp only at hg
      have hsafe' := safe_after_load (E := s.env a) (by rw [hT.kind.slots]; exact hmix) hok (by rw [hg] at hst; exact hst)
      refine ⟨d, hI.opNext hmix ht hop hst (by rw [hg]; exact hT.stores) ⟨hok, a, hop, ?_, ?_⟩, rfl⟩
      · simp only [upd_self, published_store, hg]; exact hpc'
      · simp only [upd_self, published_store, hg]; exact hsafe'
  | @opLin p' t a op pc g r x hs ht hst hx =>
    cases hs with
    | @opStep _ h _ v o hp ho hv =>
      have hop : (s.p.pc t).operates = some a := by rw [hp]; rfl
      obtain ⟨d', h1, h2⟩ := hI.linStep ht hop hst hx
      exact ⟨d', hI.opNext hmix ht hop hst h1 trivial, h2⟩
  | @opAgain p' t a op pc g r x hs ht hst hx =>
    cases hs with
    | @opStep _ h _ v o hp ho hv =>
      have hop : (s.p.pc t).operates = some a := by rw [hp]; rfl
      have h1 := hI.againStep ht hop hst hx
      have hok := (hI.running ht hop).2.1
      exact ⟨d, hI.opNext hmix ht hop hst h1 hok, rfl⟩
  | @exitAgain p' t a op x hs ht =>
    have hc := hI.call t
    rw [ht] at hc
    exact ⟨d, hI.exitStep hs (y := .pend op) (fun _ _ _ => hc), rfl⟩
  | @exit p' t a x hs ht hx =>
    have := hI.exitStep hs (y := s.thr t) (by
      intro _ _ _
      rcases ht with h | ⟨_, _, h⟩ <;> rw [h] <;> trivial)
    have he : setAt s.thr t (s.thr t) = s.thr := by
      funext t'; unfold setAt; split
      · subst t'; rfl
      · rfl
    rw [he] at this
    exact ⟨d, this, rfl⟩
  | make i n hs ho hn => exact ⟨d, hI.makeStep hs ho hn, rfl⟩
  | claim hs ho => exact ⟨d, hI.claimStep hs ho, rfl⟩
  | leave hs => exact ⟨d, hI.leaveStep hs, rfl⟩
  | work hs hk hj he hst => exact ⟨d, hI.workStep hs hk hj he hst, rfl⟩
  | done hs hk hj he => exact ⟨d, hI.doneStep hs hk hj he, rfl⟩
  | publish hs => exact ⟨d, hI.publishStep hs, rfl⟩
  | free hs => exact ⟨d, hI.freeStep hs, rfl⟩

theorem DInv.init {E : Env K} (hk : Kind m E) (a : A) :
    DInv u m ok (DSt.init E a : DSt T A K V) (fun _ => none) := by
  have hp : published (fun q => if q < E.M.total then some Cell.emptyCell else none) =
      (emptyTbl : Tbl K V) := by
    funext q
    simp only [published]
    split <;> rfl
  have hp' : published ((DSt.init E a : DSt T A K V).mem a) = emptyTbl := hp
  refine ⟨SInv.init _ _, ?_, fun t => trivial⟩
  show StageOK _ _ _ _ (.solo a)
  refine ⟨⟨hk, ?_, ?_, ?_, ?_⟩, ?_⟩
  · show Inv E (published _)
    rw [hp']; exact Inv.emptyTbl E
  · show NoMarks (published _)
    rw [hp']; exact fun _ => rfl
  · show Stores E (published _) _
    rw [hp']; exact Stores.emptyTbl E
  · intro q hq
    have hq' : q < E.M.total := hq
    simp [DSt.init, hq']
  · simp [DSt.init, St.init, St.cnt, upd]

end

end
end Sync
end Growt
