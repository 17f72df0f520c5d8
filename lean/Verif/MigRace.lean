import Verif.MigReach

/-!
# Which slots of the new table the jobs of a migration access

The slots of the new table are plain memory: `initialize` and `insert_unsafe` read and write them without
synchronisation (`base_linear.hpp:1229-1293`, `simple_slot.hpp:325-330`).
-/

set_option linter.unusedSectionVars false

namespace Growt

/-- What a job does with a slot of the new table: set it to empty (`initialize`), load it or store an element
(`insert_unsafe`), `base_linear.hpp:1229-1293`. -/
inductive Access where
  | init
  | read
  | store
  deriving DecidableEq

section
variable {T K V : Type} [DecidableEq T] [DecidableEq K] [DecidableEq V] [Inhabited V]

/-- The slot of the new table that the next step of a job accesses (`base_linear.hpp:1144, 1177, 1284, 1288`). -/
def JobPC.access (G : MEnv K) : JobPC K V → Option (Nat × Access)
  | .fill _ (q :: _) _ _ => some (q, .init)
  | .probe _ _ _ u _ => some (G.tgt.M.remap u, .read)
  | .put _ _ _ u _ => some (G.tgt.M.remap u, .store)
  | _ => none

/-- Any number of steps. (specification, no code) -/
inductive MLater (G : MEnv K) (s : MSt T K V) : MSt T K V → Prop where
  | refl : MLater G s s
  | step {s1 s2 : MSt T K V} (h : MLater G s s1) (hs : MStep G s1 s2) : MLater G s s2

theorem MLater.reach {G : MEnv K} {t : Tbl K V} {s s' : MSt T K V} (h : MReach G t s) (hl : MLater G s s') :
    MReach G t s' := by
  induction hl with
  | refl => exact h
  | step _ hs ih => exact .step ih hs

/-- Job `b` has to do with slot `q` of the new table: it lies over the source index `j` that the job has reached;
if the slot takes part in an insertion, the source slot is not empty. (proof, no code) -/
def Cert (G : MEnv K) (k : Nat) (m : MMem K V) (jobs : Nat → Option (JobPC K V)) (b q : Nat) (a : Access) : Prop :=
  ∃ pc st cur ins j, jobs b = some pc ∧ pc.ext = some (st, cur, ins) ∧ st ≤ j ∧
    (G.src.M.cp = true ∨ j < G.src.M.total) ∧
    (∀ j', blockEnd (2 ^ k) b ≤ j' → j' < j → (m.src (G.src.M.remap j')).c ≠ .empty) ∧
    fiber G q = G.src.M.remap j ∧ (a ≠ .init → (m.src (G.src.M.remap j)).c ≠ .empty)

section
variable {G : MEnv K} {k g : Nat} (hS : Shape G k g)
include hS

/-- An access is certified. -/
theorem Core.cert {m : MMem K V} {jobs : Nat → Option (JobPC K V)} (h : Core G k m jobs) {b : Nat}
    {pc : JobPC K V} (hj : jobs b = some pc) {q : Nat} {a : Access} (ha : pc.access G = some (q, a)) :
    Cert G k m jobs b q a := by
  obtain ⟨hd, hb, hJ⟩ := h.job b pc hj
  have he := hS.blockEnd_le hb
  have insCase : ∀ st tail nxt u x, JCells G m.src b (blockEnd (2 ^ k) b) st nxt →
      pc.ext = some (st, nxt, nxt - 1) → G.tgt.M.remap u = q →
      (∃ i0 key v i d, InsInfo G m (blockEnd (2 ^ k) b) st tail nxt u x i0 key v i d) →
      Cert G k m jobs b q a := by
    intro st tail nxt u x hC hx hq ⟨i0, key, v, i, d, hi⟩
    obtain ⟨-, hsh, hmod, -, hfib, j, hj1, hj2, hj3⟩ := ins_facts hS h hd hb hC hi
    have hne : (m.src (G.src.M.remap i)).c ≠ .empty := by rw [hi.pos, hi.cell]; simp
    obtain ⟨hf1, -, hf3, hf4⟩ := hfib d (Nat.le_refl _)
    obtain ⟨-, hch⟩ := hS.chain h.inv hi.passed hne hf3
    refine ⟨pc, st, nxt, nxt - 1, j, hj, hx, hj1, hsh.cur_ok hS h.inv he hj2, ?_, ?_, fun _ => ?_⟩
    · intro j' h1 h2
      exact hC.tailne j' h1 (by have := hi.nxt; omega)
    · rw [← hq, hi.at_, hf1, hj3]
    · rw [← hj3]; exact hch _ (Nat.le_refl _) hf4
  cases pc with
  | scan => cases ha
  | scanMark => cases ha
  | load => cases ha
  | mark => cases ha
  | fin => cases ha
  | nothing => cases ha
  | fill st qs tail i =>
    cases qs with
    | nil => cases ha
    | cons q' qs =>
      cases ha
      obtain ⟨hC, hJ⟩ := hJ
      cases tail with
      | true =>
        simp only [if_true] at hJ
        obtain ⟨h1, -, h3, -⟩ := hJ
        obtain ⟨h4, h5⟩ := h3 q (List.mem_cons_self ..)
        exact ⟨_, st, i, i, i, hj, rfl, hC.le, (hC.shape hC.le (.inl (Nat.le_refl _))).cur_ok hS h.inv he
          (Nat.le_refl _), hC.tailne, h5, fun hc => absurd rfl hc⟩
      | false =>
        simp only [Bool.false_eq_true, if_false] at hJ
        obtain ⟨h1, h3, -⟩ := hJ
        obtain ⟨h4, h5, h6⟩ := h3 q (List.mem_cons_self ..)
        have hlt : fiber G q < G.src.M.total := hS.fiber_lt h4
        exact ⟨_, st, i, i, fiber G q, hj, rfl, h5, .inr hlt, (fun j' h7 h8 => by omega),
          (hS.remap_small hlt).symm, fun hc => absurd rfl hc⟩
  | probe st tail nxt u x =>
    cases ha
    obtain ⟨hC, -, hI⟩ := hJ
    exact insCase st tail nxt u x hC rfl rfl hI
  | put st tail nxt u x =>
    cases ha
    obtain ⟨hC, -, hI, -⟩ := hJ
    exact insCase st tail nxt u x hC rfl rfl hI

/-- Slots with which two jobs have to do lie over an empty source slot. -/
theorem Core.shared {m : MMem K V} {jobs : Nat → Option (JobPC K V)} (h : Core G k m jobs) {b b' q : Nat}
    {a a' : Access} (hc : Cert G k m jobs b q a) (hc' : Cert G k m jobs b' q a') (hbb : b ≠ b') :
    a = .init ∧ a' = .init ∧ (m.src (fiber G q)).c = .empty := by
  obtain ⟨pc, st, cur, ins, j, e1, e2, e3, e4, e5, e6, e7⟩ := hc
  obtain ⟨pc', st', cur', ins', j', f1, f2, f3, f4, f5, f6, f7⟩ := hc'
  obtain ⟨hd, hb, hJ⟩ := h.job b pc e1
  obtain ⟨hd', hb', hJ'⟩ := h.job b' pc' f1
  have hC := (hJ.cells e2).1
  have hC' := (hJ'.cells f2).1
  have hsh : JShape G m.src b (blockEnd (2 ^ k) b) st j := ⟨hC.lo, hC.hi, hC.pre, by
    rcases hC.head with ⟨x, -⟩ | x
    · exact .inl x
    · exact .inr x, e3, e5⟩
  have hsh' : JShape G m.src b' (blockEnd (2 ^ k) b') st' j' := ⟨hC'.lo, hC'.hi, hC'.pre, by
    rcases hC'.head with ⟨x, -⟩ | x
    · exact .inl x
    · exact .inr x, f3, f5⟩
  have hem : (m.src (fiber G q)).c = .empty := by
    refine Classical.byContradiction fun hne => hbb ?_
    have m1 := hS.remap_mod e4
    have m2 := hS.remap_mod f4
    refine (own2 hS h.inv hsh hsh' hd hb rfl hd' hb' rfl e3 (Nat.le_refl _) f3 (Nat.le_refl _)
      (Nat.le_refl j) m1.symm ?_ (Nat.le_refl j') m2.symm ?_ (by rw [← m1, ← m2, ← e6, ← f6])).1
    · intro x h1 h2
      have : x = j := by omega
      rw [this, ← m1, ← e6]; exact hne
    · intro x h1 h2
      have : x = j' := by omega
      rw [this, ← m2, ← f6]; exact hne
  refine ⟨?_, ?_, hem⟩
  · refine Classical.byContradiction fun hn => e7 hn ?_
    rw [← e6]; exact hem
  · refine Classical.byContradiction fun hn => f7 hn ?_
    rw [← f6]; exact hem

/-- Over an empty source slot no element is stored. -/
theorem Core.over_empty {m : MMem K V} {jobs : Nat → Option (JobPC K V)} (h : Core G k m jobs) {q : Nat}
    (he : (m.src (fiber G q)).c = .empty) : m.tgt q = none ∨ m.tgt q = some Cell.emptyCell := by
  cases hq : m.tgt q with
  | none => exact .inl rfl
  | some x =>
    refine .inr ?_
    have hxc : x.c = .empty := by
      refine Classical.byContradiction fun hne => ?_
      obtain ⟨-, key, v, -, b, pc, st, cur, ins, ic, d, i, hp⟩ := h.sound q x hq hne
      have hne2 : (m.src (G.src.M.remap i)).c ≠ .empty := by rw [hp.pos, hp.cell]; simp
      have hge : G.src.M.map (G.src.h key) ≤ fib G key d := by
        rw [← hS.fib_zero key]; exact hS.fib_mono key (Nat.zero_le d)
      obtain ⟨-, hch⟩ := hS.chain h.inv hp.passed hne2 hge
      have hin := hS.probe_in h.inv hp.passed hne2 hp.fib
      have hfp := hS.fiber_probe key d hin
      have : fiber G q = fib G key d % G.src.M.total := by rw [hp.slot]; exact hfp
      rw [this] at he
      exact hch _ (Nat.le_refl _) hp.fib he
    have := h.emp q x hq hxc
    rcases x with ⟨mk, c⟩
    dsimp only at hxc this
    rw [hxc, this]
    rfl

end

/-- Jobs change no content of the source. -/
theorem jobStep_content (G : MEnv K) (e : Nat) (pc : JobPC K V) (m : MMem K V) (p : Nat) :
    ((jobStep G e pc m).1.src p).c = (m.src p).c := by
  have hmark : ∀ (q : Nat) (curr : Cell K V),
      ((m.src.set q (atomicMark G.src.m G.upd (m.src q) curr).1) p).c = (m.src p).c := by
    intro q curr
    by_cases hpq : p = q
    · subst hpq
      rw [Tbl.set_at]
      unfold atomicMark
      split
      · split
        · rename_i hx; rw [hx]; rfl
        · rfl
      · rfl
    · rw [Tbl.set_other hpq]
  unfold jobStep
  cases pc with
  | scan i => dsimp only; (repeat' split) <;> rfl
  | scanMark i curr => dsimp only; split <;> first | exact hmark i curr | rfl
  | fill st qs tail i => cases qs <;> dsimp only <;> (try split) <;> rfl
  | load st tail i => dsimp only; split <;> rfl
  | mark st tail i curr =>
    dsimp only
    split
    · split
      · exact hmark _ curr
      · split <;> exact hmark _ curr
    · rfl
  | probe st tail i u x => dsimp only; (repeat' split) <;> rfl
  | put st tail i u x => dsimp only; split <;> rfl
  | fin st i => rfl
  | nothing => rfl

/-- The start of a job does not change. -/
theorem jobStep_start {G : MEnv K} {e : Nat} {pc pc' : JobPC K V} {m m' : MMem K V}
    (hs : jobStep G e pc m = (m', .cont pc')) {st cur ins : Nat} (hx : pc.ext = some (st, cur, ins)) :
    ∃ cur' ins', pc'.ext = some (st, cur', ins') := by
  have head : ∀ tail i, ∃ cur' ins', (loopHead (V := V) G e st tail i).ext = some (st, cur', ins') := by
    intro tail i
    unfold loopHead
    split <;> exact ⟨_, _, rfl⟩
  have proc : ∀ tail i nxt (curr : Cell K V), process G e st tail i nxt curr = .cont pc' →
      ∃ cur' ins', pc'.ext = some (st, cur', ins') := by
    intro tail i nxt curr h
    unfold process at h
    split at h
    · split at h
      · cases h; exact ⟨_, _, rfl⟩
      · cases h; exact head _ _
    · split at h
      · cases h; exact head _ _
      · split at h
        · cases h; exact ⟨_, _, rfl⟩
        · cases h
  cases pc with
  | scan => cases hx
  | scanMark => cases hx
  | nothing => cases hx
  | fill st' qs tail i =>
    cases hx
    cases qs with
    | nil => cases hs; exact ⟨_, _, rfl⟩
    | cons q qs =>
      simp only [jobStep] at hs
      split at hs <;> cases hs
      exact ⟨_, _, rfl⟩
  | load st' tail i =>
    cases hx
    simp only [jobStep] at hs
    split at hs <;> cases hs
    exact ⟨_, _, rfl⟩
  | mark st' tail i curr =>
    cases hx
    simp only [jobStep] at hs
    split at hs
    · split at hs
      · exact proc _ _ _ _ (congrArg Prod.snd hs)
      · split at hs
        · exact proc _ _ _ _ (congrArg Prod.snd hs)
        · cases hs; exact ⟨_, _, rfl⟩
    · cases hs
  | probe st' tail i u x =>
    cases hx
    simp only [jobStep] at hs
    split at hs
    · split at hs
      · cases hs
      · cases hs
        split <;> exact ⟨_, _, rfl⟩
    · cases hs
  | put st' tail i u x =>
    cases hx
    simp only [jobStep] at hs
    split at hs
    · cases hs; exact head _ _
    · cases hs
  | fin st' i => cases hx; cases hs; exact ⟨_, _, rfl⟩

/-- Certificates stay. -/
theorem Cert.step {G : MEnv K} {k : Nat} {s s' : MSt T K V} {b q : Nat} {a : Access}
    (hcl : ∀ b', s.jobs b' ≠ none → b' < s.next) (h : Cert G k s.mem s.jobs b q a)
    (hs : MStep G s s') : Cert G k s'.mem s'.jobs b q a := by
  obtain ⟨pc, st, cur, ins, j, e1, e2, e3, e4, e5, e6, e7⟩ := h
  cases hs with
  | @claim i h1 h2 =>
    have : b ≠ s.next := by
      intro hc
      have := hcl b (by rw [e1]; simp)
      omega
    exact ⟨pc, st, cur, ins, j, by dsimp only; rw [upd1_ne this]; exact e1, e2, e3, e4, e5, e6, e7⟩
  | leave h1 h2 => exact ⟨pc, st, cur, ins, j, e1, e2, e3, e4, e5, e6, e7⟩
  | @work i b2 pc2 pc2' m' h1 h2 h3 h4 =>
    have hc : ∀ p, (m'.src p).c = (s.mem.src p).c := by
      intro p
      have := jobStep_content G (blockEnd G.src.M.addr b2) pc2 s.mem p
      rw [h4] at this; exact this
    have hj : ∃ pc' cur' ins', upd1 s.jobs b2 (some pc2') b = some pc' ∧ pc'.ext = some (st, cur', ins') := by
      by_cases hb : b = b2
      · subst hb
        rw [e1] at h2; cases h2
        obtain ⟨c', i', hx⟩ := jobStep_start h4 e2
        exact ⟨pc2', c', i', upd1_self .., hx⟩
      · exact ⟨pc, cur, ins, by rw [upd1_ne hb]; exact e1, e2⟩
    obtain ⟨pc', cur', ins', x1, x2⟩ := hj
    exact ⟨pc', st, cur', ins', j, x1, x2, e3, e4, (fun j' y1 y2 => by rw [hc]; exact e5 j' y1 y2), e6,
      fun ha => by rw [hc]; exact e7 ha⟩
  | ret h1 h2 h3 => exact ⟨pc, st, cur, ins, j, e1, e2, e3, e4, e5, e6, e7⟩
  | enter h1 => exact ⟨pc, st, cur, ins, j, e1, e2, e3, e4, e5, e6, e7⟩
  | @env t' he =>
    exact ⟨pc, st, cur, ins, j, e1, e2, e3, e4, (fun j' y1 y2 => (he.evolves _).1 (e5 j' y1 y2)), e6,
      fun ha => (he.evolves _).1 (e7 ha)⟩

theorem MStep.torn_back {G : MEnv K} {s s' : MSt T K V} (hs : MStep G s s') (h : s'.mem.torn = false) :
    s.mem.torn = false := by
  cases hs with
  | claim | leave | ret | enter | env => exact h
  | @work i b pc pc' m' h1 h2 h3 h4 =>
    exact jobStep_torn G (blockEnd G.src.M.addr b) pc s.mem (by rw [h4]; exact h)

end
end Growt
