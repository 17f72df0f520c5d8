import Verif.MigReach
import Verif.SyncDataInv
import Verif.Props.Conc

/-!
# Operations on a table that is being migrated or has been migrated

What the operations of the table do to slots that a migration has marked, and what the slots look
like when a migration is complete.
-/

set_option linter.unusedSectionVars false

namespace Growt
section
variable {K V : Type} [DecidableEq K] [DecidableEq V] [Inhabited V]

theorem Tbl.set_id (t : Tbl K V) (p : Nat) : t.set p (t p) = t := by
  funext q
  unfold Tbl.set
  split
  · subst q; rfl
  · rfl

/-- On markable slots every safe operation modifies with a compare-and-swap of the whole slot: the
step changes nothing, or the slot held exactly the copy, which is not marked. -/
theorem act_cases {E : Env K} (hm : E.m = true) {op : Op K V} (hs : op.isSafe) {i att pos : Nat}
    {curr : Cell K V} {t : Tbl K V} :
    (actStep E op i att pos curr t).1 = t ∧
        (t pos ≠ curr → ∀ r, (actStep E op i att pos curr t).2 = .done r →
          ∃ k f b, op = .updateBackoff k f b ∧ b att = false ∧ r = ⟨some .UNSUCCESS_BACKOFF, none⟩) ∨
      t pos = curr ∧ ∃ x, (actStep E op i att pos curr t).1 = t.set pos x := by
  by_cases he : t pos = curr
  · right
    refine ⟨he, ?_⟩
    cases op <;> simp only [actStep, casStep, atomicUpdate, hm, he, if_true]
    case find => exact ⟨curr, by rw [← he, Tbl.set_id]⟩
    case locate => exact ⟨curr, by rw [← he, Tbl.set_id]⟩
    case insertOrUpdate => split <;> exact ⟨_, rfl⟩
    case insertOrUpdateUnsafe => exact hs.elim
    all_goals exact ⟨_, rfl⟩
  · left
    constructor
    · cases op <;> simp only [actStep, casStep, atomicUpdate, hm, he, if_true, if_false, Tbl.set_id]
      case updateUnsafe => exact hs.elim
      case insertOrUpdate => split <;> rfl
      case insertOrUpdateUnsafe => exact hs.elim
    · intro _ r hr
      cases op <;> simp only [actStep, casStep, atomicUpdate, hm, he, if_true, if_false] at hr <;>
        try (cases hr; done)
      case updateBackoff k f b =>
        simp only [Bool.false_eq_true, if_false] at hr
        split at hr
        · cases hr
        · rename_i hb
          simp only [retEnd, Out.done.injEq] at hr
          exact ⟨k, f, b, rfl, by simpa using hb, hr.symm⟩
      case updateUnsafe => exact hs.elim
      case insertOrUpdate => split at hr <;> cases hr
      case insertOrUpdateUnsafe => exact hs.elim

/-- Safe operations on markable slots never work on half a slot. -/
theorem safe_act {E : Env K} (hm : E.m = true) {op : Op K V} (hs : op.isSafe) (t : Tbl K V)
    {pc : PC K V} : SafeAct E t op pc := by
  intro i att curr _
  left
  rw [hm]
  cases op <;> first | rfl | exact hs.elim

/-- No operation changes a marked slot. -/
theorem step_frozen {E : Env K} (hm : E.m = true) {op : Op K V} (hs : op.isSafe) {t : Tbl K V}
    {pc : PC K V} (hpc : PcInv E t op pc) {p : Nat} (hp : (t p).marked = true) :
    (step E op pc t).1 p = t p := by
  cases pc with
  | load i att => simp only [step]; split <;> rfl
  | act i att curr =>
    simp only [step]
    split
    · rcases act_cases hm hs (i := i) (att := att) (pos := E.M.remap i) (curr := curr) (t := t) with h | ⟨h1, x, h2⟩
      · rw [h.1]
      · rw [h2]
        have hc : curr.marked = false := hpc.2.1.1
        unfold Tbl.set
        split
        · rename_i e; rw [e, h1, hc] at hp; cases hp
        · rfl
    · rfl

/-- What the operations of a table do to it while it is migrated is what the model of the migration
(`EnvStep`) allows others to do. -/
theorem op_env {E : Env K} (hE : E.OK) (hm : E.m = true) {op : Op K V} (hs : op.isSafe) {t : Tbl K V}
    (hI : Inv E t) {pc : PC K V} (hpc : PcInv E t op pc) : EnvStep E t (step E op pc t).1 := by
  obtain ⟨h1, h2, -⟩ := step_good hE hI hpc (safe_act hm hs t)
  refine ⟨h1, h2, fun p hp => ?_, fun p => ?_⟩
  · rcases hp with hp | hp
    · rw [hm] at hp; cases hp
    · exact step_frozen hm hs hpc hp
  · cases hp : (t p).marked with
    | true => rw [step_frozen hm hs hpc hp]; exact hp
    | false =>
      cases hq : ((step E op pc t).1 p).marked with
      | false => rfl
      | true => rw [step_marks hpc p hq] at hp; cases hp

/-- All slots that can be met when probing for any key are marked. (proof, no code) -/
def AllMarked (E : Env K) (t : Tbl K V) : Prop :=
  ∀ key i, Passed E t key i → (t (E.M.remap i)).marked = true

/-- On a table that has been migrated completely operations change nothing; except for `find` they
do not even end, but for being sent away or giving up. -/
theorem stale_step {E : Env K} (hm : E.m = true) {op : Op K V} (hs : op.isSafe) {t : Tbl K V}
    (ha : AllMarked E t) {pc : PC K V} (hpc : PcInv E t op pc) :
    (step E op pc t).1 = t ∧ ∀ r, (step E op pc t).2 = .done r →
      (∃ k, op = .find k) ∨ r = ⟨some .UNSUCCESS_INVALID, none⟩ ∨
      ∃ k f b n, op = .updateBackoff k f b ∧ b n = false ∧ r = ⟨some .UNSUCCESS_BACKOFF, none⟩ := by
  cases pc with
  | load i att =>
    have hp : (t (E.M.remap i)).marked = true := ha _ _ hpc
    constructor
    · simp only [step]; split <;> rfl
    · intro r hr
      simp only [step] at hr
      split at hr
      · cases op <;> simp only [afterLoad, hp, if_true, retEnd, Out.done.injEq] at hr
        case find k => exact .inl ⟨k, rfl⟩
        all_goals exact .inr (.inl hr.symm)
      · cases hr
  | act i att curr =>
    have hp : (t (E.M.remap i)).marked = true := ha _ _ hpc.1
    have hc : curr.marked = false := hpc.2.1.1
    have hne : t (E.M.remap i) ≠ curr := by intro e; rw [e, hc] at hp; cases hp
    rcases act_cases hm hs (i := i) (att := att) (pos := E.M.remap i) (curr := curr) (t := t) with h | ⟨h1, -⟩
    · constructor
      · simp only [step]
        split
        · exact h.1
        · rfl
      · intro r hr
        simp only [step] at hr
        split at hr
        · obtain ⟨k, f, b, h1, h2, h3⟩ := h.2 hne r hr
          exact .inr (.inr ⟨k, f, b, att, h1, h2, h3⟩)
        · cases hr
    · exact absurd h1 hne

/-- A step of a migration changes only marks in the source. -/
theorem jobStep_content (G : MEnv K) (e : Nat) (pc : JobPC K V) (m : MMem K V) (p : Nat) :
    ((jobStep G e pc m).1.src p).c = (m.src p).c := by
  have hmk : ∀ (q : Nat) (curr : Cell K V),
      ((m.src.set q (atomicMark G.src.m G.upd (m.src q) curr).1) p).c = (m.src p).c := by
    intro q curr
    unfold Tbl.set
    split
    · rename_i hq
      subst hq
      unfold atomicMark
      split
      · split
        · rename_i h; simp [Cell.mark, h]
        · rfl
      · rfl
    · rfl
  cases pc with
  | scan i => simp only [jobStep]; split <;> (try split) <;> rfl
  | scanMark i curr => simp only [jobStep]; split; exact hmk i curr; rfl
  | fill st qs tail i =>
    cases qs with
    | nil => rfl
    | cons q qs => simp only [jobStep]; split <;> rfl
  | load st tail i => simp only [jobStep]; split <;> rfl
  | mark st tail i curr =>
    simp only [jobStep]
    split
    · split
      · exact hmk _ curr
      · split <;> exact hmk _ curr
    · rfl
  | probe st tail nxt u x =>
    simp only [jobStep]
    split
    · split <;> rfl
    · rfl
  | put st tail nxt u x => simp only [jobStep]; split <;> rfl
  | fin st i => rfl
  | nothing => rfl

/-- When all blocks have been migrated, every slot that can be met by an operation is marked. -/
theorem all_marked {G : MEnv K} {k g : Nat} (hS : Shape G k g) (hm : G.src.m = true) {m : MMem K V}
    {jobs : Nat → Option (JobPC K V)} (h : Core G k m jobs)
    (hall : ∀ b, blockSize ∣ b → b < 2 ^ k → ∃ pc, jobs b = some pc ∧ pc.ended = true)
    (he : HasRoom G.src m.src) : AllMarked G.src m.src := by
  have hfr : ∀ x : Cell K V, Frozen G.src.m x → x.marked = true := by
    intro x hx
    rcases hx with hx | hx
    · rw [hm] at hx; cases hx
    · exact hx
  -- slots handled by a finished job
  have hdone : ∀ b st i ic, jobs b = some (.fin st i) → st ≤ ic → ic ≤ i →
      (m.src (G.src.M.remap ic)).marked = true := by
    intro b st i ic hj h1 h2
    obtain ⟨-, -, hJ, -, -, hf, -⟩ := h.job b _ hj
    rcases Nat.lt_or_ge ic i with hlt | hge
    · exact hfr _ (hJ.froz ic h1 hlt)
    · have : ic = i := by omega
      subst this
      exact hfr _ hf
  intro key i hp
  have hlt := hp.inBounds hS.ok h.inv
  cases hc : G.src.M.cp with
  | true =>
    have htot := hS.total
    rw [hc] at htot
    simp only [if_true] at htot
    obtain ⟨b, st, i', ic, hj, h1, h2, h3, -⟩ := processed hS h hall he hlt (.inl (by omega))
    rw [← h3]
    exact hdone b st i' ic hj h1 h2
  | false =>
    have hml := hS.wf.map_lt (hS.h64 key)
    rw [hS.addr] at hml
    have hleT := hS.le_total
    have key2 : ∀ n, G.src.M.map (G.src.h key) + n ≤ i → ∃ b st i', jobs b = some (.fin st i') ∧
        st ≤ G.src.M.map (G.src.h key) + n ∧ G.src.M.map (G.src.h key) + n ≤ i' := by
      intro n
      induction n with
      | zero =>
        intro _
        obtain ⟨b, st, i', ic, hj, h1, h2, h3, -⟩ := processed hS h hall he
          (p := G.src.M.map (G.src.h key)) (by omega) (.inl hml)
        rw [Mapper.remap_lin hc] at h3
        exact ⟨b, st, i', hj, by omega, by omega⟩
      | succ n ih =>
        intro hn
        obtain ⟨b, st, i', hj, h1, h2⟩ := ih (by omega)
        refine ⟨b, st, i', hj, by omega, ?_⟩
        rcases Nat.lt_or_ge (G.src.M.map (G.src.h key) + n) i' with hlt | hge
        · omega
        · exfalso
          obtain ⟨-, -, -, -, -, -, hemp⟩ := h.job b _ hj
          have := (hp.2 (G.src.M.map (G.src.h key) + n) (by omega) (by omega)).1
          have e : i' = G.src.M.map (G.src.h key) + n := by omega
          rw [e] at hemp
          exact this hemp
    have hle := hp.1
    obtain ⟨b, st, i', hj, h1, h2⟩ := key2 (i - G.src.M.map (G.src.h key)) (by omega)
    exact hdone b st i' i hj (by omega) (by omega)

end
end Growt
