import Verif.MigBlocks
import Verif.MigIter
import Verif.SeqTrace

/-!
# Properties of the migration (C11, C17, C18, C19, C20, C21, C22)
-/

set_option linter.unusedSectionVars false

namespace Growt

attribute [local irreducible] blockEnd

section
variable {T T' K V : Type} [DecidableEq T] [DecidableEq T'] [DecidableEq K] [DecidableEq V] [Inhabited V]

/-- Value found under a key by a search on a table nobody modifies; independent of the position.
(specification, no code) -/
def valueOf (E : Env K) (t : Tbl K V) (key : K) : Option V :=
  (lookup E t key).bind fun x => x.2.val?

/-- Every element can be reached from its home slot over occupied slots only. (specification, no code) -/
def ReachableFromHome (E : Env K) (t : Tbl K V) : Prop :=
  ∀ p key v, p < E.M.total → (t p).c = .live key v →
    ∃ n, E.M.remap (E.M.map (E.h key) + n) = p ∧
      ∀ j, j < n → (t (E.M.remap (E.M.map (E.h key) + j))).c ≠ .empty

/-- No key is stored twice. (specification, no code) -/
def KeysOnce (E : Env K) (t : Tbl K V) : Prop :=
  ∀ p q key v w, p < E.M.total → q < E.M.total → (t p).c = .live key v → (t q).c = .live key w → p = q

theorem Inv.keysOnce {E : Env K} {t : Tbl K V} (h : Inv E t) : KeysOnce E t :=
  fun _ _ _ _ _ hp hq h1 h2 => h.unique hp hq h1 h2

theorem Inv.reachable {E : Env K} {t : Tbl K V} (h : Inv E t) : ReachableFromHome E t := by
  intro p key v hp hc
  obtain ⟨i, h1, h2⟩ := h.reach p key v hp hc
  have hle := h2.1
  refine ⟨i - E.M.map (E.h key), by rw [← h1]; congr 1; omega, fun j hj => ?_⟩
  exact (h2.2 (E.M.map (E.h key) + j) (by omega) (by omega)).1

/-- State of a finished migration, in general: any number of helpers, the source being modified
meanwhile, but no torn mark. -/
theorem migration_end {G : MEnv K} (hG : G.OK) {t : Tbl K V} (hI : Inv G.src t) (hm : NoMarks t)
    {s : MSt T K V} (hs : MReach G t s) (htorn : s.mem.torn = false) (hf : s.finished G)
    (hr : HasRoom G.src s.mem.src) :
    Inv G.src s.mem.src ∧
    (∀ q, q < G.tgt.M.total → s.mem.tgt q ≠ none) ∧ Inv G.tgt (published s.mem.tgt) ∧
    NoMarks (published s.mem.tgt) ∧ (∀ q v, (published s.mem.tgt q).c ≠ .deleted v) ∧
    (∀ d, Stores G.src s.mem.src d → Stores G.tgt (published s.mem.tgt) d) ∧
    occupied G.tgt.M.total (published s.mem.tgt) = liveCount G.src.M.total s.mem.src ∧
    HasRoom G.tgt (published s.mem.tgt) := by
  obtain ⟨k, g, hS⟩ := hG.shape
  have hinv := MInv.reach hS hI hm hs
  have hcore := hinv.core htorn
  obtain ⟨h1, h2, h3, h4, h5⟩ := end_ok hS hcore (hinv.all_done hS hf) hr
  have hocc : occupied G.tgt.M.total (published s.mem.tgt) = liveCount G.src.M.total s.mem.src := by
    rw [← liveCount_eq hcore.inv h2 h5]
    unfold occupied liveCount
    apply List.countP_congr
    intro q _
    unfold Cell.isEmpty
    cases hc : (published s.mem.tgt q).c with
    | empty => simp
    | deleted v => exact absurd hc (h4 q v)
    | live k v => simp
  refine ⟨hcore.inv, h1, h2, h3, h4, fun d hd key v => ?_, hocc, fun hc => ?_⟩
  · rw [hd key v, h5 key v]
  · apply occupied_lt
    rw [hocc]
    obtain ⟨p, hp, he⟩ := hr (by rw [← hS.cp]; exact hc)
    have h6 := liveCount_le_occupied G.src.M.total s.mem.src
    have h7 : occupied G.src.M.total s.mem.src < G.src.M.total := by
      unfold occupied
      have := List.countP_le_length (p := fun p => !(s.mem.src p).isEmpty) (l := List.range G.src.M.total)
      rw [List.length_range] at this
      by_cases heq : (List.range G.src.M.total).countP (fun p => !(s.mem.src p).isEmpty) = G.src.M.total
      · exfalso
        have := (List.countP_eq_length (p := fun p => !(s.mem.src p).isEmpty)
          (l := List.range G.src.M.total)).1 (by rw [List.length_range]; exact heq) p (List.mem_range.2 hp)
        rw [Cell.isEmpty_iff.2 he] at this
        cases this
      · omega
    have h8 : G.src.M.total ≤ G.tgt.M.total := by
      rw [hS.total, hS.total']
      have : 1 ≤ 2 ^ g := Nat.one_le_two_pow
      have : 2 ^ k * 1 ≤ 2 ^ k * 2 ^ g := Nat.mul_le_mul_left _ this
      split <;> omega
    omega

theorem MEnv.OK.tgtOK {G : MEnv K} (hG : G.OK) : G.tgt.OK :=
  ⟨hG.fits, fun k => by rw [hG.hash]; exact hG.src.hash k⟩

/-- **C17.**  When all blocks have been migrated (by any helpers in any interleaving, the source not
being modified), a search in the new table finds for every key exactly what it found in the old
one, every key is stored at most once and every element is reachable from its home slot.  `hr` only
speaks about circular probing: searches in a full circular table do not end (C12). -/
theorem C17_migration_preserves_contents {G : MEnv K} (hG : G.OK) {t : Tbl K V} (hI : Inv G.src t)
    (hm : NoMarks t) (hr : HasRoom G.src t) {s : MSt T K V} (hs : MQuiet G t s) (hf : s.finished G) :
    (∀ key, valueOf G.tgt (published s.mem.tgt) key = valueOf G.src t key) ∧
    KeysOnce G.tgt (published s.mem.tgt) ∧ ReachableFromHome G.tgt (published s.mem.tgt) ∧
    ∀ q, q < G.tgt.M.total → s.mem.tgt q = some (published s.mem.tgt q) := by
  obtain ⟨htorn, hc, -⟩ := hs.good
  have hr' : HasRoom G.src s.mem.src := fun h => by
    obtain ⟨p, hp, he⟩ := hr h
    exact ⟨p, hp, by rw [hc p]; exact he⟩
  obtain ⟨-, h1, h2, -, -, h5, -, h7⟩ := migration_end hG hI hm hs.reach htorn hf hr'
  refine ⟨fun key => ?_, h2.keysOnce, h2.reachable, fun q hq => ?_⟩
  · -- both searches give what the source stores
    obtain ⟨d, hd⟩ : ∃ d, Stores G.src t d := by
      refine ⟨fun k => valueOf G.src t k, fun k v => ?_⟩
      show valueOf G.src t k = some v ↔ _
      unfold valueOf
      rcases lookup_good hG.src hI hr k with ⟨p, w, e1, e2, e3⟩ | ⟨e1, e2⟩
      · rw [e1]
        simp only [Option.bind_some, Cell.val?, e3]
        constructor
        · intro h; cases h; exact ⟨p, e2, e3⟩
        · rintro ⟨i, hi, h⟩
          have := hI.unique e2 hi e3 h
          subst this
          rw [e3] at h; cases h; rfl
      · rw [e1]
        simp only [Option.bind_none]
        constructor
        · intro h; cases h
        · rintro ⟨i, hi, h⟩; exact absurd h (e2 i v hi)
    have hd' : Stores G.src s.mem.src d := fun k v => by
      rw [hd k v]
      constructor <;> rintro ⟨i, hi, h⟩ <;> exact ⟨i, hi, by rw [← h, hc i]⟩
    unfold valueOf
    rw [lookup_stores hG.tgtOK h2 h7 (h5 d hd') key, lookup_stores hG.src hI hr hd key]
  · have := h1 q hq
    unfold published
    cases hx : s.mem.tgt q with
    | none => exact absurd hx this
    | some x => rfl

/-- **C18.**  After a migration no tombstone is left: the number of occupied slots is the number of
live elements of the source. -/
theorem C18_tombstones_reclaimed {G : MEnv K} (hG : G.OK) {t : Tbl K V} (hI : Inv G.src t)
    (hm : NoMarks t) (hr : HasRoom G.src t) {s : MSt T K V} (hs : MQuiet G t s) (hf : s.finished G) :
    (∀ q v, s.mem.tgt q ≠ some ⟨false, .deleted v⟩ ∧ s.mem.tgt q ≠ some ⟨true, .deleted v⟩) ∧
    occupied G.tgt.M.total (published s.mem.tgt) = liveCount G.src.M.total t := by
  obtain ⟨htorn, hc, -⟩ := hs.good
  have hr' : HasRoom G.src s.mem.src := fun h => by
    obtain ⟨p, hp, he⟩ := hr h
    exact ⟨p, hp, by rw [hc p]; exact he⟩
  obtain ⟨-, -, -, -, h4, -, h6, -⟩ := migration_end hG hI hm hs.reach htorn hf hr'
  refine ⟨fun q v => ⟨fun h => h4 q v ?_, fun h => h4 q v ?_⟩, ?_⟩
  · unfold published; rw [h]; rfl
  · unfold published; rw [h]; rfl
  · rw [h6]
    unfold liveCount
    apply List.countP_congr
    intro p _
    rw [hc p]

/-- **C19.**  Two migrations of the same table by different sets of helpers, in different
interleavings, into tables of possibly different sizes: once finished both tables store exactly what
the source stored, and the source is unchanged (but for marks). -/
theorem C19_schedule_independent {G G' : MEnv K} (hG : G.OK) (hG' : G'.OK) (hsrc : G'.src = G.src)
    {t : Tbl K V} (hI : Inv G.src t) (hm : NoMarks t) (hr : HasRoom G.src t) {d : Dict K V}
    (hd : Stores G.src t d)
    {s : MSt T K V} (hs : MQuiet G t s) (hf : s.finished G)
    {s' : MSt T' K V} (hs' : MQuiet G' t s') (hf' : s'.finished G') :
    Stores G.tgt (published s.mem.tgt) d ∧ Stores G'.tgt (published s'.mem.tgt) d ∧
    (∀ p, (s.mem.src p).c = (t p).c) ∧ (∀ p, (s'.mem.src p).c = (t p).c) := by
  have key : ∀ {T : Type} [DecidableEq T] {G : MEnv K} (_ : G.OK) (_ : Inv G.src t)
      (_ : HasRoom G.src t) (_ : Stores G.src t d) {s : MSt T K V} (_ : MQuiet G t s)
      (_ : s.finished G), Stores G.tgt (published s.mem.tgt) d ∧ ∀ p, (s.mem.src p).c = (t p).c := by
    intro T _ G hG hI hr hd s hs hf
    obtain ⟨htorn, hc, -⟩ := hs.good
    have hr' : HasRoom G.src s.mem.src := fun h => by
      obtain ⟨p, hp, he⟩ := hr h
      exact ⟨p, hp, by rw [hc p]; exact he⟩
    obtain ⟨-, -, -, -, -, h5, -, -⟩ := migration_end hG hI hm hs.reach htorn hf hr'
    refine ⟨h5 d fun k v => ?_, hc⟩
    rw [hd k v]
    constructor <;> rintro ⟨i, hi, h⟩ <;> exact ⟨i, hi, by rw [← h, hc i]⟩
  obtain ⟨a1, a2⟩ := key hG hI hr hd hs hf
  obtain ⟨b1, b2⟩ := key hG' (hsrc ▸ hI) (hsrc ▸ hr) (hsrc ▸ hd) hs' hf'
  exact ⟨a1, b1, a2, b2⟩

/-- **C19, the hypotheses can be met**: a single helper gets every table migrated. -/
theorem C19_single_helper_finishes {G : MEnv K} (hG : G.OK) {t : Tbl K V} (hI : Inv G.src t)
    (hm : NoMarks t) : ∃ s : MSt Unit K V, MQuiet G t s ∧ s.finished G := by
  obtain ⟨k, g, hS⟩ := hG.shape
  exact single_helper_ends hS hI hm

/-- **C20, C11.**  In a migration whose source is not modified no step of any helper reads a target
slot that was never written, and none accesses a slot outside of the two allocations; when all
blocks are done, every slot of the target has been written. -/
theorem C20_no_uninitialised_read {G : MEnv K} (hG : G.OK) {t : Tbl K V} (hI : Inv G.src t)
    (hm : NoMarks t) {s : MSt T K V} (hs : MQuiet G t s) :
    (∀ b pc, s.jobs b = some pc → pc.ended = false →
      ∃ m' pc', jobStep G (blockEnd G.src.M.addr b) pc s.mem = (m', .cont pc')) ∧
    (HasRoom G.src t → s.finished G → ∀ q, q < G.tgt.M.total → s.mem.tgt q ≠ none) := by
  obtain ⟨k, g, hS⟩ := hG.shape
  obtain ⟨htorn, hc, hfr⟩ := hs.good
  have hinv := MInv.reach hS hI hm hs.reach
  constructor
  · intro b pc hb he
    have hal : Alone G k b s.jobs s.mem pc := by
      refine ⟨?_, htorn, hfr b pc hb⟩
      have : upd1 s.jobs b (some pc) = s.jobs := by
        funext c; unfold upd1; split
        · rename_i h; subst h; exact hb.symm
        · rfl
      rw [this]
      exact hinv.core htorn
    obtain ⟨m', pc', h1, -⟩ := hal.next hS he
    rw [hS.addr]
    exact ⟨m', pc', h1⟩
  · intro hr hf
    have hr' : HasRoom G.src s.mem.src := fun h => by
      obtain ⟨p, hp, he⟩ := hr h
      exact ⟨p, hp, by rw [hc p]; exact he⟩
    exact (migration_end hG hI hm hs.reach htorn hf hr').2.1

/-- **C20, C11 with a source that is modified meanwhile** (asynchronous growing): the same as long as
no mark is torn (see C24 for what a torn mark does). -/
theorem C20_modified_source_partial {G : MEnv K} (hG : G.OK) {t : Tbl K V} (hI : Inv G.src t)
    (hm : NoMarks t) {s : MSt T K V} (hs : MReach G t s) :
    (∀ b pc, s.jobs b = some pc → pc.ended = false →
      (jobStep G (blockEnd G.src.M.addr b) pc s.mem).1.torn = false →
      ∃ m' pc', jobStep G (blockEnd G.src.M.addr b) pc s.mem = (m', .cont pc')) ∧
    (s.mem.torn = false → HasRoom G.src s.mem.src → s.finished G →
      ∀ q, q < G.tgt.M.total → s.mem.tgt q ≠ none) := by
  obtain ⟨k, g, hS⟩ := hG.shape
  have hinv := MInv.reach hS hI hm hs
  constructor
  · intro b pc hb he ht
    rw [hS.addr] at ht ⊢
    obtain ⟨pc', h1, -⟩ := step_ok hS (hinv.core (jobStep_torn _ _ _ _ ht)) hb he ht
    exact ⟨_, pc', Prod.ext rfl h1⟩
  · intro ht hr hf
    exact (migration_end hG hI hm hs ht hf hr).2.1

/-! ## C21 -/

/-- **C21.**  The ranges `[b, blockEnd b)` of the blocks partition the addressable slots, for fewer
than `2^32` of them. -/
theorem C21_blocks_partition_partial {k : Nat} (hk : k < 32) {p : Nat} (hp : p < 2 ^ k) :
    ∃ b, (blockSize ∣ b ∧ b < 2 ^ k ∧ b ≤ p ∧ p < blockEnd (2 ^ k) b) ∧
      ∀ b', blockSize ∣ b' → b' < 2 ^ k → b' ≤ p → p < blockEnd (2 ^ k) b' → b' = b := by
  have h32 : 2 ^ k ≤ 2 ^ 31 := Nat.pow_le_pow_right (by omega) (by omega)
  have hbs : blockSize = 4096 := rfl
  have hbe : ∀ b, b < 2 ^ k → blockEnd (2 ^ k) b = min (b + 4096) (2 ^ k) := by
    intro b hb
    unfold blockEnd
    rw [hbs, Nat.mod_eq_of_lt (by omega), Nat.mod_eq_of_lt (by omega)]
  generalize hA : 2 ^ k = A at *
  refine ⟨4096 * (p / 4096), ⟨⟨_, rfl⟩, by omega, by omega, ?_⟩, ?_⟩
  · rw [hbe _ (by omega)]; omega
  · rintro b' ⟨x, hx⟩ h1 h2 h3
    rw [hbe _ h1] at h3
    rw [hbs] at hx
    omega

/-- **C21.**  For every table and every number of helpers: a block is handed out only if nobody got
it before, never to two helpers at once, only whole blocks inside the addressable part are handed
out, a block that was handed out is never taken back, a finished one is not migrated again, and
when all helpers are done every block has been migrated. -/
theorem C21_each_block_once {G : MEnv K} {t : Tbl K V} {s : MSt T K V} (hs : MReach G t s) :
    (∀ b, s.jobs b ≠ none ↔ (blockSize ∣ b ∧ b < s.next ∧ b < G.src.M.addr)) ∧
    (s.next < G.src.M.addr → s.jobs s.next = none) ∧
    (∀ i j b, s.thr i = .work b → s.thr j = .work b → i = j) ∧
    (∀ s', MStep G s s' → ∀ b pc, s.jobs b = some pc → (∃ pc', s'.jobs b = some pc') ∧
      (pc.ended = true → s'.jobs b = some pc)) ∧
    (s.finished G → ∀ b, blockSize ∣ b → b < G.src.M.addr →
      ∃ pc, s.jobs b = some pc ∧ pc.ended = true) := by
  have h := ClaimInv.reach hs
  refine ⟨h.claimed, fun _ => ?_, h.one, fun s' hs' => hs'.jobs_grow h, fun hf b h1 h2 => ?_⟩
  · cases hj : s.jobs s.next with
    | none => rfl
    | some pc => exact absurd ((h.claimed s.next).1 (by simp [hj])).2.1 (by omega)
  · have := (h.claimed b).2 ⟨h1, by have := hf.1; omega, h2⟩
    cases hj : s.jobs b with
    | none => exact absurd hj this
    | some pc =>
      refine ⟨pc, rfl, ?_⟩
      cases he : pc.ended with
      | true => rfl
      | false =>
        obtain ⟨i, hi⟩ := h.busy b pc hj he
        exact absurd hi (hf.2 i b)

theorem blockEnd_huge {k : Nat} (hk : 32 ≤ k) (b : Nat) : blockEnd (2 ^ k) b = 0 := by
  unfold blockEnd
  have : 2 ^ k % 2 ^ 32 = 0 := Nat.mod_eq_zero_of_dvd (Nat.pow_dvd_pow 2 hk)
  rw [this]
  exact Nat.min_zero _

/-- **C21 does not hold for tables with `2^32` or more addressable slots**: the end of every block is
computed as 0, so no helper ever migrates anything; all elements of the source are lost. -/
theorem C21_huge_table_loses_everything {G : MEnv K} {k : Nat} (hA : G.src.M.addr = 2 ^ k)
    (hk : 32 ≤ k) {t : Tbl K V} {s : MSt T K V} (hs : MReach G t s) :
    s.mem.tgt = freshTarget G.tgt ∧ ∀ q key v, (published s.mem.tgt q).c ≠ .live key v := by
  have key : s.mem.tgt = freshTarget G.tgt ∧ ∀ b pc, s.jobs b = some pc → pc = .nothing := by
    induction hs with
    | init => exact ⟨rfl, fun b pc h => by cases h⟩
    | @step s _ _ hst ih =>
      cases hst with
      | @claim i hc hlt =>
        refine ⟨ih.1, fun b pc h => ?_⟩
        by_cases hb : b = s.next
        · subst hb
          simp only [upd1_self] at h
          cases h
          rw [hA, blockEnd_huge hk]
          unfold jobStart
          simp
        · simp only [upd1_ne hb] at h
          exact ih.2 b pc h
      | leave _ _ => exact ih
      | enter _ => exact ih
      | @work i b0 pc0 pc1 m' hw hj he hst =>
        have := ih.2 b0 pc0 hj
        subst this
        cases he
      | ret _ _ _ => exact ih
      | env _ => exact ih
  refine ⟨key.1, fun q k v h => ?_⟩
  rw [key.1] at h
  unfold published freshTarget at h
  split at h <;> cases h

/-! ## Limits: a full circular table, circular mapping with linear probing -/

/-- **C17, limit of the property**: a circular table without any empty slot is not migrated at all;
every helper returns from every block without having moved anything. -/
theorem C17_full_circular_source_is_lost {G : MEnv K} (hcp : G.src.M.cp = true) {t : Tbl K V}
    (hfull : ∀ p, (t p).c ≠ .empty) {s : MSt T K V} (hs : MQuiet G t s) :
    s.mem.tgt = freshTarget G.tgt ∧ ∀ q key v, (published s.mem.tgt q).c ≠ .live key v := by
  have key : s.mem.tgt = freshTarget G.tgt ∧ (∀ p, (s.mem.src p).c = (t p).c) ∧
      ∀ b pc, s.jobs b = some pc → pc = .nothing ∨ ∃ i, pc = .scan i := by
    induction hs with
    | init => exact ⟨rfl, fun _ => rfl, fun b pc h => by cases h⟩
    | @step s s' _ hst hq ih =>
      have hq' : ∀ p, (s'.mem.src p).c = (t p).c := fun p => by rw [hq p, ih.2.1 p]
      cases hst with
      | @claim i hc hlt =>
        refine ⟨ih.1, hq', fun b pc h => ?_⟩
        by_cases hb : b = s.next
        · subst hb
          simp only [upd1_self] at h
          cases h
          unfold jobStart
          rw [if_pos (.inl hcp)]
          split
          · exact .inr ⟨_, rfl⟩
          · exact .inl rfl
        · simp only [upd1_ne hb] at h
          exact ih.2.2 b pc h
      | leave _ _ => exact ⟨ih.1, hq', ih.2.2⟩
      | enter _ => exact ⟨ih.1, hq', ih.2.2⟩
      | @work i b0 pc0 pc1 m' hw hj he hst =>
        rcases ih.2.2 b0 pc0 hj with rfl | ⟨j, rfl⟩
        · cases he
        · simp only [jobStep] at hst
          split at hst
          · have hne : (s.mem.src j).isEmpty = false := by
              cases h : (s.mem.src j).isEmpty
              · rfl
              · exact absurd (by rw [← ih.2.1 j]; exact Cell.isEmpty_iff.1 h) (hfull j)
            rw [hne] at hst
            simp only [Bool.false_eq_true, if_false] at hst
            cases hst
            refine ⟨ih.1, hq', fun b pc h => ?_⟩
            by_cases hb : b = b0
            · subst hb
              simp only [upd1_self] at h
              cases h
              split
              · exact .inr ⟨_, rfl⟩
              · exact .inl rfl
            · simp only [upd1_ne hb] at h
              exact ih.2.2 b pc h
          · cases hst
      | ret _ _ _ => exact ⟨ih.1, hq', ih.2.2⟩
      | env _ => exact ⟨ih.1, hq', ih.2.2⟩
  refine ⟨key.1, fun q k v h => ?_⟩
  rw [key.1] at h
  unfold published freshTarget at h
  split at h <;> cases h

/-- The steps of one job until undefined behaviour; `false` if there is none within `n` steps. (example, no code) -/
def stuck (G : MEnv K) (e : Nat) : Nat → JobPC K V → MMem K V → Bool
  | 0, _, _ => false
  | n + 1, pc, m =>
    if pc.ended then false
    else match jobStep G e pc m with
      | (_, .ub) => true
      | (m', .cont pc') => stuck G e n pc' m'

theorem stuck_runs {G : MEnv K} {k b : Nat} : ∀ n (pc : JobPC K V) (m : MMem K V),
    stuck G (blockEnd (2 ^ k) b) n pc m = true →
    ∃ m' pc', Runs G k b m pc m' pc' ∧ pc'.ended = false ∧
      (jobStep G (blockEnd (2 ^ k) b) pc' m').2 = .ub := by
  intro n
  induction n with
  | zero => intro pc m h; cases h
  | succ n ih =>
    intro pc m h
    unfold stuck at h
    by_cases he : pc.ended = true
    · rw [if_pos he] at h; cases h
    · rw [if_neg he] at h
      have he' : pc.ended = false := by simpa using he
      obtain ⟨m', o, hj⟩ : ∃ m' o, jobStep G (blockEnd (2 ^ k) b) pc m = (m', o) := ⟨_, _, rfl⟩
      cases o with
      | ub => exact ⟨m, pc, .refl _ _, he', by rw [hj]⟩
      | cont pc' =>
        rw [hj] at h
        obtain ⟨m2, pc2, h1, h2, h3⟩ := ih pc' m' h
        exact ⟨m2, pc2, .step he' hj h1, h2, h3⟩

theorem scan_runs {G : MEnv K} {k b : Nat} (m : MMem K V) (hT : blockEnd (2 ^ k) b ≤ G.src.M.total) :
    ∀ n i, (∀ j, i ≤ j → j < i + n → (m.src j).c ≠ .empty) → i + n < blockEnd (2 ^ k) b →
    Runs G k b m (.scan i) m (.scan (i + n)) := by
  intro n
  induction n with
  | zero => intro i _ _; exact .refl _ _
  | succ n ih =>
    intro i h1 h2
    have hne : (m.src i).isEmpty = false := by
      cases h : (m.src i).isEmpty
      · rfl
      · exact absurd (Cell.isEmpty_iff.1 h) (h1 i (by omega) (by omega))
    have hst : jobStep G (blockEnd (2 ^ k) b) (.scan i) m = (m, .cont (.scan (i + 1))) := by
      simp only [jobStep]
      rw [if_pos (by omega), hne]
      simp only [Bool.false_eq_true, if_false]
      rw [if_pos (by omega)]
    have := ih (i + 1) (fun j a b => h1 j (by omega) (by omega)) (by omega)
    rw [show i + (n + 1) = i + 1 + n from by omega]
    exact .step rfl hst this

end

/-- Two helpers have claimed the first two blocks and not begun. -/
theorem two_claims {K V : Type} [DecidableEq K] [DecidableEq V] [Inhabited V] (G : MEnv K)
    (t : Tbl K V) (h : 4096 < G.src.M.addr) : ∃ s : MSt Bool K V, MQuiet G t s ∧
      s.mem = ⟨t, freshTarget G.tgt, false⟩ ∧ s.thr true = .work 4096 ∧ s.thr false = .work 0 ∧
      s.jobs 4096 = some (jobStart G 4096 (blockEnd G.src.M.addr 4096)) ∧
      s.jobs 0 = some (jobStart G 0 (blockEnd G.src.M.addr 0)) := by
  have s1 := MQuiet.step (T := Bool) (MQuiet.init (G := G) (t := t))
    (.claim (i := false) rfl (by show 0 < G.src.M.addr; omega)) (fun _ => rfl)
  have s2 := MQuiet.step s1 (.claim (i := true) rfl (by show 0 + 4096 < G.src.M.addr; omega))
    (fun _ => rfl)
  exact ⟨_, s2, rfl, rfl, rfl, by simp [upd1, MSt.init, blockSize], by simp [upd1, MSt.init, blockSize]⟩

/-- **C22.**  For the three combinations other than circular mapping with linear probing, growth
preserves the contents (for both growth factors and every interleaving of the helpers). -/
theorem C22_combinations_partial {T K V : Type} [DecidableEq T] [DecidableEq K] [DecidableEq V]
    [Inhabited V] {src : Env K} (hE : src.OK) (hcombo : ¬ (src.M.cm = true ∧ src.M.cp = false))
    (hsmall : src.M.addr < 2 ^ 31) (inserted deleted : Nat) (upd : Bool)
    {t : Tbl K V} (hI : Inv src t) (hm : NoMarks t) (hr : HasRoom src t) {d : Dict K V}
    (hd : Stores src t d) {s : MSt T K V}
    (hs : MQuiet ⟨src, ⟨src.M.resize inserted deleted, src.h, src.m⟩, upd⟩ t s)
    (hf : s.finished ⟨src, ⟨src.M.resize inserted deleted, src.h, src.m⟩, upd⟩) :
    Stores ⟨src.M.resize inserted deleted, src.h, src.m⟩ (published s.mem.tgt) d := by
  have hG : MEnv.OK ⟨src, ⟨src.M.resize inserted deleted, src.h, src.m⟩, upd⟩ := by
    refine ⟨hE, rfl, rfl, ⟨_, _, rfl⟩, ?_, fun h => ?_, Nat.lt_trans hsmall (by decide)⟩
    · obtain ⟨k, hk⟩ := hE.wf
      have hA := hk.addr_eq
      have hk31 : k < 31 := by
        rw [hA] at hsmall
        exact (Nat.pow_lt_pow_iff_right (by omega : 1 < 2)).1 hsmall
      show ∃ n, (src.M.resize inserted deleted).WF n
      simp only [Mapper.resize, hA]
      split
      · refine ⟨k + 1, ?_⟩
        rw [Nat.shiftLeft_eq, ← Nat.pow_succ]
        exact Mapper.wf_mk' (by have := hk.1; omega) (by omega)
      · exact ⟨k, Mapper.wf_mk' hk.1 (by omega)⟩
    · cases hc : src.M.cp
      · exact absurd ⟨h, hc⟩ hcombo
      · rfl
  exact (C19_schedule_independent hG hG rfl hI hm hr hd hs hf hs hf).1

/-- Circular mapping, linear probing, 8192 addressable slots, hash = key, doubling. (example, no code) -/
def badG : MEnv Nat :=
  ⟨⟨Mapper.mk' true false 8192 0, fun k => k % 2 ^ 64, true⟩,
   ⟨(Mapper.mk' true false 8192 0).resize 4000 0, fun k => k % 2 ^ 64, true⟩, false⟩

/-- Tombstones in the second block up to slot 8189; 8190 empty; key 8191 in its home slot 8191 and
key 24575 (the same home slot, also after doubling) behind it in the first slot of the buffer. (example, no code) -/
def badT : Tbl Nat Nat := fun p =>
  if 4096 ≤ p ∧ p ≤ 8189 then ⟨false, .deleted 0⟩
  else if p = 8191 then ⟨false, .live 8191 1⟩
  else if p = 8192 then ⟨false, .live 24575 2⟩
  else ⟨false, .empty⟩

/-- **C22 does not hold for circular mapping with linear probing**: a helper that got the second
block while the helper of the first one is still at its beginning reads a slot of the new table that
nobody has initialised. -/
theorem C22_circular_map_reads_uninitialised :
    ∃ (s : MSt Bool Nat Nat) (b : Nat) (pc : JobPC Nat Nat), MQuiet badG badT s ∧
      s.thr true = .work b ∧ s.jobs b = some pc ∧ pc.ended = false ∧
      (jobStep badG (blockEnd badG.src.M.addr b) pc s.mem).2 = .ub := by
  have hM : Mapper.mk' true false 8192 0 = ⟨true, false, 9216, 8191, 0⟩ := by
    simp [Mapper.mk', lpBuffer]
  have hM' : (Mapper.mk' true false 8192 0).resize 4000 0 = ⟨true, false, 17408, 16383, 8192⟩ := by
    rw [hM]; decide
  have hA : badG.src.M.addr = 2 ^ 13 := by
    show (Mapper.mk' true false 8192 0).addr = _
    rw [hM]; rfl
  have hB : blockEnd (2 ^ 13) 4096 = 8192 := by unfold blockEnd; decide
  obtain ⟨s2, hs2, hmem, ht, -, hj, -⟩ := two_claims badG badT (by rw [hA]; decide)
  rw [hA] at hj
  have hstart : (jobStart badG 4096 (blockEnd (2 ^ 13) 4096) : JobPC Nat Nat) = .scan 4096 := by
    rw [hB]; unfold jobStart
    rw [if_pos (.inr (by decide)), if_pos (by decide)]
  have r1 := scan_runs (G := badG) (k := 13) (b := 4096) ⟨badT, freshTarget badG.tgt, false⟩
    (by rw [hB]; show 8192 ≤ (Mapper.mk' true false 8192 0).total; rw [hM]; decide) 4094 4096
    (by
      intro j h1 h2
      show (badT j).c ≠ _
      unfold badT
      rw [if_pos ⟨h1, by omega⟩]
      simp) (by rw [hB]; decide)
  have hst : stuck badG 8192 60 (.scan 8190) ⟨badT, freshTarget badG.tgt, false⟩ = true := by
    unfold badG
    rw [hM', hM]
    decide +kernel
  rw [← hB] at hst
  obtain ⟨m', pc', r2, he, hub⟩ := stuck_runs _ _ _ hst
  rw [hstart] at hj
  have s3 := (r1.trans r2).msteps hA s2 true hs2 ht hmem hj
  exact ⟨_, 4096, pc', s3, ht, upd1_self s2.jobs 4096 _, he, by rw [hA]; exact hub⟩

/-- The state of the counterexample is a well formed table of that configuration: only the
combination of circular mapping and linear probing is to blame. -/
theorem C22_counterexample_is_well_formed : badG.src.OK ∧ Inv badG.src badT ∧ NoMarks badT ∧
    Stores badG.src badT (fun k => if k = 8191 then some 1 else if k = 24575 then some 2 else none) ∧
    ∃ n, badG.tgt.M.WF n := by
  have hM : Mapper.mk' true false 8192 0 = ⟨true, false, 9216, 8191, 0⟩ := by
    simp [Mapper.mk', lpBuffer]
  have hW : badG.src.M.WF 13 := Mapper.wf_mk' (by omega) (by omega)
  have hT : badG.src.M.total = 9216 := by
    show (Mapper.mk' true false 8192 0).total = _
    rw [hM]; rfl
  have hre : ∀ i, badG.src.M.remap i = i := fun i => Mapper.remap_lin rfl i
  have hmap : ∀ x, badG.src.M.map x = x &&& 8191 := by
    intro x
    show (Mapper.mk' true false 8192 0).map x = _
    rw [hM]; rfl
  have hlive : ∀ p k v, (badT p).c = .live k v ↔ (p = 8191 ∧ k = 8191 ∧ v = 1) ∨
      (p = 8192 ∧ k = 24575 ∧ v = 2) := by
    intro p k v
    unfold badT
    split
    · simp; omega
    · split
      · rename_i h; subst h; simp; constructor <;> (rintro ⟨a, b⟩; exact ⟨a.symm, b.symm⟩)
      · split
        · rename_i h; subst h; simp; constructor <;> (rintro ⟨a, b⟩; exact ⟨a.symm, b.symm⟩)
        · simp; omega
  refine ⟨⟨⟨13, hW⟩, fun k => Nat.mod_lt _ (by decide)⟩, ⟨?_, ?_⟩, ?_, ?_, ?_⟩
  · intro p k v hp h
    rcases (hlive p k v).1 h with ⟨rfl, rfl, rfl⟩ | ⟨rfl, rfl, rfl⟩
    · refine ⟨8191, hre _, ?_, ?_⟩
      · rw [hmap]; decide
      · intro j h1 h2
        rw [hmap] at h1
        exact absurd h1 (by show ¬ 8191 % 2 ^ 64 &&& 8191 ≤ j; simp; omega)
    · refine ⟨8192, hre _, ?_, ?_⟩
      · rw [hmap]; decide
      · intro j h1 h2
        rw [hmap] at h1
        have h3 : 8191 ≤ j := h1
        have : j = 8191 := by omega
        subst this
        rw [hre]
        exact ⟨by decide, fun v h => by cases h⟩
  · intro _ p hp
    have h1 : p > 8192 + 300 := by
      have : badG.src.M.addr = 8192 := by
        show (Mapper.mk' true false 8192 0).addr = _
        rw [hM]; rfl
      omega
    unfold badT
    rw [if_neg (by omega), if_neg (by omega), if_neg (by omega)]
  · intro p
    unfold badT
    split
    · rfl
    · split
      · rfl
      · split <;> rfl
  · intro k v
    constructor
    · intro h
      dsimp only at h
      split at h
      · rename_i e; subst e; cases h; exact ⟨8191, by rw [hT]; omega, rfl⟩
      · split at h
        · rename_i e; subst e; cases h; exact ⟨8192, by rw [hT]; omega, rfl⟩
        · cases h
    · rintro ⟨p, -, h⟩
      rcases (hlive p k v).1 h with ⟨rfl, rfl, rfl⟩ | ⟨rfl, rfl, rfl⟩ <;> rfl
  · refine ⟨14, ?_⟩
    show ((Mapper.mk' true false 8192 0).resize 4000 0).WF 14
    rw [hM]
    exact ⟨by omega, by omega, by decide⟩

/-! ## The hypotheses can be met -/

/-- Any of the four configurations with 512 slots; 200 insertions counted, so growth doubles.
(specification, no code) -/
def okG (cm cp m : Bool) : MEnv Nat :=
  ⟨⟨Mapper.mk' cm cp 512 0, fun k => k * 36028797018963968 % 2 ^ 64, m⟩,
   ⟨(Mapper.mk' cm cp 512 0).resize 200 0, fun k => k * 36028797018963968 % 2 ^ 64, m⟩, false⟩

theorem okG_ok (cm cp m : Bool) (h : cm = true → cp = true) : (okG cm cp m).OK := by
  have hW : (Mapper.mk' cm cp (2 ^ 9) 0).WF 9 := Mapper.wf_mk' (by omega) (by omega)
  have hA : (Mapper.mk' cm cp (2 ^ 9) 0).addr = 2 ^ 9 := hW.addr_eq
  refine ⟨⟨⟨9, hW⟩, fun k => Nat.mod_lt _ (by decide)⟩, rfl, rfl, ⟨200, 0, rfl⟩, ⟨10, ?_⟩, h, ?_⟩
  · have h512 : (512 : Nat) = 2 ^ 9 := by decide
    unfold okG
    simp only [h512]
    simp only [Mapper.resize, hA]
    have : Mapper.fillAboveExact (Mapper.sub64 200 0) (2 ^ 9) = true := by decide
    rw [this]
    have h10 : (2 ^ 9) <<< 1 = 2 ^ 10 := by decide
    simp only [if_true, h10]
    exact Mapper.wf_mk' (by omega) (by omega)
  · have h512 : (512 : Nat) = 2 ^ 9 := by decide
    unfold okG
    simp only [h512]
    rw [hA]; decide

/-- A table with colliding elements, a tombstone in front of them and a cluster at the end. (example, no code) -/
def okOps : List (Op Nat Nat) :=
  [.insert 3 30, .insert 515 40, .insert 1027 50, .erase 515, .insert 511 60, .insert 1023 70]

/-- C17 - C20: for each of the three configurations the table made by the calls above satisfies all
hypotheses, there is a finished migration, and its result has the elements of the source. -/
example (cm cp m : Bool) (h : cm = true → cp = true) : ∃ l t d, runOps (okG cm cp m).src okOps emptyTbl =
      some (l, t) ∧ Inv (okG cm cp m).src t ∧ NoMarks t ∧ HasRoom (okG cm cp m).src t ∧
      Stores (okG cm cp m).src t d ∧
    ∃ s : MSt Unit Nat Nat, MQuiet (okG cm cp m) t s ∧ s.finished (okG cm cp m) ∧
      Stores (okG cm cp m).tgt (published s.mem.tgt) d := by
  have hG := okG_ok cm cp m h
  have hT : (okG cm cp m).src.M.cp = true → (okG cm cp m).src.M.total = 512 := by
    intro hc
    have hW : (Mapper.mk' cm cp (2 ^ 9) 0).WF 9 := Mapper.wf_mk' (by omega) (by omega)
    have : cp = true := hc
    subst this
    exact hW.total_eq
  obtain ⟨l, t, d, h1, h2, h3, h4, h5, h6, h7⟩ := runOps_good hG.src okOps emptyTbl (fun _ => none)
    (Inv.emptyTbl _) (fun _ => rfl) (Stores.emptyTbl _)
    (by intro hc; rw [occupied_empty, hT hc]; decide)
  have hroom : HasRoom (okG cm cp m).src t := by
    intro hc
    have hc2 : cp = true := hc
    subst hc2
    have hT' := hT rfl
    apply occupied_lt
    rw [hT', occupied_empty] at h7
    rw [hT']
    have h8 : insertCalls okOps = 5 := by decide
    omega
  obtain ⟨s, hs, hf⟩ := C19_single_helper_finishes hG h5 h6
  exact ⟨l, t, d, h1, h5, h6, hroom, h4, s, hs, hf,
    (C19_schedule_independent hG hG rfl h5 h6 hroom h4 hs hf hs hf).1⟩

/-- C20, C11 with a source that is modified meanwhile: a helper has claimed the first block of an empty
table; then an insertion puts an element into the source.  The helper's next step is defined. -/
example : let G := okG false false true
    let t : Tbl Nat Nat := emptyTbl.set 3 (Cell.liveCell 3 30)
    ∃ s : MSt Unit Nat Nat, MReach G emptyTbl s ∧ s.mem.src = t ∧
      s.jobs 0 = some (jobStart G 0 (blockEnd G.src.M.addr 0)) ∧
      ∃ m' pc', jobStep G (blockEnd G.src.M.addr 0) (jobStart G 0 (blockEnd G.src.M.addr 0)) s.mem =
        (m', .cont pc') := by
  intro G t
  have hG := okG_ok false false true (by simp)
  have h3 : G.src.M.map (G.src.h 3) = 3 := by decide +kernel
  have hp := Passed.start G.src (emptyTbl : Tbl Nat Nat) 3
  rw [h3] at hp
  have hP : PcInv G.src (emptyTbl : Tbl Nat Nat) (.insert 3 30) (.act 3 0 Cell.emptyCell) :=
    ⟨hp, ⟨rfl, rfl, by decide +kernel⟩, CellLe.refl _⟩
  have he : EnvStep G.src (emptyTbl : Tbl Nat Nat) t := by
    obtain ⟨h1, h2, -⟩ := step_good hG.src (Inv.emptyTbl _) hP (fun _ _ _ h => by cases h; exact .inl rfl)
    refine ⟨h1, h2, fun p hp => ?_, fun p => ?_⟩
    · rcases hp with hp | hp <;> cases hp
    · show (Tbl.set _ _ _ p).marked = _
      unfold Tbl.set
      split <;> rfl
  refine ⟨_, .step (.step .init (.claim (i := ()) rfl (by decide))) (.env he), rfl, rfl, ?_⟩
  refine (C20_modified_source_partial hG (Inv.emptyTbl _) (fun _ => rfl)
    (.step (.step .init (.claim (i := ()) rfl (by decide))) (.env he))).1 0 _ rfl (by decide +kernel) ?_
  decide +kernel

/-- C21: a table with `2^32` slots. -/
example : (Mapper.mk' false false (2 ^ 32) 0).addr = 2 ^ 32 :=
  (Mapper.wf_mk' (k := 32) (by omega) (by omega) : (Mapper.mk' false false (2 ^ 32) 0).WF 32).addr_eq

/-- C17, limit: a full table of the circular configuration. -/
example (q key v : Nat) {s : MSt Bool Nat Nat}
    (hs : MQuiet (okG true true true) (fun p => ⟨false, .live (p % 512) 0⟩) s) :
    (published s.mem.tgt q).c ≠ .live key v :=
  (C17_full_circular_source_is_lost rfl (by simp) hs).2 q key v

end Growt
