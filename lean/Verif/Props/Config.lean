import Verif.Config

/-!
# Properties of the dispatcher (C49)
-/

namespace Growt

theorem descriptor_foldl (l : List HMod) (a : Nat) (i : Nat) :
    (l.foldl (fun a x => a ||| x.value) a).testBit i =
      (a.testBit i || l.any fun x => x.value.testBit i) := by
  induction l generalizing a with
  | nil => simp
  | cons x xs ih => simp [List.foldl_cons, ih, Nat.testBit_or, Bool.or_assoc]

theorem descriptor_testBit (l : List HMod) (i : Nat) :
    (descriptor l).testBit i = l.any fun x => x.value.testBit i := by
  rw [descriptor, descriptor_foldl]; simp

/-- Every modifier but `neutral` is one bit, and that bit belongs to no other modifier. -/
theorem HMod.own_bit (a : HMod) (ha : a ≠ .neutral) :
    ∃ i, a.value = 2 ^ i ∧ ∀ b : HMod, b.value.testBit i = decide (b = a) := by
  cases a
  · exact absurd rfl ha
  · exact ⟨0, rfl, fun b => by cases b <;> rfl⟩
  · exact ⟨1, rfl, fun b => by cases b <;> rfl⟩
  · exact ⟨2, rfl, fun b => by cases b <;> rfl⟩
  · exact ⟨3, rfl, fun b => by cases b <;> rfl⟩
  · exact ⟨4, rfl, fun b => by cases b <;> rfl⟩
  · exact ⟨5, rfl, fun b => by cases b <;> rfl⟩
  · exact ⟨6, rfl, fun b => by cases b <;> rfl⟩

/-- **C49**: asking for a single modifier is answered correctly, for every list of modifiers
(repetitions and `neutral` entries included). -/
theorem C49_is_correct (mods : List HMod) (a : HMod) (ha : a ≠ .neutral) :
    modIs mods a = true ↔ a ∈ mods := by
  obtain ⟨i, hv, hb⟩ := a.own_bit ha
  have key : (descriptor mods).testBit i = decide (a ∈ mods) := by
    rw [descriptor_testBit, Bool.eq_iff_iff]
    simp only [List.any_eq_true, hb, decide_eq_true_eq]
    exact ⟨fun ⟨x, hx, e⟩ => e ▸ hx, fun h => ⟨a, h, rfl⟩⟩
  have : descriptor mods &&& a.value ≠ 0 ↔ (descriptor mods).testBit i = true := by
    rw [hv]
    constructor
    · intro h
      cases hc : (descriptor mods).testBit i with
      | true => rfl
      | false =>
        exfalso; apply h
        apply Nat.eq_of_testBit_eq
        intro j
        rw [Nat.testBit_and, Nat.testBit_two_pow, Nat.zero_testBit]
        by_cases hj : i = j
        · subst hj; simp [hc]
        · simp [hj]
    · intro h h0
      have := congrArg (fun n => n.testBit i) h0
      simp [Nat.testBit_and, Nat.testBit_two_pow, h] at this
  simp only [modIs, bne_iff_ne, this, key, decide_eq_true_eq]

/-- What a query for several modifiers should answer. (specification, no code) -/
def AllSet (mods asks : List HMod) : Prop := ∀ a ∈ asks, a ≠ .neutral → a ∈ mods

/-- **C49 (violated by the code)**: the query for several modifiers always answers yes. -/
theorem C49_all_always_true (mods asks : List HMod) : modAll mods asks = true := by
  simp [modAll]

theorem C49_all_wrong : modAll [.growable] [.growable, .sync] = true ∧
    ¬ AllSet [.growable] [.growable, .sync] := by
  refine ⟨rfl, fun h => ?_⟩
  have := h .sync (by simp) (by simp)
  simp at this

/-- The parts of a table fit together: a table that migrates without stopping its users has
markable slots; a growing table that promises referential integrity keeps its elements on the
heap; the destructor of a base table frees heap elements only if they are not handed over to
other base tables; inline slots are used only for the sizes they are made for. (specification, no code) -/
structure Fits (mods : List HMod) (valueSize keySize : Nat) (c : TableChoice) : Prop where
  marks : c.migration = true → c.sync = false → c.markable = true
  integrity : c.migration = true → .ref_integrity ∈ mods → c.slot = .complexSlot
  cleanup : c.migration = true → c.slot = .complexSlot → c.baseCleanup = false
  cleanup' : c.migration = false → c.baseCleanup = true
  sizes : (c.slot = .simpleSlot → valueSize = 16 ∧ keySize = 8) ∧
    (c.slot = .singleWordSlot → valueSize = 8 ∧ keySize = 4)
  migrates : c.migration = true ↔ (.growable ∈ mods ∨ .deletion ∈ mods)
  modes : (c.cyclicMap = true ↔ .circular_map ∈ mods) ∧ (c.cyclicProb = true ↔ .circular_prob ∈ mods) ∧
    (c.sync = true ↔ .sync ∈ mods) ∧ (c.pool = true ↔ .pool ∈ mods)

theorem C49_fits_base (mods : List HMod) (vs ks : Nat)
    (h : .growable ∈ mods ∨ .deletion ∉ mods) : Fits mods vs ks (tableConfig mods vs ks) := by
  have hi : ∀ a, a ≠ HMod.neutral → (modIs mods a = true ↔ a ∈ mods) := C49_is_correct mods
  have hg := hi .growable (by simp)
  have hd := hi .deletion (by simp)
  have hr := hi .ref_integrity (by simp)
  have hs := hi .sync (by simp)
  refine ⟨?_, ?_, ?_, ?_, ?_, ?_, hi _ (by simp), hi _ (by simp), hs, hi _ (by simp)⟩
  · intro h1 h2
    simp only [tableConfig, Bool.or_eq_true, hg, hd] at h1 h2 ⊢
    simp only [Bool.and_eq_true, hg, Bool.not_eq_true', h2, and_true]
    rcases h with h | h
    · exact h
    · exact h1.resolve_right h
  · intro h1 h2
    simp only [tableConfig, Bool.or_eq_true, hg, hd] at h1 ⊢
    have h3 : .growable ∈ mods := h.elim id fun h => h1.resolve_right h
    simp [slotConfig, hg.2 h3, hr.2 h2]
  · intro h1 _
    simp only [tableConfig, Bool.or_eq_true, hg, hd] at h1 ⊢
    have h3 : .growable ∈ mods := h.elim id fun h => h1.resolve_right h
    simp [hg.2 h3]
  · intro h1
    simp only [tableConfig, Bool.or_eq_false_iff] at h1 ⊢
    simp [h1.1]
  · simp only [tableConfig, slotConfig]
    constructor <;> intro h <;> split at h
    · rename_i h'; exact ⟨h'.1, h'.2.1⟩
    · split at h <;> cases h
    · cases h
    · split at h
      · rename_i h'; exact ⟨h'.1, h'.2.1⟩
      · cases h
  · simp [tableConfig, hg, hd]

/-- **C49 (partial: `growable` is given or `deletion` is not).**  For all such modifier lists and all
type sizes the selected parts fit together.  Missing: `deletion` without `growable`, where the
code selects parts that do not fit, see the following theorems; and the query `all`. -/
theorem C49_dispatch_partial (mods : List HMod) (vs ks : Nat)
    (h : .growable ∈ mods ∨ .deletion ∉ mods) : Fits mods vs ks (tableConfig mods vs ks) :=
  C49_fits_base mods vs ks h

/-- **C49 (violated by the code)**: `deletion` without `growable` always gives a migrating table that
does not fit: without `sync`, its slots cannot be marked although it migrates while being used;
with `ref_integrity` and inline sizes the elements move; and with heap slots each base table
frees the elements that the next one still uses. -/
theorem C49_deletion_only (mods : List HMod) (vs ks : Nat) (hd : .deletion ∈ mods)
    (hg : .growable ∉ mods) :
    (tableConfig mods vs ks).migration = true ∧ (tableConfig mods vs ks).markable = false ∧
    (tableConfig mods vs ks).baseCleanup = true ∧
    (.sync ∉ mods → (tableConfig mods vs ks).sync = false) ∧
    (vs = 16 → ks = 8 → (tableConfig mods vs ks).slot = .simpleSlot) ∧
    ((.sync ∉ mods ∨ (tableConfig mods vs ks).slot = .complexSlot) →
      ¬ Fits mods vs ks (tableConfig mods vs ks)) := by
  have hi : ∀ a, a ≠ HMod.neutral → (modIs mods a = true ↔ a ∈ mods) := C49_is_correct mods
  have h1 : modIs mods .growable = false := by
    rw [Bool.eq_false_iff, ne_eq, hi _ (by simp)]; exact hg
  have h2 : modIs mods .deletion = true := (hi _ (by simp)).2 hd
  have hmig : (tableConfig mods vs ks).migration = true := by simp [tableConfig, h2]
  have hmark : (tableConfig mods vs ks).markable = false := by simp [tableConfig, h1]
  have hcl : (tableConfig mods vs ks).baseCleanup = true := by simp [tableConfig, h1]
  have hsync : .sync ∉ mods → (tableConfig mods vs ks).sync = false := by
    intro h
    simp only [tableConfig]
    rw [Bool.eq_false_iff, ne_eq, hi _ (by simp)]; exact h
  refine ⟨hmig, hmark, hcl, hsync, ?_, ?_⟩
  · rintro rfl rfl
    simp [tableConfig, slotConfig, h1]
  · rintro (h | h) hf
    · have := hf.marks hmig (hsync h)
      rw [hmark] at this; cases this
    · have := hf.cleanup hmig h
      rw [hcl] at this; cases this

/-- The sequential dispatcher uses inline slots exactly for 8 byte keys with 8 byte values and
without growing referential integrity. -/
theorem C49_seq_dispatch (mods : List HMod) (vs ks : Nat) :
    seqNeedsComplex mods vs ks = false ↔
      vs = 16 ∧ ks = 8 ∧ ¬ (.ref_integrity ∈ mods ∧ .growable ∈ mods) := by
  rw [← C49_is_correct mods .ref_integrity (by simp), ← C49_is_correct mods .growable (by simp)]
  simp [seqNeedsComplex]
  cases modIs mods .ref_integrity <;> cases modIs mods .growable <;> simp [and_assoc]

/-- C49: a list with a repetition and `neutral`. -/
example : modIs [.growable, .neutral, .sync, .growable] .growable = true ∧
    modIs [.growable, .neutral, .sync, .growable] .pool = false :=
  ⟨(C49_is_correct _ _ (by decide)).2 (by decide),
    Bool.eq_false_iff.2 fun h => absurd ((C49_is_correct _ _ (by decide)).1 h) (by decide)⟩

/-- The README's modifier set fits and is asynchronous with markable inline slots; `deletion` alone
meets the hypotheses of the violation. -/
example : Fits [.growable, .deletion] 16 8 (tableConfig [.growable, .deletion] 16 8) ∧
    (tableConfig [.growable, .deletion] 16 8).markable = true ∧
    ¬ Fits [.deletion] 16 8 (tableConfig [.deletion] 16 8) :=
  ⟨C49_dispatch_partial _ _ _ (by simp), rfl,
    (C49_deletion_only [.deletion] 16 8 (by simp) (by simp)).2.2.2.2.2 (by simp)⟩

end Growt
