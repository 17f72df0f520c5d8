import Verif.Props.SeqSize

/-!
# The sequential table with linear probing, its default (C89)

The probe loops of `data-structures/seq_linear.hpp` have no bound: with linear probing (`seq_table_config.hpp:49-53`
without the modifier `circular_prob`) they stop at an empty slot or leave the allocation.
-/

set_option linter.unusedSectionVars false

namespace Growt
namespace SeqTable
section
variable {K V : Type} [DecidableEq K] [DecidableEq V] [Inhabited V]

/-! ### Specification -/

/-- The slot at which the search for a key begins in a table with `2^j` addressable slots: the lower resp. the upper
`j` bits of its hash value. (specification, no code) -/
def homeSlot (cm : Bool) (j x : Nat) : Nat := if cm then x % 2 ^ j else x / 2 ^ (64 - j)

/-- The keys leave the last slot of the table of `2^j` addressable slots free: from every slot on fewer searches begin
than there are slots. (specification, no code) -/
def Fits (cm : Bool) (j : Nat) (h : K → Nat) (ks : List K) : Prop :=
  ∀ a, a < 2 ^ j → (ks.filter fun x => decide (a ≤ homeSlot cm j (h x))).length + a < 2 ^ j + 1024

/-! ### Proof -/

/-- The table stores the dictionary `d` and its last slot is empty. (proof, no code) -/
structure GoodL (cm : Bool) (j : Nat) (s : St K V) (d : Dict K V) : Prop where
  wf : s.E.M.WF j
  cm : s.E.M.cm = cm
  cp : s.E.M.cp = false
  hash : ∀ x, s.E.h x < 2 ^ 64
  path : ∀ p k v q, p < s.E.M.total → (s.t p).c = .live k v → s.E.M.map (s.E.h k) ≤ p ∧
    (s.E.M.map (s.E.h k) ≤ q → q < p → (s.t q).c ≠ .empty)
  uniq : ∀ p q k v w, p < s.E.M.total → q < s.E.M.total → (s.t p).c = .live k v → (s.t q).c = .live k w → p = q
  clean : ∀ p v, (s.t p).c ≠ .deleted v
  stores : Stores s.E s.t d
  occ : occupied s.E.M.total s.t ≤ s.n
  few : s.n ≤ thresh s.E
  last : (s.t (s.E.M.total - 1)).c = .empty

theorem map_home {M : Mapper} {j : Nat} (hw : M.WF j) (x : Nat) : M.map x = homeSlot M.cm j x := by
  unfold homeSlot
  cases hc : M.cm with
  | true => simp [hw.map_cyc hc]
  | false => simp [hw.map_lin hc]

/-- The last slot is empty if the keys fit. -/
theorem last_empty {E : Env K} {t : Tbl K V} {j : Nat} (hw : E.M.WF j) (hcp : E.M.cp = false)
    (hpath : ∀ p k v q, p < E.M.total → (t p).c = .live k v → E.M.map (E.h k) ≤ p ∧
      (E.M.map (E.h k) ≤ q → q < p → (t q).c ≠ .empty))
    (huniq : ∀ p q k v w, p < E.M.total → q < E.M.total → (t p).c = .live k v → (t q).c = .live k w → p = q)
    (hclean : ∀ p v, (t p).c ≠ .deleted v) {ks : List K}
    (hks : ∀ p k v, p < E.M.total → (t p).c = .live k v → k ∈ ks) (hf : Fits E.M.cm j E.h ks)
    (hhash : ∀ x, E.h x < 2 ^ 64) :
    (t (E.M.total - 1)).c = .empty := by
  have htot : E.M.total = 2 ^ j + 1024 := by rw [hw.total_eq]; simp [hcp]
  apply Classical.byContradiction
  intro hne
  have hrun : ∀ n, n ≤ E.M.total → (∀ q, E.M.total - n ≤ q → q < E.M.total → (t q).c ≠ .empty) ∨
      ∃ a, 0 < a ∧ a < E.M.total ∧ (t (a - 1)).c = .empty ∧ ∀ q, a ≤ q → q < E.M.total → (t q).c ≠ .empty := by
    intro n
    induction n with
    | zero => intro _; exact .inl fun q h1 h2 => by omega
    | succ n ih =>
      intro hn
      rcases ih (by omega) with h1 | h1
      · by_cases hc : (t (E.M.total - (n + 1))).c = .empty
        · right
          refine ⟨E.M.total - n, by omega, ?_, ?_, h1⟩
          · by_cases h0 : n = 0
            · subst h0; exact absurd hc hne
            · omega
          · rw [show E.M.total - n - 1 = E.M.total - (n + 1) by omega]; exact hc
        · left
          intro q hq hq'
          by_cases he : q = E.M.total - (n + 1)
          · subst he; exact hc
          · exact h1 q (by omega) hq'
      · exact .inr h1
  obtain ⟨a, ha, hbefore, hocc⟩ : ∃ a, a < E.M.total ∧ (∀ k v p, a ≤ p → p < E.M.total → (t p).c = .live k v →
      a ≤ E.M.map (E.h k)) ∧ ∀ q, a ≤ q → q < E.M.total → (t q).c ≠ .empty := by
    rcases hrun E.M.total (Nat.le_refl _) with h1 | ⟨a, h1, h2, h3, h4⟩
    · exact ⟨0, by rw [htot]; exact Nat.succ_pos _, fun _ _ _ _ _ _ => Nat.zero_le _, fun q _ hq => h1 q (by omega) hq⟩
    · refine ⟨a, h2, fun k v p hp hpt hl => ?_, h4⟩
      apply Classical.byContradiction
      intro hlt
      exact (hpath p k v (a - 1) hpt hl).2 (by omega) (by omega) h3
  have hlive : ∀ q, a ≤ q → q < E.M.total → ∃ k v, (t q).c = .live k v := by
    intro q h1 h2
    cases hc : (t q).c with
    | empty => exact absurd hc (hocc q h1 h2)
    | deleted v => exact absurd hc (hclean q v)
    | live k v => exact ⟨k, v, rfl⟩
  have hlt : a < 2 ^ j := by
    obtain ⟨k, v, hkv⟩ := hlive (E.M.total - 1) (by omega) (by omega)
    have h1 := hbefore k v _ (by omega) (by omega) hkv
    have h2 := hw.map_lt (hhash k)
    rw [hw.addr_eq] at h2
    omega
  have h1 := hf a hlt
  have hcount : ∀ n, n ≤ E.M.total - a → ∃ l : List K, l.Nodup ∧ l.length = n ∧
      ∀ x ∈ l, ∃ q v, a ≤ q ∧ q < a + n ∧ (t q).c = .live x v := by
    intro n
    induction n with
    | zero => intro _; exact ⟨[], List.nodup_nil, rfl, by simp⟩
    | succ n ih =>
      intro hn
      obtain ⟨l, e1, e2, e3⟩ := ih (by omega)
      obtain ⟨k, v, hkv⟩ := hlive (a + n) (by omega) (by omega)
      refine ⟨k :: l, List.nodup_cons.2 ⟨fun hm => ?_, e1⟩, by simp [e2], ?_⟩
      · obtain ⟨q, w, f1, f2, f3⟩ := e3 k hm
        have := huniq q (a + n) k w v (by omega) (by omega) f3 hkv
        omega
      · intro x hx
        rcases List.mem_cons.1 hx with rfl | hx'
        · exact ⟨a + n, v, by omega, by omega, hkv⟩
        · obtain ⟨q, w, f1, f2, f3⟩ := e3 x hx'
          exact ⟨q, w, f1, by omega, f3⟩
  obtain ⟨l, e1, e2, e3⟩ := hcount (E.M.total - a) (Nat.le_refl _)
  have h2 := e1.length_le_of_subset (l₂ := ks.filter fun x => decide (a ≤ homeSlot E.M.cm j (E.h x))) (by
    intro x hx
    obtain ⟨q, w, f1, f2, f3⟩ := e3 x hx
    rw [List.mem_filter]
    refine ⟨hks q x w (by omega) f3, ?_⟩
    rw [decide_eq_true_eq, ← map_home hw]
    exact hbefore x w q f1 (by omega) f3)
  omega

theorem GoodL.total {cm : Bool} {j : Nat} {s : St K V} {d : Dict K V} (h : GoodL cm j s d) :
    s.E.M.total = 2 ^ j + 1024 := by
  rw [h.wf.total_eq]; simp [h.cp]

theorem GoodL.probe {cm : Bool} {j : Nat} {s : St K V} {d : Dict K V} (h : GoodL cm j s d) (k : K) {f : Nat}
    (hf : s.E.M.total + 1 ≤ f) :
    (∃ p v, p < s.E.M.total ∧ (s.t p).c = .live k v ∧ d k = some v ∧
        SeqTable.probe s.E s.t k f (s.E.M.map (s.E.h k)) = .ok (.found p)) ∨
      ∃ p, s.E.M.map (s.E.h k) ≤ p ∧ p < s.E.M.total ∧ (s.t p).c = .empty ∧ d k = none ∧
        (∀ q, s.E.M.map (s.E.h k) ≤ q → q < p → (s.t q).c ≠ .empty) ∧
        SeqTable.probe s.E s.t k f (s.E.M.map (s.E.h k)) = .ok (.stop p) := by
  have hhome : s.E.M.map (s.E.h k) < s.E.M.total - 1 := by
    have h2 := h.wf.map_lt (h.hash k)
    rw [h.wf.addr_eq] at h2
    rw [h.total]
    omega
  have main : ∀ f i, s.E.M.map (s.E.h k) ≤ i → i < s.E.M.total → s.E.M.total - i ≤ f →
      (∀ q, s.E.M.map (s.E.h k) ≤ q → q < i → (s.t q).c ≠ .empty ∧ ∀ v, (s.t q).c ≠ .live k v) →
      (∃ p v, p < s.E.M.total ∧ (s.t p).c = .live k v ∧ d k = some v ∧ SeqTable.probe s.E s.t k f i = .ok (.found p)) ∨
      ∃ p, s.E.M.map (s.E.h k) ≤ p ∧ p < s.E.M.total ∧ (s.t p).c = .empty ∧ d k = none ∧
        (∀ q, s.E.M.map (s.E.h k) ≤ q → q < p → (s.t q).c ≠ .empty) ∧
        SeqTable.probe s.E s.t k f i = .ok (.stop p) := by
    intro f
    induction f with
    | zero => intro i _ _ _; omega
    | succ f ih =>
      intro i h1 h2 h3 h4
      simp only [SeqTable.probe, Mapper.remap_lin h.cp, h2, if_true]
      cases hk : (s.t i).hasKey k with
      | true =>
        obtain ⟨v, hv⟩ := Cell.hasKey_iff.1 hk
        exact .inl ⟨i, v, h2, hv, (h.stores k v).2 ⟨i, h2, hv⟩, by simp⟩
      | false =>
        cases he : (s.t i).isEmpty with
        | true =>
          have he' := Cell.isEmpty_iff.1 he
          refine .inr ⟨i, h1, h2, he', ?_, fun q h5 h6 => (h4 q h5 h6).1, by simp⟩
          rcases Option.eq_none_or_eq_some (d k) with hd | ⟨w, hd⟩
          · exact hd
          · obtain ⟨p, hp, hl⟩ := (h.stores k w).1 hd
            have hpq := h.path p k w i hp hl
            by_cases hpi : p < i
            · exact absurd hl ((h4 p hpq.1 hpi).2 w)
            · by_cases hip : p = i
              · subst hip; rw [hl] at he'; cases he'
              · exact absurd he' (hpq.2 h1 (by omega))
        | false =>
          have hne : (s.t i).c ≠ .empty := fun hc => by rw [Cell.isEmpty_iff.2 hc] at he; cases he
          have hnl : ∀ v, (s.t i).c ≠ .live k v := fun v hc => by rw [Cell.hasKey_iff.2 ⟨v, hc⟩] at hk; cases hk
          have hlast : i ≠ s.E.M.total - 1 := fun hc => hne (by rw [hc]; exact h.last)
          simpa using ih (i + 1) (by omega) (by omega) (by omega) (by
            intro q h5 h6
            by_cases hq : q = i
            · subst hq; exact ⟨hne, hnl⟩
            · exact h4 q h5 (by omega))
  exact main f _ (Nat.le_refl _) (by omega) (by omega) (fun q h1 h2 => by omega)

/-- Writing a new element in the empty slot where the probe loop ended. -/
theorem GoodL.put_new {cm : Bool} {j : Nat} {s : St K V} {d : Dict K V} (h : GoodL cm j s d) {k : K} {p : Nat} (v : V)
    (hp : s.E.M.map (s.E.h k) ≤ p) (hlt : p < s.E.M.total) (he : (s.t p).c = .empty) (hd : d k = none)
    (hpre : ∀ q, s.E.M.map (s.E.h k) ≤ q → q < p → (s.t q).c ≠ .empty) (hfew : s.n + 1 ≤ thresh s.E)
    {ks : List K} (hks : ∀ x, (d x).isSome = true → x ∈ ks) (hk : k ∈ ks) (hf : Fits cm j s.E.h ks) :
    GoodL cm j { s with t := s.t.set p (Cell.liveCell k v), n := s.n + 1 } (d.put k v) := by
  have hcell : ∀ q, ((s.t.set p (Cell.liveCell k v)) q).c = if q = p then .live k v else (s.t q).c := by
    intro q; unfold Tbl.set; split <;> rfl
  have habs : ∀ q v, q < s.E.M.total → (s.t q).c ≠ .live k v := by
    intro q w hq hc
    have := (h.stores k w).2 ⟨q, hq, hc⟩
    rw [hd] at this
    cases this
  have hpath : ∀ a x w q, a < s.E.M.total → ((s.t.set p (Cell.liveCell k v)) a).c = .live x w →
      s.E.M.map (s.E.h x) ≤ a ∧ (s.E.M.map (s.E.h x) ≤ q → q < a → ((s.t.set p (Cell.liveCell k v)) q).c ≠ .empty) := by
    intro a x w q ha hc
    rw [hcell] at hc
    rw [hcell]
    split at hc
    · rename_i heq
      subst heq
      cases hc
      refine ⟨hp, fun h1 h2 => ?_⟩
      rw [if_neg (by omega)]
      exact hpre q h1 h2
    · obtain ⟨h1, h2⟩ := h.path a x w q ha hc
      refine ⟨h1, fun h3 h4 => ?_⟩
      split
      · intro hc'; cases hc'
      · exact h2 h3 h4
  have huniq : ∀ a b x w y, a < s.E.M.total → b < s.E.M.total →
      ((s.t.set p (Cell.liveCell k v)) a).c = .live x w → ((s.t.set p (Cell.liveCell k v)) b).c = .live x y → a = b := by
    intro a b x w y ha hb h1 h2
    rw [hcell] at h1 h2
    split at h1 <;> split at h2
    · omega
    · cases h1; exact absurd h2 (habs b y hb)
    · cases h2; exact absurd h1 (habs a w ha)
    · exact h.uniq a b x w y ha hb h1 h2
  have hclean : ∀ a w, ((s.t.set p (Cell.liveCell k v)) a).c ≠ .deleted w := by
    intro a w
    rw [hcell]
    split
    · intro hc; cases hc
    · exact h.clean a w
  have hmem : ∀ a x w, a < s.E.M.total → ((s.t.set p (Cell.liveCell k v)) a).c = .live x w → x ∈ ks := by
    intro a x w ha hc
    rw [hcell] at hc
    split at hc
    · cases hc; exact hk
    · exact hks x (by rw [(h.stores x w).2 ⟨a, ha, hc⟩]; rfl)
  refine ⟨h.wf, h.cm, h.cp, h.hash, hpath, huniq, hclean, ?_, ?_, hfew, ?_⟩
  · exact h.stores.put hlt rfl (.inl he) (fun q w hq hw => absurd hw (habs q w hq))
  · exact Nat.le_trans (occupied_set_le s.t s.E.M.total p (Cell.liveCell k v)) (Nat.succ_le_succ h.occ)
  · exact last_empty (E := s.E) h.wf h.cp hpath huniq hclean hmem (by rw [h.cm]; exact hf) h.hash

/-- Updating an element in place. -/
theorem GoodL.update {cm : Bool} {j : Nat} {s : St K V} {d : Dict K V} (h : GoodL cm j s d) {k : K} {p : Nat} {w : V}
    (u : UpdFn V) (hlt : p < s.E.M.total) (hv : (s.t p).c = .live k w) :
    GoodL cm j { s with t := s.t.set p (nonAtomicUpdate k (s.t p) u).1 } (d.put k (u.upd w)) ∧
    ((s.t.set p (nonAtomicUpdate k (s.t p) u).1) p).val? = some (u.upd w) := by
  have hx : (nonAtomicUpdate k (s.t p) u).1.c = .live k (u.upd w) := by
    simp [nonAtomicUpdate, Cell.setMapped, Cell.mapped, hv]
  have hcell : ∀ q, ((s.t.set p (nonAtomicUpdate k (s.t p) u).1) q).c =
      if q = p then .live k (u.upd w) else (s.t q).c := by
    intro q; unfold Tbl.set; split
    · exact hx
    · rfl
  have hback : ∀ a x y, ((s.t.set p (nonAtomicUpdate k (s.t p) u).1) a).c = .live x y →
      ∃ z, (s.t a).c = .live x z := by
    intro a x y hc
    rw [hcell] at hc
    split at hc
    · rename_i heq; subst heq; cases hc; exact ⟨w, hv⟩
    · exact ⟨y, hc⟩
  have hemp : ∀ a, ((s.t.set p (nonAtomicUpdate k (s.t p) u).1) a).c = .empty ↔ (s.t a).c = .empty := by
    intro a
    rw [hcell]
    split
    · rename_i heq; subst heq; rw [hv]; exact ⟨fun hc => (by cases hc), fun hc => (by cases hc)⟩
    · exact Iff.rfl
  refine ⟨⟨h.wf, h.cm, h.cp, h.hash, ?_, ?_, ?_, ?_, ?_, h.few, ?_⟩, ?_⟩
  · intro a x y q ha hc
    obtain ⟨z, hz⟩ := hback a x y hc
    obtain ⟨h1, h2⟩ := h.path a x z q ha hz
    exact ⟨h1, fun h3 h4 hc' => h2 h3 h4 ((hemp q).1 hc')⟩
  · intro a b x y z ha hb h1 h2
    obtain ⟨y', h1'⟩ := hback a x y h1
    obtain ⟨z', h2'⟩ := hback b x z h2
    exact h.uniq a b x y' z' ha hb h1' h2'
  · intro a y
    show ((s.t.set p _) a).c ≠ _
    rw [hcell]
    split
    · intro hc; cases hc
    · exact h.clean a y
  · refine h.stores.put hlt hx (.inr ⟨w, hv⟩) (fun q y hq hy => h.uniq q p k y w hq hlt hy hv)
  · show occupied s.E.M.total _ ≤ s.n
    rw [occupied_congr hemp]
    exact h.occ
  · exact (hemp _).2 h.last
  · simp [Tbl.set, Cell.val?, hx]

/-- An insertion that does not grow the table. -/
theorem insert_smallL {cm : Bool} {j : Nat} {s : St K V} {d : Dict K V} (h : GoodL cm j s d) (k : K) (v : V) {f : Nat}
    (hf : s.E.M.total + 1 ≤ f) (hfew : d k = none → s.n + 1 ≤ thresh s.E)
    {ks : List K} (hks : ∀ x, (d x).isSome = true → x ∈ ks) (hk : k ∈ ks) (hfit : d k = none → Fits cm j s.E.h ks) :
    ∃ s', SeqTable.insert f s k v = .ok (s', ((SOp.insert k v).sem d).2) ∧
      GoodL cm j s' ((SOp.insert k v).sem d).1 ∧ s'.E = s.E ∧ s'.n = s.n + (if d k = none then 1 else 0) := by
  obtain ⟨f, rfl⟩ : ∃ g, f = g + 1 := ⟨f - 1, by omega⟩
  rcases h.probe k hf with ⟨p, w, h1, h2, h3, h4⟩ | ⟨p, h1, h2, h3, h4, h5, h6⟩
  · refine ⟨s, ?_, ?_, rfl, by simp [h3]⟩
    · simp only [SeqTable.insert, h4, SOp.sem, h3, Cell.val?, h2]
    · simp only [SOp.sem, h3]; exact h
  · have hn := hfew h4
    refine ⟨{ s with t := s.t.set p (Cell.liveCell k v), n := s.n + 1 }, ?_,
      (by simp only [SOp.sem, h4]; exact h.put_new v h1 h2 h3 h4 h5 hn hks hk (hfit h4)), rfl, by simp [h4]⟩
    have : ¬ s.n + 1 > thresh s.E := by omega
    simp only [SeqTable.insert, h6, SOp.sem, h4, this, if_false]

/-- An insertion or update that does not grow the table. -/
theorem insertOrUpdate_smallL {cm : Bool} {j : Nat} {s : St K V} {d : Dict K V} (h : GoodL cm j s d) (k : K) (v : V)
    (u : UpdFn V) {f : Nat} (hf : s.E.M.total + 1 ≤ f) (hfew : d k = none → s.n + 1 ≤ thresh s.E)
    {ks : List K} (hks : ∀ x, (d x).isSome = true → x ∈ ks) (hk : k ∈ ks) (hfit : d k = none → Fits cm j s.E.h ks) :
    ∃ s', SeqTable.insertOrUpdate f s k v u =
        .ok (s', ((SOp.insertOrModify k v fun w => (u.upd w, u.upd w)).sem d).2) ∧
      GoodL cm j s' ((SOp.insertOrModify k v fun w => (u.upd w, u.upd w)).sem d).1 ∧ s'.E = s.E ∧
      s'.n = s.n + (if d k = none then 1 else 0) := by
  obtain ⟨f, rfl⟩ : ∃ g, f = g + 1 := ⟨f - 1, by omega⟩
  rcases h.probe k hf with ⟨p, w, h1, h2, h3, h4⟩ | ⟨p, h1, h2, h3, h4, h5, h6⟩
  · obtain ⟨g1, g2⟩ := h.update u h1 h2
    refine ⟨{ s with t := s.t.set p (nonAtomicUpdate k (s.t p) u).1 }, ?_,
      (by simp only [SOp.sem, h3]; exact g1), rfl, by simp [h3]⟩
    simp only [SeqTable.insertOrUpdate, h4, SOp.sem, h3, g2]
  · have hn := hfew h4
    refine ⟨{ s with t := s.t.set p (Cell.liveCell k v), n := s.n + 1 }, ?_,
      (by simp only [SOp.sem, h4]; exact h.put_new v h1 h2 h3 h4 h5 hn hks hk (hfit h4)), rfl, by simp [h4]⟩
    have : ¬ s.n + 1 > thresh s.E := by omega
    simp only [SeqTable.insertOrUpdate, h6, SOp.sem, h4, this, if_false]

/-- The migration loop, as long as the target does not grow. -/
theorem migLoop_goodL {cm : Bool} {j : Nat} {t : Tbl K V} {f : Nat} {ks : List K} :
    ∀ (ps : List Nat) (tgt : St K V) (d : Dict K V),
    GoodL cm j tgt d → tgt.E.M.total + 1 ≤ f → Fits cm j tgt.E.h ks → (∀ x, (d x).isSome = true → x ∈ ks) →
    (∀ p ∈ ps, ∀ k v, (t p).c = .live k v → k ∈ ks) →
    ps.Nodup → (∀ p ∈ ps, ∀ q ∈ ps, ∀ k v w, (t p).c = .live k v → (t q).c = .live k w → p = q) →
    (∀ p ∈ ps, ∀ k v, (t p).c = .live k v → d k = none) →
    tgt.n + ps.countP (fun p => !(t p).isEmpty) ≤ thresh tgt.E →
    ∃ tgt' d', migLoop (SeqTable.insert f) t ps tgt = .ok tgt' ∧ GoodL cm j tgt' d' ∧ tgt'.E = tgt.E ∧
      tgt'.n ≤ tgt.n + ps.countP (fun p => !(t p).isEmpty) ∧
      ∀ k v, d' k = some v ↔ d k = some v ∨ ∃ p ∈ ps, (t p).c = .live k v := by
  intro ps
  induction ps with
  | nil =>
    intro tgt d h hf _ _ _ _ _ _ hc
    exact ⟨tgt, d, rfl, h, rfl, by simp, by simp⟩
  | cons p ps ih =>
    intro tgt d h hf hfit hks hps hnd hun habs hc
    rw [List.nodup_cons] at hnd
    rw [List.countP_cons] at hc
    have hun' : ∀ p ∈ ps, ∀ q ∈ ps, ∀ k v w, (t p).c = .live k v → (t q).c = .live k w → p = q :=
      fun a ha b hb => hun a (by simp [ha]) b (by simp [hb])
    have skip : (∀ k v, (t p).c ≠ .live k v) → migLoop (SeqTable.insert f) t (p :: ps) tgt =
          migLoop (SeqTable.insert f) t ps tgt →
        ∃ tgt' d', migLoop (SeqTable.insert f) t (p :: ps) tgt = .ok tgt' ∧ GoodL cm j tgt' d' ∧
          tgt'.E = tgt.E ∧
          tgt'.n ≤ tgt.n + (p :: ps).countP (fun p => !(t p).isEmpty) ∧
          ∀ k v, d' k = some v ↔ d k = some v ∨ ∃ q ∈ p :: ps, (t q).c = .live k v := by
      intro hno he
      obtain ⟨tgt', d', e1, e2, e3, e5, e6⟩ := ih tgt d h hf hfit hks (fun q hq => hps q (by simp [hq])) hnd.2 hun'
        (fun q hq => habs q (by simp [hq])) (by omega)
      refine ⟨tgt', d', by rw [he, e1], e2, e3, by rw [List.countP_cons]; omega, ?_⟩
      intro k v
      rw [e6 k v]
      simp [hno k v]
    cases hcell : (t p).c with
    | empty => exact skip (by simp [hcell]) (by simp only [migLoop, hcell])
    | deleted w => exact skip (by simp [hcell]) (by simp only [migLoop, hcell])
    | live k v =>
      have hk := habs p (by simp) k v hcell
      have hkm := hps p (by simp) k v hcell
      have hne : (!(t p).isEmpty) = true := by simp [Cell.isEmpty, hcell]
      simp only [hne, if_true] at hc
      obtain ⟨s1, g1, g2, g3, g5⟩ := insert_smallL h k v hf (fun _ => by omega) hks hkm (fun _ => hfit)
      simp only [SOp.sem, hk, if_true] at g1 g2 g5
      have hE : thresh s1.E = thresh tgt.E := by rw [g3]
      obtain ⟨tgt', d', e1, e2, e3, e5, e6⟩ := ih s1 (d.put k v) g2 (by rw [g3]; exact hf) (by rw [g3]; exact hfit)
        (by
          intro x hx
          by_cases hxk : x = k
          · subst hxk; exact hkm
          · rw [show (d.put k v) x = d x by simp [Dict.put, hxk]] at hx
            exact hks x hx)
        (fun q hq => hps q (by simp [hq])) hnd.2 hun' (by
          intro q hq k' v' hv'
          simp only [Dict.put]
          split
          · rename_i heq
            subst heq
            have := hun p (by simp) q (by simp [hq]) _ _ _ hcell hv'
            subst this
            exact absurd hq hnd.1
          · exact habs q (by simp [hq]) k' v' hv') (by rw [hE]; omega)
      refine ⟨tgt', d', by simp only [migLoop, hcell, g1, e1], e2, by rw [e3, g3], by
        rw [List.countP_cons]; simp only [hne, if_true]; omega, ?_⟩
      intro k' v'
      rw [e6 k' v']
      simp only [Dict.put, List.mem_cons]
      constructor
      · rintro (h1 | ⟨q, hq, h1⟩)
        · split at h1
          · rename_i heq; subst heq; cases h1; exact .inr ⟨p, .inl rfl, hcell⟩
          · exact .inl h1
        · exact .inr ⟨q, .inr hq, h1⟩
      · rintro (h1 | ⟨q, hq, h1⟩)
        · left
          split
          · rename_i heq; subst heq; rw [hk] at h1; cases h1
          · exact h1
        · rcases hq with rfl | hq
          · rw [hcell] at h1; cases h1; left; simp
          · exact .inr ⟨q, hq, h1⟩

/-- Growing: the new table has twice as many addressable slots and stores the same. -/
theorem grow_goodL {cm : Bool} {j : Nat} {s : St K V} {d : Dict K V} (h : GoodL cm j s d) {f : Nat}
    (hbig : s.n + 1 > thresh s.E) (hn : s.n + 1 < 2 ^ 40) (hf : 2 * s.E.M.total + 1 ≤ f)
    {ks : List K} (hks : ∀ x, (d x).isSome = true → x ∈ ks) (hfit : Fits cm (j + 1) s.E.h ks) :
    ∃ tgt, migLoop (SeqTable.insert f) s.t (List.range s.E.M.total) (growTarget s (s.n + 1)) =
        .ok tgt ∧ GoodL cm (j + 1) { tgt with n := s.n } d ∧ tgt.E.h = s.E.h ∧
      s.n + 1 ≤ thresh tgt.E ∧ tgt.E.M.total ≤ 2 * s.E.M.total ∧ s.E.M.total ≤ 2 * (s.n + 1) := by
  have hw := h.wf
  have htot := h.total
  have hk9 := hw.1
  have h512 : 2 ^ 9 ≤ 2 ^ j := Nat.pow_le_pow_right (by omega) hk9
  have hbig' := hbig
  unfold thresh at hbig'
  rw [htot] at hbig'
  have hk40 : j < 40 + 1 := by
    apply (Nat.pow_lt_pow_iff_right (by omega : 1 < 2)).1
    generalize 2 ^ j = A at *
    omega
  have hcall : (growTarget s (s.n + 1)).E.M = Mapper.mk' s.E.M.cm s.E.M.cp (2 ^ (j + 1))
      (if s.E.M.cm then 2 ^ j else 1) := by
    have hsub : Mapper.sub64 (s.n + 1) 0 = s.n + 1 := by unfold Mapper.sub64; omega
    have hfill : Mapper.fillAboveExact (s.n + 1) (2 ^ j) = true := by
      unfold Mapper.fillAboveExact
      generalize 2 ^ j = A at *
      simp only [decide_eq_true_eq]
      omega
    simp only [growTarget, Mapper.resize, hw.addr_eq, hsub, hfill, if_true]
    rw [Nat.shiftLeft_eq, Nat.pow_one, Nat.pow_succ]
  have hw' : (growTarget s (s.n + 1)).E.M.WF (j + 1) := by
    rw [hcall]; exact Mapper.wf_mk' (by omega) (by omega)
  have hcp' : (growTarget s (s.n + 1)).E.M.cp = false := by rw [hcall]; exact h.cp
  have hcm' : (growTarget s (s.n + 1)).E.M.cm = cm := by rw [hcall]; exact h.cm
  have htot' : (growTarget s (s.n + 1)).E.M.total = 2 * 2 ^ j + 1024 := by
    rw [hw'.total_eq]; simp [hcp', Nat.pow_succ, Nat.mul_comm]
  have h0 : GoodL cm (j + 1) (growTarget s (s.n + 1)) (fun _ => none) := by
    refine ⟨hw', hcm', hcp', h.hash, ?_, ?_, ?_, Stores.emptyTbl _, ?_, ?_, rfl⟩
    · intro p x v q _ hc; cases hc
    · intro p q x v w _ _ hc; cases hc
    · intro p v; simp [growTarget, emptyTbl, Cell.emptyCell]
    · simp [growTarget, occupied_empty]
    · simp [growTarget]
  have hth : s.n + 1 ≤ thresh (growTarget s (s.n + 1)).E := by
    have := h.few
    unfold thresh at this ⊢
    rw [htot']
    rw [htot] at this
    generalize 2 ^ j = A at *
    omega
  obtain ⟨tgt, d', e1, e2, e3, e5, e6⟩ := migLoop_goodL (t := s.t) (f := f) (ks := ks)
    (List.range s.E.M.total) _ _ h0 (by rw [htot']; omega) hfit (by simp)
    (fun p hp k v hv => hks k (by rw [(h.stores k v).2 ⟨p, List.mem_range.1 hp, hv⟩]; rfl)) List.nodup_range
    (fun p hp q hq k v w h1 h2 => h.uniq p q k v w (List.mem_range.1 hp) (List.mem_range.1 hq) h1 h2)
    (fun _ _ _ _ _ => rfl) (by
      have := h.occ
      unfold occupied at this
      show 0 + _ ≤ _
      omega)
  have hd : d' = d := by
    funext x
    apply Option.ext
    intro v
    rw [e6 x v, h.stores x v]
    simp
  subst hd
  have hE' : thresh tgt.E = thresh (growTarget s (s.n + 1)).E := by rw [e3]
  refine ⟨tgt, e1, ⟨e2.wf, e2.cm, e2.cp, e2.hash, e2.path, e2.uniq, e2.clean, e2.stores, ?_, ?_, e2.last⟩,
    by rw [e3]; rfl, by rw [hE']; exact hth, by rw [e3, htot', htot]; omega, ?_⟩
  · have h1 := e2.occ
    have h2 := h.occ
    unfold occupied at h2
    have h3 : (growTarget s (s.n + 1)).n = 0 := rfl
    show occupied tgt.E.M.total tgt.t ≤ s.n
    omega
  · show s.n ≤ thresh tgt.E
    omega
  · rw [htot]
    generalize 2 ^ j = A at *
    omega

/-- The keys present fit into every table that is large enough for their number. (specification, no code) -/
def FitsAll (cm : Bool) (k : Nat) (h : K → Nat) (ks : List K) : Prop :=
  ∀ j, k ≤ j → ks.length ≤ (2 ^ j + 1024) * 666 / 1000 → Fits cm j h ks

/-- One call without `erase`. -/
theorem exec_goodL {cm : Bool} {k0 j : Nat} (hj : k0 ≤ j) {s : St K V} {d : Dict K V} (h : GoodL cm j s d) {ks : List K}
    (hks : KeysOf d ks) (hlen : ks.length = s.n) (op : Op K V) (hop : op.noErase = true) {f B : Nat}
    (hfit : ∀ l, KeysOf (op.toSpec.sem d).1 l → FitsAll cm k0 s.E.h l)
    (hB : s.E.M.total ≤ B) (hB' : 4 * (s.n + 1) ≤ B) (hn : s.n + 1 < 2 ^ 40) (hf : B + 2 ≤ f) :
    ∃ s' ks' j', k0 ≤ j' ∧ exec f s op = .ok (s', (op.toSpec.sem d).2) ∧ GoodL cm j' s' (op.toSpec.sem d).1 ∧
      KeysOf (op.toSpec.sem d).1 ks' ∧ ks'.length = s'.n ∧ s'.n ≤ s.n + 1 ∧ s'.E.M.total ≤ B ∧ s'.E.h = s.E.h := by
  have hth : ∀ {j' : Nat} {s' : St K V} {d' : Dict K V}, GoodL cm j' s' d' →
      thresh s'.E = (2 ^ j' + 1024) * 666 / 1000 := by
    intro j' s' d' h'
    unfold thresh
    rw [h'.total]
  have hkeys : ∀ x, (d x).isSome = true → ∀ k, x ∈ k :: ks := fun x hx k =>
    List.mem_cons.2 (.inr ((hks.2 x).2 hx))
  cases op with
  | find k =>
    refine ⟨s, ks, j, hj, ?_, h, hks, hlen, Nat.le_succ _, hB, rfl⟩
    rcases h.probe k (f := f) (by omega) with ⟨p, w, h1, h2, h3, h4⟩ | ⟨p, h1, h2, h3, h4, h5, h6⟩
    · simp [exec, SeqTable.find, h4, Op.toSpec, SOp.sem, h3, Cell.val?, h2]
    · simp [exec, SeqTable.find, h6, Op.toSpec, SOp.sem, h4]
  | update k u =>
    rcases h.probe k (f := f) (by omega) with ⟨p, w, h1, h2, h3, h4⟩ | ⟨p, h1, h2, h3, h4, h5, h6⟩
    · obtain ⟨g1, g2⟩ := h.update u h1 h2
      refine ⟨{ s with t := s.t.set p (nonAtomicUpdate k (s.t p) u).1 },
        ks, j, hj, ?_, ?_, ?_, hlen, Nat.le_succ _, hB, rfl⟩
      · simp only [exec, SeqTable.update, h4, Op.toSpec, SOp.sem, h3, g2]
      · simp only [Op.toSpec, SOp.sem, h3]; exact g1
      · simp only [Op.toSpec, SOp.sem, h3]; exact hks.over _ h3
    · refine ⟨s, ks, j, hj, ?_, ?_, ?_, hlen, Nat.le_succ _, hB, rfl⟩
      · simp only [exec, SeqTable.update, h6, Op.toSpec, SOp.sem, h4]
      · simp only [Op.toSpec, SOp.sem, h4]; exact h
      · simp only [Op.toSpec, SOp.sem, h4]; exact hks
  | insert k v =>
    rcases Option.eq_none_or_eq_some (d k) with hd | ⟨w, hd⟩
    · have hk' : KeysOf (d.put k v) (k :: ks) := hks.put v hd
      have hfit' : FitsAll cm k0 s.E.h (k :: ks) := hfit _ (by simp only [Op.toSpec, SOp.sem, hd]; exact hk')
      by_cases hsmall : s.n + 1 ≤ thresh s.E
      · obtain ⟨s', h1, h2, h3, h4⟩ := insert_smallL h k v (f := f) (by omega) (fun _ => hsmall)
          (fun x hx => hkeys x hx k) (List.mem_cons_self ..)
          (fun _ => hfit' j hj (by rw [hth h] at hsmall; simp only [List.length_cons]; omega))
        simp only [hd, if_true] at h4
        refine ⟨s', k :: ks, j, hj, h1, h2, ?_, by simp [hlen, h4], by omega, by rw [h3]; exact hB, by rw [h3]⟩
        simp only [Op.toSpec, SOp.sem, hd]; exact hk'
      · have hbig : s.n + 1 > thresh s.E := by omega
        obtain ⟨f, rfl⟩ : ∃ g, f = g + 1 := ⟨f - 1, by omega⟩
        have hle : s.E.M.total ≤ 2 * (s.n + 1) := by
          have : s.n + 1 > s.E.M.total * 666 / 1000 := hbig
          omega
        have hfit1 : Fits cm (j + 1) s.E.h (k :: ks) := by
          apply hfit' (j + 1) (by omega)
          have := h.few
          rw [hth h] at this
          simp only [List.length_cons, hlen]
          have h512 : 2 ^ 9 ≤ 2 ^ j := Nat.pow_le_pow_right (by omega) h.wf.1
          rw [Nat.pow_succ]
          generalize 2 ^ j = A at *
          omega
        obtain ⟨tgt, g1, g2, g3, g5, g6, g7⟩ := grow_goodL h (f := f) hbig hn (by omega)
          (fun x hx => hkeys x hx k) hfit1
        obtain ⟨s', i1, i2, i3, i5⟩ := insert_smallL g2 k v (f := f) (by show tgt.E.M.total + 1 ≤ f; omega) (fun _ => g5)
          (fun x hx => hkeys x hx k) (List.mem_cons_self ..) (fun _ => by
            show Fits cm (j + 1) tgt.E.h _
            rw [g3]; exact hfit1)
        simp only [hd, if_true] at i5
        have i5' : s'.n = s.n + 1 := i5
        rcases h.probe k (f := f + 1) (by omega) with ⟨p, w, h1, h2, h3, h4⟩ | ⟨p, h1, h2, h3, h4, h5, h6⟩
        · rw [hd] at h3; cases h3
        · refine ⟨s', k :: ks, j + 1, by omega, ?_, i2, ?_, by simp [hlen, i5'], by omega,
            by rw [i3]; show tgt.E.M.total ≤ B; omega, by rw [i3]; exact g3⟩
          · simp only [exec, SeqTable.insert, h6, hbig, if_true, g1, Nat.add_sub_cancel]
            exact i1
          · simp only [Op.toSpec, SOp.sem, hd]; exact hk'
    · rcases h.probe k (f := f) (by omega) with ⟨p, x, h1, h2, h3, h4⟩ | ⟨p, h1, h2, h3, h4, h5, h6⟩
      · obtain ⟨f, rfl⟩ : ∃ g, f = g + 1 := ⟨f - 1, by omega⟩
        refine ⟨s, ks, j, hj, ?_, ?_, ?_, hlen, Nat.le_succ _, hB, rfl⟩
        · simp only [exec, SeqTable.insert, h4, Op.toSpec, SOp.sem, h3, Cell.val?, h2]
        · simp only [Op.toSpec, SOp.sem, h3]; exact h
        · simp only [Op.toSpec, SOp.sem, h3]; exact hks
      · rw [hd] at h4; cases h4
  | insertOrUpdate k v u =>
    rcases Option.eq_none_or_eq_some (d k) with hd | ⟨w, hd⟩
    · have hk' : KeysOf (d.put k v) (k :: ks) := hks.put v hd
      have hfit' : FitsAll cm k0 s.E.h (k :: ks) := hfit _ (by simp only [Op.toSpec, SOp.sem, hd]; exact hk')
      by_cases hsmall : s.n + 1 ≤ thresh s.E
      · obtain ⟨s', h1, h2, h3, h4⟩ := insertOrUpdate_smallL h k v u (f := f) (by omega) (fun _ => hsmall)
          (fun x hx => hkeys x hx k) (List.mem_cons_self ..)
          (fun _ => hfit' j hj (by rw [hth h] at hsmall; simp only [List.length_cons]; omega))
        simp only [hd, if_true] at h4
        refine ⟨s', k :: ks, j, hj, h1, h2, ?_, by simp [hlen, h4], by omega, by rw [h3]; exact hB, by rw [h3]⟩
        simp only [Op.toSpec, SOp.sem, hd]; exact hk'
      · have hbig : s.n + 1 > thresh s.E := by omega
        obtain ⟨f, rfl⟩ : ∃ g, f = g + 1 := ⟨f - 1, by omega⟩
        have hle : s.E.M.total ≤ 2 * (s.n + 1) := by
          have : s.n + 1 > s.E.M.total * 666 / 1000 := hbig
          omega
        have hfit1 : Fits cm (j + 1) s.E.h (k :: ks) := by
          apply hfit' (j + 1) (by omega)
          have := h.few
          rw [hth h] at this
          simp only [List.length_cons, hlen]
          have h512 : 2 ^ 9 ≤ 2 ^ j := Nat.pow_le_pow_right (by omega) h.wf.1
          rw [Nat.pow_succ]
          generalize 2 ^ j = A at *
          omega
        obtain ⟨tgt, g1, g2, g3, g5, g6, g7⟩ := grow_goodL h (f := f) hbig hn (by omega)
          (fun x hx => hkeys x hx k) hfit1
        obtain ⟨s', i1, i2, i3, i5⟩ := insertOrUpdate_smallL g2 k v u (f := f)
          (by show tgt.E.M.total + 1 ≤ f; omega) (fun _ => g5)
          (fun x hx => hkeys x hx k) (List.mem_cons_self ..) (fun _ => by
            show Fits cm (j + 1) tgt.E.h _
            rw [g3]; exact hfit1)
        simp only [hd, if_true] at i5
        have i5' : s'.n = s.n + 1 := i5
        rcases h.probe k (f := f + 1) (by omega) with ⟨p, w, h1, h2, h3, h4⟩ | ⟨p, h1, h2, h3, h4, h5, h6⟩
        · rw [hd] at h3; cases h3
        · refine ⟨s', k :: ks, j + 1, by omega, ?_, i2, ?_, by simp [hlen, i5'], by omega,
            by rw [i3]; show tgt.E.M.total ≤ B; omega, by rw [i3]; exact g3⟩
          · simp only [exec, SeqTable.insertOrUpdate, h6, hbig, if_true, g1, Nat.add_sub_cancel]
            exact i1
          · simp only [Op.toSpec, SOp.sem, hd]; exact hk'
    · rcases h.probe k (f := f) (by omega) with ⟨p, x, h1, h2, h3, h4⟩ | ⟨p, h1, h2, h3, h4, h5, h6⟩
      · obtain ⟨f, rfl⟩ : ∃ g, f = g + 1 := ⟨f - 1, by omega⟩
        obtain ⟨g1, g2⟩ := h.update u h1 h2
        refine ⟨{ s with t := s.t.set p (nonAtomicUpdate k (s.t p) u).1 },
          ks, j, hj, ?_, ?_, ?_, hlen, Nat.le_succ _, hB, rfl⟩
        · simp only [exec, SeqTable.insertOrUpdate, h4, Op.toSpec, SOp.sem, h3, g2]
        · simp only [Op.toSpec, SOp.sem, h3]; exact g1
        · simp only [Op.toSpec, SOp.sem, h3]; exact hks.over _ h3
      · rw [hd] at h4; cases h4
  | erase k => cases hop

theorem execAll_goodL {cm : Bool} {k0 f B : Nat} (hf : B + 2 ≤ f) : ∀ (ops : List (Op K V)) (j : Nat)
    (s : St K V) (d : Dict K V) (ks : List K), k0 ≤ j → GoodL cm j s d → KeysOf d ks → ks.length = s.n →
    (∀ op ∈ ops, op.noErase = true) →
    (∀ pre suf, ops = pre ++ suf → ∀ l, KeysOf (SOp.semAll (pre.map Op.toSpec) d).1 l → FitsAll cm k0 s.E.h l) →
    s.E.M.total ≤ B → 4 * (s.n + ops.length) ≤ B → s.n + ops.length < 2 ^ 40 →
    ∃ s' j', execAll f s ops = .ok (s', (SOp.semAll (ops.map Op.toSpec) d).2) ∧
      GoodL cm j' s' (SOp.semAll (ops.map Op.toSpec) d).1 := by
  intro ops
  induction ops with
  | nil => intro j s d ks _ h _ _ _ _ _ _ _; exact ⟨s, j, rfl, h⟩
  | cons op ops ih =>
    intro j s d ks hj h hk hl hno hfit hB hB' hn
    simp only [List.length_cons] at hB' hn
    obtain ⟨s1, ks1, j1, h1, h2, h3, h4, h5, h6, h7, h8⟩ := exec_goodL hj h hk hl op (hno op (by simp))
      (fun l hl' => hfit [op] ops rfl l (by simpa [SOp.semAll] using hl')) hB (by omega) (by omega) hf
    obtain ⟨s2, j2, g1, g2⟩ := ih j1 s1 _ ks1 h1 h3 h4 h5 (fun o ho => hno o (by simp [ho]))
      (fun pre suf he l hl' => by
        rw [h8]
        exact hfit (op :: pre) suf (by rw [he]; rfl) l (by simpa [SOp.semAll] using hl'))
      h7 (by omega) (by omega)
    exact ⟨s2, j2, by simp only [execAll, h2, g1, List.map_cons, SOp.semAll], g2⟩

theorem GoodL.new (cm : Bool) {h : K → Nat} (hh : ∀ x, h x < 2 ^ 64) {k : Nat} (hk : 9 ≤ k) (hk' : k ≤ 63) :
    GoodL cm k (St.new cm false h k : St K V) (fun _ => none) := by
  refine ⟨Mapper.wf_mk' hk hk', rfl, rfl, hh, ?_, ?_, ?_, Stores.emptyTbl _, ?_, Nat.zero_le _, rfl⟩
  · intro p x v q _ hc; cases hc
  · intro p q x v w _ _ hc; cases hc
  · intro p v; simp [St.new, emptyTbl, Cell.emptyCell]
  · simp [St.new, occupied_empty]

/-- **C89, the part that holds.**  A sequence of calls without `erase` on a new sequential table with linear probing
completes without an access outside the allocation and returns what an ideal map returns - if after every call the
present keys leave the last slot free, in every table that is large enough for their number.  (Missing: sequences where
they do not, for which the statement is false, see `C89_leaves_allocation`, and `erase`, C46.) -/
theorem C89_linear_probing_partial (cm : Bool) {h : K → Nat} (hh : ∀ x, h x < 2 ^ 64) {k : Nat}
    (hk : 9 ≤ k) (hk' : k ≤ 63) (ops : List (Op K V)) (hno : ∀ op ∈ ops, op.noErase = true)
    (hfit : ∀ pre suf, ops = pre ++ suf → ∀ ks, KeysOf (SOp.semAll (pre.map Op.toSpec) fun _ => none).1 ks →
      FitsAll cm k h ks)
    (hfew : ops.length < 2 ^ 40) {f : Nat} (hf : 2 ^ k + 1024 + 4 * ops.length + 2 ≤ f) :
    ∃ s', execAll f (St.new cm false h k) ops = .ok (s', (SOp.semAll (ops.map Op.toSpec) fun _ => none).2) ∧
      Stores s'.E s'.t (SOp.semAll (ops.map Op.toSpec) fun _ => none).1 := by
  have h0 := GoodL.new (V := V) cm hh hk hk'
  obtain ⟨s', j', h1, h2⟩ := execAll_goodL (k0 := k) (B := 2 ^ k + 1024 + 4 * ops.length) hf ops k _ _ []
    (Nat.le_refl _) h0 ⟨List.nodup_nil, by simp⟩ rfl hno hfit (by rw [h0.total]; omega)
    (by show 4 * (0 + ops.length) ≤ _; have := Nat.two_pow_pos k; omega) (by show 0 + ops.length < _; omega)
  exact ⟨s', h1, h2.stores⟩

theorem sem_keys (op : SOp K V) (d : Dict K V) (x : K) (h : ((op.sem d).1 x).isSome = true) :
    x = op.key ∨ (d x).isSome = true := by
  by_cases hx : x = op.key
  · exact .inl hx
  · right
    cases op <;> simp only [SOp.key] at hx <;> simp only [SOp.sem] at h
    case find => exact h
    case insert => split at h <;> simpa [Dict.put, hx] using h
    case modify => split at h <;> simpa [Dict.put, hx] using h
    case insertOrModify => split at h <;> simpa [Dict.put, hx] using h
    case erase => split at h <;> simpa [Dict.del, hx] using h
    case eraseIf => split at h <;> simpa [Dict.del, hx] using h

theorem semAll_keys : ∀ (ops : List (SOp K V)) (d : Dict K V) (x : K), ((SOp.semAll ops d).1 x).isSome = true →
    x ∈ ops.map SOp.key ∨ (d x).isSome = true := by
  intro ops
  induction ops with
  | nil => intro d x h; exact .inr h
  | cons op ops ih =>
    intro d x h
    rcases ih _ x h with h1 | h1
    · exact .inl (by simp [h1])
    · rcases sem_keys op d x h1 with h2 | h2
      · exact .inl (by simp [h2])
      · exact .inr h2

/-- **C89** for at most 1024 different keys: every sequence of calls without `erase` about them, with any hash function. -/
theorem C89_few_keys_partial (cm : Bool) {h : K → Nat} (hh : ∀ x, h x < 2 ^ 64) {k : Nat}
    (hk : 9 ≤ k) (hk' : k ≤ 63) (ops : List (Op K V)) (hno : ∀ op ∈ ops, op.noErase = true)
    {l : List K} (hl : l.length ≤ 1024) (hkeys : ∀ op ∈ ops, op.toSpec.key ∈ l)
    (hfew : ops.length < 2 ^ 40) {f : Nat} (hf : 2 ^ k + 1024 + 4 * ops.length + 2 ≤ f) :
    ∃ s', execAll f (St.new cm false h k) ops = .ok (s', (SOp.semAll (ops.map Op.toSpec) fun _ => none).2) ∧
      Stores s'.E s'.t (SOp.semAll (ops.map Op.toSpec) fun _ => none).1 := by
  refine C89_linear_probing_partial cm hh hk hk' ops hno ?_ hfew hf
  intro pre suf he ks hks j _ _ a ha
  have h1 : ks.length ≤ l.length := hks.1.length_le_of_subset (fun x hx => by
    rcases semAll_keys _ _ x ((hks.2 x).1 hx) with h2 | h2
    · simp only [List.map_map, List.mem_map, Function.comp] at h2
      obtain ⟨op, h3, rfl⟩ := h2
      exact hkeys op (by rw [he]; simp [h3])
    · cases h2)
  have h2 := List.length_filter_le (fun x => decide (a ≤ homeSlot cm j (h x))) ks
  omega

/-! ### Leaving the allocation -/

/-- The table after `m` insertions of keys with the same home slot. (proof, no code) -/
def runTab (o : Nat) (key : Nat → K) (v : V) (m : Nat) : Tbl K V :=
  fun p => if o ≤ p ∧ p < o + m then Cell.liveCell (key (p - o)) v else Cell.emptyCell

theorem probe_run {E : Env K} (hcp : E.M.cp = false) {o : Nat} {key : Nat → K} {v : V} {m n : Nat} (hm : m ≤ n)
    (hinj : ∀ a, a < n → key a ≠ key n) (hb : o + m ≤ E.M.total) : ∀ f i, i ≤ m → m - i < f →
    probe E (runTab o key v m) (key n) f (o + i) = if o + m < E.M.total then .ok (.stop (o + m)) else .oob := by
  intro f
  induction f with
  | zero => intro i _ h; omega
  | succ f ih =>
    intro i hi hf
    simp only [probe, Mapper.remap_lin hcp]
    by_cases he : i = m
    · subst he
      by_cases hlt : o + i < E.M.total
      · simp [hlt, runTab, Cell.emptyCell, Cell.hasKey, Cell.isEmpty]
      · simp [hlt]
    · have hlt : o + i < E.M.total := by omega
      have hcell : runTab o key v m (o + i) = Cell.liveCell (key i) v := by
        unfold runTab
        rw [if_pos ⟨by omega, by omega⟩, Nat.add_sub_cancel_left]
      rw [if_pos hlt, hcell]
      have hne : key i ≠ key n := hinj i (by omega)
      simp only [Cell.liveCell, Cell.hasKey, Cell.isEmpty, hne, decide_false, Bool.false_eq_true, if_false]
      exact ih (i + 1) (by omega) (by omega)

theorem runTab_set (o : Nat) (key : Nat → K) (v : V) (m : Nat) :
    (runTab o key v m).set (o + m) (Cell.liveCell (key m) v) = runTab o key v (m + 1) := by
  funext p
  unfold Tbl.set runTab
  by_cases hp : p = o + m
  · subst hp
    rw [if_pos rfl, if_pos ⟨by omega, by omega⟩, Nat.add_sub_cancel_left]
  · rw [if_neg hp]
    by_cases h1 : o ≤ p ∧ p < o + m
    · rw [if_pos h1, if_pos ⟨h1.1, by omega⟩]
    · rw [if_neg h1, if_neg (by omega)]

theorem insert_run {E : Env K} (hcp : E.M.cp = false) {o : Nat} {key : Nat → K} {v : V} {N : Nat}
    (hinj : ∀ a b, a < b → b ≤ N → key a ≠ key b) (hhome : ∀ a, a ≤ N → E.M.map (E.h (key a)) = o)
    (hN : o + N ≤ E.M.total) (hth : N ≤ thresh E) (version : Nat) {f : Nat} (hf : N < f) : ∀ c m, m + c = N →
    execAll f ⟨E, runTab o key v m, m, version⟩ ((List.range' m c).map fun i => Op.insert (key i) v) =
      .ok (⟨E, runTab o key v N, N, version⟩, (List.range' m c).map fun _ => ⟨true, some v⟩) := by
  intro c
  induction c with
  | zero => intro m hm; simp only [Nat.add_zero] at hm; subst hm; rfl
  | succ c ih =>
    intro m hm
    obtain ⟨g, rfl⟩ : ∃ g, f = g + 1 := ⟨f - 1, by omega⟩
    have hp := probe_run (v := v) (m := m) (n := m) (o := o) (key := key) hcp (Nat.le_refl _) (fun a ha => hinj a m ha (by omega))
      (by omega) (g + 1) 0 (Nat.zero_le _) (by omega)
    rw [if_pos (by omega)] at hp
    have hp : probe E (runTab o key v m) (key m) (g + 1) o = .ok (.stop (o + m)) := hp
    have hi : exec (g + 1) ⟨E, runTab o key v m, m, version⟩ (.insert (key m) v) =
        .ok (⟨E, runTab o key v (m + 1), m + 1, version⟩, ⟨true, some v⟩) := by
      have hle : ¬ m + 1 > thresh E := by omega
      simp only [exec, SeqTable.insert, hhome m (by omega), hp, hle, if_false, runTab_set]
    rw [List.range'_succ]
    simp only [List.map_cons, execAll, hi, ih (m + 1) (by omega)]

theorem home_top (cm : Bool) {k : Nat} (hk : k ≤ 63) : homeSlot cm k (2 ^ 64 - 1) = 2 ^ k - 1 := by
  have h1 : 2 ^ k * 2 ^ (64 - k) = 2 ^ 64 := by rw [← Nat.pow_add]; congr 1; omega
  have h2 : 0 < 2 ^ k := Nat.two_pow_pos k
  have h3 : 0 < 2 ^ (64 - k) := Nat.two_pow_pos _
  unfold homeSlot
  cases cm with
  | true =>
    rw [if_pos rfl, show 2 ^ 64 - 1 = 2 ^ k - 1 + 2 ^ k * (2 ^ (64 - k) - 1) by
      rw [Nat.mul_sub, h1, Nat.mul_one]
      have : 2 ^ k ≤ 2 ^ 64 := Nat.pow_le_pow_right (by omega) (by omega)
      omega, Nat.add_mul_mod_self_left, Nat.mod_eq_of_lt (by omega)]
  | false =>
    rw [if_neg (by simp)]
    apply Nat.div_eq_of_lt_le
    · rw [Nat.sub_mul, h1, Nat.one_mul]; omega
    · rw [Nat.sub_add_cancel h2, h1]; omega

/-- **C89 is violated.**  In every new table with at least 1024 addressable slots: insert 1025 different keys with the
hash value `2^64 - 1`, all insertions succeed without growing the table; then the search for any further key with this
hash value reads behind the allocation. -/
theorem C89_leaves_allocation (cm : Bool) {h : K → Nat} {k : Nat} (hk : 10 ≤ k) (hk' : k ≤ 63) {key : Nat → K} (v : V)
    (hinj : ∀ a b, a < b → b ≤ 1025 → key a ≠ key b) (hh : ∀ a, a ≤ 1025 → h (key a) = 2 ^ 64 - 1) {f : Nat}
    (hf : 1026 ≤ f) :
    ∃ s' : St K V, execAll f (St.new cm false h k) ((List.range 1025).map fun i => Op.insert (key i) v) =
        .ok (s', (List.range 1025).map fun _ => ⟨true, some v⟩) ∧ s'.version = 0 ∧
      SeqTable.find f s' (key 1025) = .oob := by
  have hw : (Mapper.mk' cm false (2 ^ k) 0).WF k := Mapper.wf_mk' (by omega) hk'
  have hcp : (Mapper.mk' cm false (2 ^ k) 0).cp = false := rfl
  have htot : (Mapper.mk' cm false (2 ^ k) 0).total = 2 ^ k + 1024 := by rw [hw.total_eq]; simp
  have hpow : 2 ^ 10 ≤ 2 ^ k := Nat.pow_le_pow_right (by omega) hk
  have hhome : ∀ a, a ≤ 1025 → (Mapper.mk' cm false (2 ^ k) 0).map (h (key a)) = 2 ^ k - 1 := by
    intro a ha
    rw [map_home hw, hh a ha]
    exact home_top cm hk'
  have hnew : (St.new cm false h k : St K V) =
      ⟨⟨Mapper.mk' cm false (2 ^ k) 0, h, false⟩, runTab (2 ^ k - 1) key v 0, 0, 0⟩ := by
    have : (emptyTbl : Tbl K V) = runTab (2 ^ k - 1) key v 0 := by
      funext p
      unfold runTab
      rw [if_neg (by omega)]
      rfl
    unfold St.new
    rw [this]
  have hrun := insert_run (E := ⟨Mapper.mk' cm false (2 ^ k) 0, h, false⟩) (v := v) hcp (N := 1025) hinj hhome
    (by show 2 ^ k - 1 + 1025 ≤ (Mapper.mk' cm false (2 ^ k) 0).total; rw [htot]; omega)
    (by show 1025 ≤ (Mapper.mk' cm false (2 ^ k) 0).total * 666 / 1000; rw [htot]; omega) 0 (f := f) (by omega)
    1025 0 rfl
  refine ⟨_, by rw [hnew, List.range_eq_range']; exact hrun, rfl, ?_⟩
  have hp := probe_run (E := ⟨Mapper.mk' cm false (2 ^ k) 0, h, false⟩) (v := v) hcp (m := 1025) (n := 1025)
    (o := 2 ^ k - 1) (key := key)
    (Nat.le_refl _) (fun a ha => hinj a 1025 ha (Nat.le_refl _))
    (by show 2 ^ k - 1 + 1025 ≤ (Mapper.mk' cm false (2 ^ k) 0).total; rw [htot]; omega) f 0 (Nat.zero_le _) (by omega)
  rw [if_neg (by show ¬ 2 ^ k - 1 + 1025 < (Mapper.mk' cm false (2 ^ k) 0).total; rw [htot]; omega), Nat.add_zero] at hp
  simp only [SeqTable.find]
  rw [show (Mapper.mk' cm false (2 ^ k) 0).map (h (key 1025)) = 2 ^ k - 1 from hhome 1025 (Nat.le_refl _), hp]

theorem semAll_inserts (v : Nat) (ks : List Nat) : ∀ (d : Dict Nat Nat) (x : Nat),
    ((SOp.semAll ((ks.map fun i => Op.insert i v).map Op.toSpec) d).1 x).isSome = true ↔
      (d x).isSome = true ∨ x ∈ ks := by
  induction ks with
  | nil => intro d x; simp [SOp.semAll]
  | cons a ks ih =>
    intro d x
    have hstep : ((((Op.insert a v).toSpec : SOp Nat Nat).sem d).1 x).isSome = true ↔ (d x).isSome = true ∨ x = a := by
      simp only [Op.toSpec, SOp.sem]
      rcases Option.eq_none_or_eq_some (d a) with hd | ⟨w, hd⟩
      · simp only [hd, Dict.put]
        by_cases hx : x = a
        · simp [hx]
        · simp [hx]
      · simp only [hd]
        constructor
        · exact .inl
        · rintro (h | rfl)
          · exact h
          · rw [hd]; rfl
    simp only [List.map_cons, SOp.semAll]
    rw [ih, hstep, List.mem_cons, or_assoc]

/-- The hypotheses of C89 are met: inserting the numbers below any `n < 2^40` with the identity as hash function, with
all the growing this takes; and 1025 numbers with a constant hash function for the violation. -/
theorem C89_not_vacuous :
    (∀ n, n < 2 ^ 40 → ∃ s' : St Nat Nat, execAll (2 ^ 11 + 1024 + 4 * n + 2) (St.new true false (fun x => x % 2 ^ 64) 11)
        ((List.range n).map fun i => Op.insert i 7) =
          .ok (s', (SOp.semAll (((List.range n).map fun i => Op.insert i 7).map Op.toSpec) fun _ => none).2) ∧
      Stores s'.E s'.t (SOp.semAll (((List.range n).map fun i => Op.insert i 7).map Op.toSpec) fun _ => none).1) ∧
    (∃ s' : St Nat Nat, execAll 1026 (St.new false false (fun _ => 2 ^ 64 - 1) 11)
        ((List.range 1025).map fun i => Op.insert i 7) = .ok (s', (List.range 1025).map fun _ => ⟨true, some 7⟩) ∧
      s'.version = 0 ∧ SeqTable.find 1026 s' 1025 = .oob) := by
  refine ⟨fun n hn => ?_, ?_⟩
  · refine C89_linear_probing_partial true (fun x => Nat.mod_lt _ (by omega)) (by omega) (by omega) _ ?_ ?_ (by simpa) ?_
    · intro op hop
      obtain ⟨i, _, rfl⟩ := List.mem_map.1 hop
      rfl
    · intro pre suf he ks hks j hj hlen a ha
      have hm : pre = (List.range pre.length).map fun i => Op.insert i 7 := by
        have h1 := congrArg (List.take pre.length) he
        rw [List.take_left, ← List.map_take, List.take_range] at h1
        have h2 := congrArg List.length he
        simp only [List.length_map, List.length_range, List.length_append] at h2
        rw [Nat.min_eq_left (by omega)] at h1
        exact h1.symm
      have hmem : ∀ x, x ∈ ks ↔ x < pre.length := by
        intro x
        rw [hks.2 x, hm, semAll_inserts]
        simp
      have hlen1 : pre.length ≤ ks.length := by
        have := (List.nodup_range (n := pre.length)).length_le_of_subset (l₂ := ks)
          (fun x hx => (hmem x).2 (List.mem_range.1 hx))
        simpa using this
      have hpow : 2 ^ 11 ≤ 2 ^ j := Nat.pow_le_pow_right (by omega) hj
      have hlt : ∀ x ∈ ks, x < 2 ^ j := fun x hx => by
        have := (hmem x).1 hx
        omega
      have hnd : (ks.filter fun x => decide (a ≤ homeSlot true j (x % 2 ^ 64))).Nodup := hks.1.filter _
      have h2 := List.Nodup.length_le_of_subset hnd (l₂ := List.range' a (2 ^ j - a)) (by
        intro x hx
        obtain ⟨h3, h4⟩ := List.mem_filter.1 hx
        have h5 := hlt x h3
        have h6 : x < n := by
          have h7 := (hmem x).1 h3
          have h8 := congrArg List.length he
          simp only [List.length_map, List.length_range, List.length_append] at h8
          omega
        simp only [decide_eq_true_eq, homeSlot, if_true, Nat.mod_eq_of_lt (show x < 2 ^ 64 by omega),
          Nat.mod_eq_of_lt h5] at h4
        rw [List.mem_range'_1]
        omega)
      rw [List.length_range'] at h2
      show (ks.filter fun x => decide (a ≤ homeSlot true j (x % 2 ^ 64))).length + a < 2 ^ j + 1024
      omega
    · simp
  · exact C89_leaves_allocation false (by omega) (by omega) (key := fun i => i) 7 (fun a b h _ => by omega)
      (fun _ _ => rfl) (Nat.le_refl _)

end
end SeqTable
end Growt
