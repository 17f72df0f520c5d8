import Verif.BaseOps
import Verif.MapperLemmas

/-!
# Table invariant and the central step lemma
-/

set_option linter.unusedSectionVars false

namespace Growt
section
variable {K V : Type}

/-- All slots probed for `k` before index `i` are occupied by something else than `k`. (proof, no code) -/
def Passed (E : Env K) (t : Tbl K V) (k : K) (i : Nat) : Prop :=
  E.M.map (E.h k) ≤ i ∧ ∀ j, E.M.map (E.h k) ≤ j → j < i →
    (t (E.M.remap j)).c ≠ .empty ∧ ∀ v, (t (E.M.remap j)).c ≠ .live k v

/-- Table invariant: every element is reachable by the probe sequence of its key and comes first in
it; with linear probing the slots beyond `addressable + 300` are empty. (proof, no code) -/
structure Inv (E : Env K) (t : Tbl K V) : Prop where
  reach : ∀ p k v, p < E.M.total → (t p).c = .live k v →
    ∃ i, E.M.remap i = p ∧ Passed E t k i
  tail : E.M.cp = false → ∀ p, p > E.M.addr + 300 → (t p).c = .empty

/-- Environment sanity: power of two geometry, 64 bit hash values. (assumption on the mapper of `base_linear.hpp:1300-1407` and the hash function) -/
structure Env.OK (E : Env K) : Prop where
  wf : ∃ n, E.M.WF n
  hash : ∀ k, E.h k < 2 ^ 64

/-- Cells only evolve `empty → live → … → deleted`; a non-empty cell never becomes empty nor
changes to another key. (proof, no code) -/
def CellLe (x y : Content K V) : Prop :=
  (x ≠ .empty → y ≠ .empty) ∧
    ∀ k v, y = .live k v → x = .empty ∨ ∃ w, x = .live k w

/-- Proof, no code. -/
def Evolves (t t' : Tbl K V) : Prop := ∀ p, CellLe (t p).c (t' p).c

theorem CellLe.refl (x : Content K V) : CellLe x x :=
  ⟨id, fun _ v h => .inr ⟨v, h⟩⟩

theorem CellLe.trans {x y z : Content K V} (h1 : CellLe x y) (h2 : CellLe y z) : CellLe x z := by
  refine ⟨fun h => h2.1 (h1.1 h), fun k v h => ?_⟩
  rcases h2.2 k v h with h | ⟨w, h⟩
  · by_cases hx : x = .empty
    · exact .inl hx
    · exact absurd h (h1.1 hx)
  · exact h1.2 k w h

theorem Evolves.refl (t : Tbl K V) : Evolves t t := fun _ => CellLe.refl _

theorem Evolves.trans {t t' t'' : Tbl K V} (h : Evolves t t') (h' : Evolves t' t'') :
    Evolves t t'' := fun p => (h p).trans (h' p)

theorem Evolves.set {t : Tbl K V} {p : Nat} {x : Cell K V} (h : CellLe (t p).c x.c) :
    Evolves t (t.set p x) := by
  intro q
  unfold Tbl.set
  split
  · subst q; exact h
  · exact CellLe.refl _

theorem Passed.evolve {E : Env K} {t t' : Tbl K V} {k : K} {i : Nat}
    (h : Passed E t k i) (he : Evolves t t') : Passed E t' k i := by
  refine ⟨h.1, fun j hj hi => ?_⟩
  obtain ⟨h1, h2⟩ := h.2 j hj hi
  refine ⟨(he _).1 h1, fun v hv => ?_⟩
  rcases (he _).2 k v hv with h | ⟨w, h⟩
  · exact h1 h
  · exact h2 w h

theorem Passed.start (E : Env K) (t : Tbl K V) (k : K) : Passed E t k (E.M.map (E.h k)) :=
  ⟨Nat.le_refl _, fun j h1 h2 => by omega⟩

theorem Passed.succ {E : Env K} {t : Tbl K V} {k : K} {i : Nat} (h : Passed E t k i)
    (h1 : (t (E.M.remap i)).c ≠ .empty) (h2 : ∀ v, (t (E.M.remap i)).c ≠ .live k v) :
    Passed E t k (i + 1) := by
  refine ⟨by have := h.1; omega, fun j hj hi => ?_⟩
  by_cases hji : j = i
  · subst hji; exact ⟨h1, h2⟩
  · exact h.2 j hj (by omega)

/-- Probe indices stay inside the allocation. -/
theorem Passed.inBounds {E : Env K} {t : Tbl K V} {k : K} {i : Nat} (hE : E.OK)
    (hI : Inv E t) (h : Passed E t k i) : E.M.remap i < E.M.total := by
  obtain ⟨n, hw⟩ := hE.wf
  cases hc : E.M.cp
  · have hm := hw.map_lt (hE.hash k)
    rw [Mapper.remap_lin hc]
    have ht := hw.total_eq
    have ha := hw.addr_eq
    simp only [hc] at ht
    by_cases hlt : i ≤ E.M.addr + 301
    · rw [ha] at hlt
      simp only [Bool.false_eq_true, if_false] at ht
      omega
    · exfalso
      have := (h.2 (E.M.addr + 301) (by omega) (by omega)).1
      rw [Mapper.remap_lin hc] at this
      exact this (hI.tail hc _ (by omega))
  · exact hw.remap_lt_cp hc i

/-- Probe indices with linear probing are at most `addressable + 301`. -/
theorem Passed.le_lin {E : Env K} {t : Tbl K V} {k : K} {i : Nat} (hE : E.OK)
    (hI : Inv E t) (hc : E.M.cp = false) (h : Passed E t k i) : i ≤ E.M.addr + 301 := by
  obtain ⟨n, hw⟩ := hE.wf
  have hm := hw.map_lt (hE.hash k)
  by_cases hlt : i ≤ E.M.addr + 301
  · exact hlt
  · exfalso
    have := (h.2 (E.M.addr + 301) (by omega) (by omega)).1
    rw [Mapper.remap_lin hc] at this
    exact this (hI.tail hc _ (by omega))

theorem Inv.unique {E : Env K} {t : Tbl K V} (hI : Inv E t) {p q : Nat} {k : K} {v w : V}
    (hp : p < E.M.total) (hq : q < E.M.total)
    (h1 : (t p).c = .live k v) (h2 : (t q).c = .live k w) : p = q := by
  obtain ⟨i, hi, hpi⟩ := hI.reach p k v hp h1
  obtain ⟨j, hj, hpj⟩ := hI.reach q k w hq h2
  rcases Nat.lt_trichotomy i j with h | h | h
  · exact absurd (by rw [hi]; exact h1) ((hpj.2 i hpi.1 h).2 v)
  · rw [← hi, ← hj, h]
  · exact absurd (by rw [hj]; exact h2) ((hpi.2 j hpj.1 h).2 w)

/-- Reaching an empty slot means the key is nowhere. -/
theorem Inv.absent {E : Env K} {t : Tbl K V} (hI : Inv E t) {k : K} {i : Nat}
    (hp : Passed E t k i) (he : (t (E.M.remap i)).c = .empty) {p : Nat} {v : V}
    (hlt : p < E.M.total) : (t p).c ≠ .live k v := by
  intro h
  obtain ⟨j, hj, hpj⟩ := hI.reach p k v hlt h
  rcases Nat.lt_trichotomy i j with h' | h' | h'
  · exact (hpj.2 i hp.1 h').1 he
  · subst h'; rw [hj, h] at he; cases he
  · exact (hp.2 j hpj.1 h').2 v (by rw [hj]; exact h)

/-- A slot that is not empty may be changed in place to a successor state. -/
theorem Inv.setEvolve {E : Env K} {t : Tbl K V} (hI : Inv E t) {p : Nat} {x : Cell K V}
    (h0 : (t p).c ≠ .empty) (hle : CellLe (t p).c x.c) :
    Inv E (t.set p x) := by
  constructor
  · intro q k v hq hv
    have hev : Evolves t (t.set p x) := Evolves.set hle
    have : ∃ w, (t q).c = .live k w := by
      unfold Tbl.set at hv
      split at hv
      · subst q
        rcases hle.2 k v hv with h | h
        · exact absurd h h0
        · exact h
      · exact ⟨v, hv⟩
    obtain ⟨w, hw⟩ := this
    obtain ⟨i, hi, hpi⟩ := hI.reach q k w hq hw
    exact ⟨i, hi, hpi.evolve hev⟩
  · intro hc q hq
    have := hI.tail hc q hq
    unfold Tbl.set
    split
    · subst q; exact absurd this h0
    · exact this

/-- Changing only marks keeps the invariant. -/
theorem Inv.congr {E : Env K} {t t' : Tbl K V} (hI : Inv E t) (h : ∀ p, (t' p).c = (t p).c) :
    Inv E t' := by
  constructor
  · intro q k v hq hv
    rw [h] at hv
    obtain ⟨i, hi, hp⟩ := hI.reach q k v hq hv
    exact ⟨i, hi, hp.1, fun j h1 h2 => by rw [h]; exact hp.2 j h1 h2⟩
  · intro hc q hq; rw [h]; exact hI.tail hc q hq

/-- Inserting at the first empty slot of the probe sequence. -/
theorem Inv.insert {E : Env K} {t : Tbl K V} (hI : Inv E t) {k : K} {d : V} {i : Nat}
    {b : Bool} (hp : Passed E t k i) (he : (t (E.M.remap i)).c = .empty)
    (hb : E.M.cp = false → E.M.remap i ≤ E.M.addr + 300) :
    Inv E (t.set (E.M.remap i) ⟨b, .live k d⟩) := by
  have hev : Evolves t (t.set (E.M.remap i) ⟨b, .live k d⟩) :=
    Evolves.set ⟨fun h => absurd he h, fun _ _ _ => .inl he⟩
  constructor
  · intro q k' v hq hv
    by_cases hqi : q = E.M.remap i
    · subst hqi
      simp only [Tbl.set, if_true] at hv
      injection hv with h1 h2
      subst h1
      exact ⟨i, rfl, hp.evolve hev⟩
    · simp only [Tbl.set, hqi, if_false] at hv
      obtain ⟨j, hj, hpj⟩ := hI.reach q k' v hq hv
      exact ⟨j, hj, hpj.evolve hev⟩
  · intro hc q hq
    have := hI.tail hc q hq
    have := hb hc
    unfold Tbl.set
    split
    · omega
    · assumption

/-! ## Stored dictionary -/

theorem Stores.of_live [DecidableEq K] [DecidableEq V] {E : Env K} {t : Tbl K V} {d : Dict K V}
    (hs : Stores E t d) {p : Nat}
    {k : K} {v : V} (hp : p < E.M.total) (h : (t p).c = .live k v) : d k = some v :=
  (hs k v).2 ⟨p, hp, h⟩

theorem Stores.of_absent [DecidableEq K] [DecidableEq V] {E : Env K} {t : Tbl K V} {d : Dict K V}
    (hs : Stores E t d) {k : K}
    (h : ∀ p v, p < E.M.total → (t p).c ≠ .live k v) : d k = none := by
  cases hd : d k with
  | none => rfl
  | some v =>
    obtain ⟨i, hi, hv⟩ := (hs k v).1 hd
    exact absurd hv (h i v hi)

theorem Stores.congr [DecidableEq K] [DecidableEq V] {E : Env K} {t t' : Tbl K V} {d : Dict K V}
    (hs : Stores E t d)
    (h : ∀ p, (t' p).c = (t p).c) : Stores E t' d := by
  intro k v
  rw [hs k v]
  simp only [h]

variable [DecidableEq K] [DecidableEq V]

/-- Writing `live k w` in a slot that was empty (and `k` nowhere) or held `k`. -/
theorem Stores.put {E : Env K} {t : Tbl K V} {d : Dict K V} (hs : Stores E t d) {p : Nat} {k : K}
    {w : V} {x : Cell K V} (hp : p < E.M.total) (hx : x.c = .live k w)
    (hold : (t p).c = .empty ∨ ∃ u, (t p).c = .live k u)
    (hun : ∀ q v, q < E.M.total → (t q).c = .live k v → q = p) :
    Stores E (t.set p x) (d.put k w) := by
  intro k' v
  unfold Dict.put
  split
  · rename_i hk; subst hk
    constructor
    · intro h; cases h
      exact ⟨p, hp, by simp [Tbl.set, hx]⟩
    · rintro ⟨q, hq, hv⟩
      by_cases hqp : q = p
      · subst hqp; simp [Tbl.set, hx] at hv; simp [hv]
      · simp only [Tbl.set, hqp, if_false] at hv
        exact absurd (hun q v hq hv) hqp
  · rename_i hk
    rw [hs k' v]
    constructor
    · rintro ⟨q, hq, hv⟩
      refine ⟨q, hq, ?_⟩
      by_cases hqp : q = p
      · subst hqp
        rcases hold with h | ⟨u, h⟩
        · rw [h] at hv; cases hv
        · rw [h] at hv; cases hv; exact absurd rfl hk
      · simp [Tbl.set, hqp, hv]
    · rintro ⟨q, hq, hv⟩
      refine ⟨q, hq, ?_⟩
      by_cases hqp : q = p
      · subst hqp; simp only [Tbl.set, if_true, hx] at hv; cases hv; exact absurd rfl hk
      · simpa [Tbl.set, hqp] using hv

/-- Replacing the slot of `k` by something that is no element. -/
theorem Stores.del {E : Env K} {t : Tbl K V} {d : Dict K V} (hs : Stores E t d) {p : Nat} {k : K}
    {x : Cell K V} (hx : ∀ k v, x.c ≠ .live k v)
    (hold : ∃ u, (t p).c = .live k u)
    (hun : ∀ q v, q < E.M.total → (t q).c = .live k v → q = p) :
    Stores E (t.set p x) (d.del k) := by
  intro k' v
  unfold Dict.del
  split
  · rename_i hk; subst hk
    constructor
    · intro h; cases h
    · rintro ⟨q, hq, hv⟩
      by_cases hqp : q = p
      · subst hqp; simp only [Tbl.set, if_true] at hv; exact absurd hv (hx _ _)
      · simp only [Tbl.set, hqp, if_false] at hv
        exact absurd (hun q v hq hv) hqp
  · rename_i hk
    rw [hs k' v]
    constructor
    · rintro ⟨q, hq, hv⟩
      refine ⟨q, hq, ?_⟩
      by_cases hqp : q = p
      · subst hqp
        obtain ⟨u, h⟩ := hold
        rw [h] at hv; cases hv; exact absurd rfl hk
      · simp [Tbl.set, hqp, hv]
    · rintro ⟨q, hq, hv⟩
      refine ⟨q, hq, ?_⟩
      by_cases hqp : q = p
      · subst hqp; simp only [Tbl.set, if_true] at hv; exact absurd hv (hx _ _)
      · simpa [Tbl.set, hqp] using hv

end
end Growt
