import Verif.MigGeo

/-!
# Clusters of the source table and which block migrates them

Slots are seen as a ring of all `N` slots of the table (with linear probing the last slots of the
buffer are always empty).  The *head* of a non-empty slot is the nearest empty slot before it.
-/

set_option linter.unusedSectionVars false

namespace Growt

theorem mod_cancel {a c n N : Nat} (h : (a + n) % N = (c + n) % N) : a % N = c % N := by
  rcases Nat.le_total a c with hle | hle
  · have h1 := Nat.sub_mod_eq_zero_of_mod_eq h.symm
    have h2 : c + n - (a + n) = c - a := by omega
    rw [h2] at h1
    have h3 : c = a + (c - a) := by omega
    rw [h3, Nat.add_mod, h1]; simp
  · have h1 := Nat.sub_mod_eq_zero_of_mod_eq h
    have h2 : a + n - (c + n) = a - c := by omega
    rw [h2] at h1
    have h3 : a = c + (a - c) := by omega
    rw [h3, Nat.add_mod, h1]; simp

theorem mod_shift {a y n l N : Nat} (h : (a + n) % N = (y + l) % N) (hnl : n ≤ l) :
    a % N = (y + (l - n)) % N := by
  apply mod_cancel (n := n)
  rw [h]; congr 1; omega

section
variable {K V : Type} [DecidableEq K] [DecidableEq V] [Inhabited V]

/-- `a` is the nearest empty slot before slot `x`, at distance `n`. (proof, no code) -/
structure Head (t : Tbl K V) (N x a n : Nat) : Prop where
  lt : a < N
  empty : (t a).c = .empty
  eq : (a + n) % N = x
  full : ∀ j, 1 ≤ j → j ≤ n → (t ((a + j) % N)).c ≠ .empty

theorem Head.unique {t : Tbl K V} {N x a n a' n' : Nat} (h : Head t N x a n)
    (h' : Head t N x a' n') : a = a' ∧ n = n' := by
  have key : ∀ {a n a' n' : Nat}, Head t N x a n → Head t N x a' n' → n ≤ n' → n = n' ∧ a = a' := by
    intro a n a' n' h h' hle
    have hm := mod_shift (h.eq.trans h'.eq.symm) hle
    rw [Nat.mod_eq_of_lt h.lt] at hm
    by_cases hne : n = n'
    · subst hne
      rw [Nat.sub_self, Nat.add_zero, Nat.mod_eq_of_lt h'.lt] at hm
      exact ⟨rfl, hm⟩
    · have := h'.full (n' - n) (by omega) (by omega)
      rw [← hm] at this
      exact absurd h.empty this
  rcases Nat.le_total n n' with hle | hle
  · obtain ⟨h1, h2⟩ := key h h' hle; exact ⟨h2, h1⟩
  · obtain ⟨h1, h2⟩ := key h' h hle; exact ⟨h2.symm, h1.symm⟩

theorem Head.extend {t : Tbl K V} {N x a n : Nat} (h : Head t N x a n) {l : Nat}
    (hf : ∀ j, 1 ≤ j → j ≤ l → (t ((x + j) % N)).c ≠ .empty) :
    Head t N ((x + l) % N) a (n + l) := by
  have hshift : ∀ j, (a + n + j) % N = (x + j) % N := by
    intro j
    rw [← h.eq]; simp
  refine ⟨h.lt, h.empty, by rw [← hshift, Nat.add_assoc], fun j h1 h2 => ?_⟩
  by_cases hj : j ≤ n
  · exact h.full j h1 hj
  · have := hf (j - n) (by omega) (by omega)
    rw [← hshift] at this
    have e : a + n + (j - n) = a + j := by omega
    rwa [e] at this

theorem Head.back {t : Tbl K V} {N x a n : Nat} (h : Head t N x a n) {y l : Nat}
    (hy : (y + l) % N = x) (hf : ∀ j, j ≤ l → (t ((y + j) % N)).c ≠ .empty) :
    l < n ∧ Head t N (y % N) a (n - l) := by
  have hln : l < n := by
    by_cases hln : l < n
    · exact hln
    · exfalso
      have := mod_shift (h.eq.trans hy.symm) (by omega)
      rw [Nat.mod_eq_of_lt h.lt] at this
      have h2 := hf (l - n) (by omega)
      rw [← this] at h2
      exact h2 h.empty
  refine ⟨hln, h.lt, h.empty, ?_, fun j h1 h2 => h.full j h1 (by omega)⟩
  exact (mod_shift (hy.trans h.eq.symm) (by omega)).symm

/-- A slot whose content can no longer change. (proof, no code) -/
def Frozen (m : Bool) (x : Cell K V) : Prop := m = false ∨ x.marked = true

/-- The block that migrates the cluster behind the empty slot `a`. (proof, no code) -/
def owner (A a : Nat) : Nat := if a < A then blockSize * (a / blockSize) else 0

/-- Which slots belong to the migration of the block `[b, e)`: `st` is the index at which the first
loop stopped, the slots behind the block up to (excluding) index `cur` are not empty. (proof, no code) -/
structure JShape (G : MEnv K) (t : Tbl K V) (b e st cur : Nat) : Prop where
  lo : b ≤ st
  hi : st < e
  pre : ∀ j, b ≤ j → j < st → (t j).c ≠ .empty
  head : (t st).c = .empty ∨ (G.src.M.cp = false ∧ st = 0 ∧ b = 0)
  le : st ≤ cur
  tailne : ∀ j, e ≤ j → j < cur → (t (G.src.M.remap j)).c ≠ .empty

/-- What is known about the source while the block `[b, e)` is migrated: `st` is the index at which
the first loop stopped, all slots from `st` up to (excluding) index `cur` are frozen, those behind
the block are not empty. (proof, no code) -/
structure JCells (G : MEnv K) (t : Tbl K V) (b e st cur : Nat) : Prop where
  lo : b ≤ st
  hi : st < e
  pre : ∀ j, b ≤ j → j < st → (t j).c ≠ .empty
  head : ((t st).c = .empty ∧ Frozen G.src.m (t st)) ∨ (G.src.M.cp = false ∧ st = 0 ∧ b = 0)
  le : st ≤ cur
  froz : ∀ j, st ≤ j → j < cur → Frozen G.src.m (t (G.src.M.remap j))
  tailne : ∀ j, e ≤ j → j < cur → (t (G.src.M.remap j)).c ≠ .empty
  zero : G.src.M.cp = false → b = 0 → st = 0

theorem JCells.shape {G : MEnv K} {t : Tbl K V} {b e st cur : Nat} (h : JCells G t b e st cur)
    {c : Nat} (hc : st ≤ c) (hc2 : c ≤ cur ∨ c ≤ e) : JShape G t b e st c :=
  ⟨h.lo, h.hi, h.pre, h.head.imp_left And.left, hc, fun j h1 h2 => h.tailne j h1 (by omega)⟩

section
variable {G : MEnv K} {k g : Nat} (hS : Shape G k g)
include hS

theorem Shape.le_total : 2 ^ k ≤ G.src.M.total := by
  rw [hS.total]; split <;> omega

theorem Shape.tot_pos : 0 < G.src.M.total := by
  have := hS.le_total; have : 0 < 2 ^ k := Nat.two_pow_pos k; omega

theorem Shape.remap_mod {i : Nat} (h : G.src.M.cp = true ∨ i < G.src.M.total) :
    G.src.M.remap i = i % G.src.M.total := by
  cases hc : G.src.M.cp with
  | true => rw [hS.wf.remap_cp hc, hS.total, hc]; simp
  | false =>
    rw [Mapper.remap_lin hc, Nat.mod_eq_of_lt]
    simpa [hc] using h

theorem Shape.remap_lt {i : Nat} (h : G.src.M.cp = true ∨ i < G.src.M.total) :
    G.src.M.remap i < G.src.M.total := by
  rw [hS.remap_mod h]; exact Nat.mod_lt _ hS.tot_pos

theorem Shape.remap_small {i : Nat} (h : i < G.src.M.total) : G.src.M.remap i = i := by
  rw [hS.remap_mod (.inr h), Nat.mod_eq_of_lt h]

/-- Blocks: `b` is a multiple of the block size and the end is the next multiple or the number of
addressable slots. -/
theorem Shape.blockEnd_eq {b : Nat} (hb : b < 2 ^ k) :
    blockEnd (2 ^ k) b = min (b + blockSize) (2 ^ k) := by
  have h31 : 2 ^ k ≤ 2 ^ 31 := Nat.pow_le_pow_right (by omega) (by have := hS.small; omega)
  unfold blockEnd blockSize
  rw [Nat.mod_eq_of_lt (by omega), Nat.mod_eq_of_lt (by omega)]

theorem Shape.owner_eq {b a : Nat} (hd : blockSize ∣ b) (hb : b < 2 ^ k) (h1 : b ≤ a)
    (h2 : a < blockEnd (2 ^ k) b) : owner (2 ^ k) a = b := by
  rw [hS.blockEnd_eq hb] at h2
  unfold owner
  obtain ⟨c, rfl⟩ := hd
  rw [if_pos (by omega)]
  unfold blockSize at *
  congr 1
  omega

theorem Shape.owner_block {a : Nat} (ha : a < 2 ^ k) :
    blockSize ∣ owner (2 ^ k) a ∧ owner (2 ^ k) a < 2 ^ k ∧ owner (2 ^ k) a ≤ a ∧
      a < blockEnd (2 ^ k) (owner (2 ^ k) a) := by
  unfold owner
  rw [if_pos ha]
  have h1 : blockSize * (a / blockSize) ≤ a := Nat.mul_div_le a blockSize
  refine ⟨⟨_, rfl⟩, by omega, h1, ?_⟩
  rw [hS.blockEnd_eq (by omega)]
  unfold blockSize at *
  omega

variable {t : Tbl K V} (hI : Inv G.src t)
include hI

theorem Shape.last_empty (hc : G.src.M.cp = false) {p : Nat} (h : p > 2 ^ k + 300) :
    (t p).c = .empty := hI.tail hc p (by rw [hS.addr]; exact h)

variable {b e st cur : Nat} (hJ : JShape G t b e st cur)
include hJ

theorem JShape.cur_lin (he : e ≤ 2 ^ k) (hc : G.src.M.cp = false) : cur ≤ 2 ^ k + 301 := by
  by_cases h : cur ≤ 2 ^ k + 301
  · exact h
  · exfalso
    have := hJ.tailne (2 ^ k + 301) (by omega) (by omega)
    rw [Mapper.remap_lin hc] at this
    exact this (hS.last_empty hI hc (by omega))

theorem JShape.cur_ok (he : e ≤ 2 ^ k) {i : Nat} (hi : i ≤ cur) :
    G.src.M.cp = true ∨ i < G.src.M.total := by
  cases hc : G.src.M.cp with
  | true => exact .inl rfl
  | false =>
    right
    have := hJ.cur_lin hS hI he hc
    rw [hS.total, hc]
    simp; omega

/-- The head of a non-empty slot migrated by the block lies in the block (or before slot 0). -/
theorem JShape.headOf (hd : blockSize ∣ b) (hb : b < 2 ^ k) (hee : e = blockEnd (2 ^ k) b) :
    ∀ ic, st ≤ ic → ic ≤ cur → (t (G.src.M.remap ic)).c ≠ .empty →
    ∃ a n, Head t G.src.M.total (G.src.M.remap ic) a n ∧ owner (2 ^ k) a = b ∧
      ((a + n = ic ∧ st ≤ a ∧ a < 2 ^ k) ∨
        (G.src.M.cp = false ∧ a + 1 = G.src.M.total ∧ n = ic + 1 ∧ st = 0)) := by
  have he : e ≤ 2 ^ k := by rw [hee, hS.blockEnd_eq hb]; omega
  intro ic h1
  induction h1 with
  | refl =>
    intro h2 hne
    have hst : st < G.src.M.total := by have := hS.le_total; have := hJ.hi; omega
    rcases hJ.head with h | ⟨hc, h0, hb0⟩
    · rw [hS.remap_small hst] at hne; exact absurd h hne
    · subst h0
      have ht := hS.total
      rw [hc] at ht
      simp only [Bool.false_eq_true, if_false] at ht
      refine ⟨G.src.M.total - 1, 1, ⟨by omega, hS.last_empty hI hc (by omega), ?_, ?_⟩, ?_,
        .inr ⟨hc, by omega, rfl, rfl⟩⟩
      · rw [hS.remap_small hst]
        have : G.src.M.total - 1 + 1 = G.src.M.total := by omega
        rw [this, Nat.mod_self]
      · intro j hj1 hj2
        have : j = 1 := by omega
        subst this
        have e1 : G.src.M.total - 1 + 1 = G.src.M.total := by omega
        rw [e1, Nat.mod_self]
        rwa [hS.remap_small hst] at hne
      · unfold owner; rw [if_neg (by omega), hb0]
  | @step ic h1 ih =>
    intro h2 hne
    have h1 : st ≤ ic := h1
    have hrm : G.src.M.remap (ic + 1) = (ic + 1) % G.src.M.total :=
      hS.remap_mod (hJ.cur_ok hS hI he h2)
    have hrm0 : G.src.M.remap ic = ic % G.src.M.total :=
      hS.remap_mod (hJ.cur_ok hS hI he (by omega))
    by_cases hem : (t (G.src.M.remap ic)).c = .empty
    · have hlt : ic < e := by
        by_cases h : ic < e
        · exact h
        · exact absurd hem (hJ.tailne ic (by omega) (by omega))
      have hN : ic < G.src.M.total := by have := hS.le_total; omega
      rw [hS.remap_small hN] at hem
      refine ⟨ic, 1, ⟨hN, hem, hrm.symm, ?_⟩, ?_, .inl ⟨rfl, h1, by omega⟩⟩
      · intro j hj1 hj2
        have : j = 1 := by omega
        subst this
        rwa [← hrm]
      · exact hS.owner_eq hd hb (by have := hJ.lo; omega) (hee ▸ hlt)
    · obtain ⟨a, n, hh, ho, hor⟩ := ih (by omega) hem
      have hx : (G.src.M.remap ic + 1) % G.src.M.total = G.src.M.remap (ic + 1) := by
        rw [hrm, hrm0]; simp
      refine ⟨a, n + 1, ?_, ho, ?_⟩
      · have := hh.extend (l := 1) (by
          intro j hj1 hj2
          have : j = 1 := by omega
          subst this
          rwa [hx])
        rwa [hx] at this
      · rcases hor with ⟨h3, h4, h5⟩ | ⟨h3, h4, h5, h6⟩
        · exact .inl ⟨by omega, h4, h5⟩
        · exact .inr ⟨h3, h4, by omega, h6⟩

/-- Going back from a slot migrated by the block over non-empty slots stays in what the block
migrates. -/
theorem JShape.back (hd : blockSize ∣ b) (hb : b < 2 ^ k) (hee : e = blockEnd (2 ^ k) b)
    {ic f i : Nat} (h1 : st ≤ ic) (h2 : ic ≤ cur) (hfi : f ≤ i)
    (hi : i % G.src.M.total = G.src.M.remap ic)
    (hf : ∀ j, f ≤ j → j ≤ i → (t (j % G.src.M.total)).c ≠ .empty) :
    i - f ≤ ic ∧ st ≤ ic - (i - f) ∧ f % G.src.M.total = G.src.M.remap (ic - (i - f)) := by
  have he : e ≤ 2 ^ k := by rw [hee, hS.blockEnd_eq hb]; omega
  have hne : (t (G.src.M.remap ic)).c ≠ .empty := by rw [← hi]; exact hf i hfi (Nat.le_refl _)
  obtain ⟨a, n, hh, ho, hor⟩ := hJ.headOf hS hI hd hb hee ic h1 h2 hne
  obtain ⟨hl, hh2⟩ := hh.back (y := f) (l := i - f) (by rw [← hi]; congr 1; omega) (by
    intro j hj
    exact hf (f + j) (by omega) (by omega))
  have hge : i - f ≤ ic ∧ st ≤ ic - (i - f) := by
    rcases hor with ⟨h3, h4, h5⟩ | ⟨h3, h4, h5, h6⟩ <;> omega
  refine ⟨hge.1, hge.2, ?_⟩
  rw [hS.remap_mod (hJ.cur_ok hS hI he (by omega))]
  rw [hS.remap_mod (hJ.cur_ok hS hI he h2)] at hi
  apply mod_cancel (n := i - f)
  have e1 : f + (i - f) = i := by omega
  have e2 : ic - (i - f) + (i - f) = ic := by omega
  rw [e1, e2, hi]

omit hJ in
/-- Two blocks that both migrate slots of the same cluster are the same block, and the slots are
migrated in the order of the cluster. -/
theorem own2 {b2 e2 st2 cur2 ic ic2 f i f' i2 : Nat}
    (hJ : JShape G t b e st cur) (hJ2 : JShape G t b2 e2 st2 cur2)
    (hd : blockSize ∣ b) (hb : b < 2 ^ k) (hee : e = blockEnd (2 ^ k) b)
    (hd2 : blockSize ∣ b2) (hb2 : b2 < 2 ^ k) (hee2 : e2 = blockEnd (2 ^ k) b2)
    (h1 : st ≤ ic) (h2 : ic ≤ cur) (h1' : st2 ≤ ic2) (h2' : ic2 ≤ cur2)
    (hfi : f ≤ i) (hi : i % G.src.M.total = G.src.M.remap ic)
    (hf : ∀ j, f ≤ j → j ≤ i → (t (j % G.src.M.total)).c ≠ .empty)
    (hfi' : f' ≤ i2) (hi' : i2 % G.src.M.total = G.src.M.remap ic2)
    (hf' : ∀ j, f' ≤ j → j ≤ i2 → (t (j % G.src.M.total)).c ≠ .empty)
    (hff : f % G.src.M.total = f' % G.src.M.total) :
    b = b2 ∧ ic + (i2 - f') = ic2 + (i - f) := by
  have hne : (t (G.src.M.remap ic)).c ≠ .empty := by rw [← hi]; exact hf i hfi (Nat.le_refl _)
  have hne' : (t (G.src.M.remap ic2)).c ≠ .empty := by rw [← hi']; exact hf' i2 hfi' (Nat.le_refl _)
  obtain ⟨a, n, hh, ho, hor⟩ := hJ.headOf hS hI hd hb hee ic h1 h2 hne
  obtain ⟨a2, n2, hh2, ho2, hor2⟩ := hJ2.headOf hS hI hd2 hb2 hee2 ic2 h1' h2' hne'
  obtain ⟨hl, hb1⟩ := hh.back (y := f) (l := i - f) (by rw [← hi]; congr 1; omega) (by
    intro j hj; exact hf (f + j) (by omega) (by omega))
  obtain ⟨hl2, hb3⟩ := hh2.back (y := f') (l := i2 - f') (by rw [← hi']; congr 1; omega) (by
    intro j hj; exact hf' (f' + j) (by omega) (by omega))
  rw [← hff] at hb3
  obtain ⟨ha, hn⟩ := hb1.unique hb3
  subst ha
  refine ⟨by rw [← ho, ← ho2], ?_⟩
  have ht := hS.total
  rcases hor with ⟨h3, h4, h5⟩ | ⟨h3, h4, h5, h6⟩ <;>
    rcases hor2 with ⟨h3', h4', h5'⟩ | ⟨h3', h4', h5', h6'⟩
  · omega
  · exfalso
    rw [h3'] at ht; simp only [Bool.false_eq_true, if_false] at ht; omega
  · exfalso
    rw [h3] at ht; simp only [Bool.false_eq_true, if_false] at ht; omega
  · omega

end
end
end Growt
