import Verif.GrowInv

/-!
# The sequential table (`data-structures/seq_linear.hpp`)

Legal keys only (a key that equals the empty key would match an empty slot, since `compare_key` is
asked before `is_empty`; see C66).  Slots of this table are never marked, and `erase` does not leave
tombstones.
-/

set_option linter.unusedSectionVars false

namespace Growt
namespace SeqTable
section
variable {K V : Type} [DecidableEq K] [DecidableEq V] [Inhabited V]

/-- Outcome of a computation: a result, an access outside the allocation (undefined behaviour), or
not finished within the given number of iterations. (model bookkeeping, no code) -/
inductive Res (α : Type) where
  | ok (a : α)
  | oob
  | timeout

/-- `seq_linear`: mapper, hash function, slots, `_n_elem` (`seq_linear.hpp:249`), `_version`.
`_thresh` (line 250) always is `thresh` of the current size: it is computed in the constructors
(193-204) and exchanged together with the mapper (`swap`, 560-567). -/
structure St (K V : Type) where
  E : Env K
  t : Tbl K V
  n : Nat
  version : Nat

/-- `_thresh(_mapper.total_slots() * _max_fill_factor)` (`seq_linear.hpp:193-204`, factor 0.666 in
line 187; see `Cnt.thresh` for the floating point product). -/
def thresh (E : Env K) : Nat := E.M.total * 666 / 1000

/-- How a probe loop ends: at the slot holding the key, at an empty slot. (`seq_linear.hpp:309-322`) -/
inductive Probe where
  | found (p : Nat)
  | stop (p : Nat)
  deriving DecidableEq

/-- The probe loop common to `find` (`seq_linear.hpp:309-322`), `insert_intern` (382-407), `update`
(413-438), `insert_or_update_intern` (475-506) and the first loop of `erase` (512-521). -/
def probe (E : Env K) (t : Tbl K V) (k : K) : Nat → Nat → Res Probe
  | 0, _ => .timeout
  | n + 1, i =>
    let p := E.M.remap i
    if p < E.M.total then
      if (t p).hasKey k then .ok (.found p)
      else if (t p).isEmpty then .ok (.stop p)
      else probe E t k n (i + 1)
    else .oob

/-- The loop of `migrate` (`seq_linear.hpp:576-589`): insert every element of the old slots. (The
result of the insertion is only used to construct an exception object that is not thrown.) -/
def migLoop (ins : St K V → K → V → Res (St K V × SRes V)) (t : Tbl K V) :
    List Nat → St K V → Res (St K V)
  | [], tgt => .ok tgt
  | p :: ps, tgt =>
    match (t p).c with
    | .live k v =>
      match ins tgt k v with
      | .ok (tgt', _) => migLoop ins t ps tgt'
      | .oob => .oob
      | .timeout => .timeout
    | _ => migLoop ins t ps tgt

/-- The table made by `grow` (`seq_linear.hpp:552-558`, 199-204) with the slots filled with the
empty pair (571-572). -/
def growTarget (s : St K V) (n : Nat) : St K V :=
  ⟨{ s.E with M := s.E.M.resize n 0 }, emptyTbl, 0, s.version + 1⟩

/-- `insert_intern` (`seq_linear.hpp:382-407`) with `inc_n` (541-550), `grow` (552-558), `migrate`
(569-591) and `swap` (560-567: everything but `_n_elem`).  Calls of itself (from `migrate` on the
new table, and again after growing) have a smaller fuel. -/
def insert : Nat → St K V → K → V → Res (St K V × SRes V)
  | 0, _, _, _ => .timeout
  | f + 1, s, k, d =>
    match probe s.E s.t k (f + 1) (s.E.M.map (s.E.h k)) with
    | .ok (.found p) => .ok (s, ⟨false, (s.t p).val?⟩)
    | .ok (.stop p) =>
      if s.n + 1 > thresh s.E then
        match migLoop (insert f) s.t (List.range s.E.M.total) (growTarget s (s.n + 1)) with
        | .ok tgt => insert f { tgt with n := s.n + 1 - 1 } k d
        | .oob => .oob
        | .timeout => .timeout
      else .ok ({ s with t := s.t.set p (Cell.liveCell k d), n := s.n + 1 }, ⟨true, some d⟩)
    | .oob => .oob
    | .timeout => .timeout

/-- `find` (`seq_linear.hpp:309-322`). -/
def find (f : Nat) (s : St K V) (k : K) : Res (St K V × SRes V) :=
  match probe s.E s.t k f (s.E.M.map (s.E.h k)) with
  | .ok (.found p) => .ok (s, ⟨true, (s.t p).val?⟩)
  | .ok (.stop _) => .ok (s, ⟨false, none⟩)
  | .oob => .oob
  | .timeout => .timeout

/-- `update` (`seq_linear.hpp:413-438`): `non_atomic_update`, then the slot is loaded again. -/
def update (f : Nat) (s : St K V) (k : K) (u : UpdFn V) : Res (St K V × SRes V) :=
  match probe s.E s.t k f (s.E.M.map (s.E.h k)) with
  | .ok (.found p) =>
    let t' := s.t.set p (nonAtomicUpdate k (s.t p) u).1
    .ok ({ s with t := t' }, ⟨true, (t' p).val?⟩)
  | .ok (.stop _) => .ok (s, ⟨false, none⟩)
  | .oob => .oob
  | .timeout => .timeout

/-- `insert_or_update_intern` (`seq_linear.hpp:475-506`). -/
def insertOrUpdate : Nat → St K V → K → V → UpdFn V → Res (St K V × SRes V)
  | 0, _, _, _, _ => .timeout
  | f + 1, s, k, d, u =>
    match probe s.E s.t k (f + 1) (s.E.M.map (s.E.h k)) with
    | .ok (.found p) =>
      let t' := s.t.set p (nonAtomicUpdate k (s.t p) u).1
      .ok ({ s with t := t' }, ⟨false, (t' p).val?⟩)
    | .ok (.stop p) =>
      if s.n + 1 > thresh s.E then
        match migLoop (insert f) s.t (List.range s.E.M.total) (growTarget s (s.n + 1)) with
        | .ok tgt => insertOrUpdate f { tgt with n := s.n + 1 - 1 } k d u
        | .oob => .oob
        | .timeout => .timeout
      else .ok ({ s with t := s.t.set p (Cell.liveCell k d), n := s.n + 1 }, ⟨true, some d⟩)
    | .oob => .oob
    | .timeout => .timeout

/-- The second loop of `erase` (`seq_linear.hpp:524-537`): hole `i`, next slot `j`.  The hash value
itself (not the home slot) is compared with the hole.  (There are no tombstones in this table.) -/
def eraseLoop (E : Env K) : Nat → Tbl K V → Nat → Nat → Res (Tbl K V)
  | 0, _, _, _ => .timeout
  | f + 1, t, i, j =>
    let p := E.M.remap j
    if p < E.M.total then
      match (t p).c with
      | .empty => .ok t
      | .live k _ =>
        if E.h k ≤ i then eraseLoop E f ((t.set i (t p)).set p Cell.emptyCell) p (p + 1)
        else eraseLoop E f t i (j + 1)
      | .deleted _ => eraseLoop E f t i (j + 1)
    else .oob

/-- `erase` (`seq_linear.hpp:509-538`).  Line 522 replaces the index by the slot number: with
circular probing `i & remap(i)` is `remap(i)`, with linear probing `remap(i) = i`.  `_n_elem` is not
changed. -/
def erase (f : Nat) (s : St K V) (k : K) : Res (St K V × SRes V) :=
  match probe s.E s.t k f (s.E.M.map (s.E.h k)) with
  | .ok (.found p) =>
    match eraseLoop s.E f (s.t.set p Cell.emptyCell) p (p + 1) with
    | .ok t' => .ok ({ s with t := t' }, ⟨true, none⟩)
    | .oob => .oob
    | .timeout => .timeout
  | .ok (.stop _) => .ok (s, ⟨false, none⟩)
  | .oob => .oob
  | .timeout => .timeout

/-- The calls. (`seq_linear.hpp:149-263`) -/
inductive Op (K V : Type) where
  | find (k : K)
  | insert (k : K) (d : V)
  | update (k : K) (u : UpdFn V)
  | insertOrUpdate (k : K) (d : V) (u : UpdFn V)
  | erase (k : K)

/-- Execution of a call. (`seq_linear.hpp:309-538`) -/
def exec (f : Nat) (s : St K V) : Op K V → Res (St K V × SRes V)
  | .find k => SeqTable.find f s k
  | .insert k d => SeqTable.insert f s k d
  | .update k u => SeqTable.update f s k u
  | .insertOrUpdate k d u => SeqTable.insertOrUpdate f s k d u
  | .erase k => SeqTable.erase f s k

/-- Execution of a sequence of calls, with their results. (`seq_linear.hpp:309-538`) -/
def execAll (f : Nat) : St K V → List (Op K V) → Res (St K V × List (SRes V))
  | s, [] => .ok (s, [])
  | s, op :: ops =>
    match exec f s op with
    | .ok (s', x) =>
      match execAll f s' ops with
      | .ok (s'', l) => .ok (s'', x :: l)
      | .oob => .oob
      | .timeout => .timeout
    | .oob => .oob
    | .timeout => .timeout

/-- A new table: `seq_linear(size)` (`seq_linear.hpp:193-197`, `base_linear.hpp:396-411`), `2^k` the
computed capacity. -/
def St.new (cm cp : Bool) (h : K → Nat) (k : Nat) : St K V :=
  ⟨⟨Mapper.mk' cm cp (2 ^ k) 0, h, false⟩, emptyTbl, 0, 0⟩

/-! ## The probe loop -/

/-- With room the probe loop ends, in bounds, at the key or at the first empty slot. -/
theorem probe_ends {E : Env K} (hE : E.OK) {t : Tbl K V} (hI : Inv E t) (hr : HasRoom E t) {k : K} :
    ∀ f i, Passed E t k i → E.M.map (E.h k) + E.M.total - i + 1 ≤ f →
    (∃ j v, E.M.remap j < E.M.total ∧ (t (E.M.remap j)).c = .live k v ∧
        probe E t k f i = .ok (.found (E.M.remap j))) ∨
      ∃ j, Passed E t k j ∧ E.M.remap j < E.M.total ∧ (t (E.M.remap j)).c = .empty ∧
        probe E t k f i = .ok (.stop (E.M.remap j)) := by
  intro f
  induction f with
  | zero => intro i hp hf; omega
  | succ f ih =>
    intro i hp hf
    have hb := hp.bound hE hI hr
    have hlt := hp.inBounds hE hI
    simp only [probe, hlt, if_true]
    cases hk : (t (E.M.remap i)).hasKey k with
    | true =>
      obtain ⟨v, hv⟩ := Cell.hasKey_iff.1 hk
      exact .inl ⟨i, v, hlt, hv, by simp⟩
    | false =>
      cases he : (t (E.M.remap i)).isEmpty with
      | true => exact .inr ⟨i, hp, hlt, Cell.isEmpty_iff.1 he, by simp⟩
      | false =>
        have hp' : Passed E t k (i + 1) := hp.succ
          (fun h => by rw [Cell.isEmpty_iff.2 h] at he; cases he)
          (fun v h => by rw [Cell.hasKey_iff.2 ⟨v, h⟩] at hk; cases hk)
        simpa using ih (i + 1) hp' (by omega)

/-! ## The invariant -/

/-- The state stores the dictionary `d`. (specification, no code) -/
structure Good (s : St K V) (d : Dict K V) : Prop where
  ok : s.E.OK
  cp : s.E.M.cp = true
  inv : Inv s.E s.t
  clean : ∀ p v, (s.t p).c ≠ .deleted v
  stores : Stores s.E s.t d
  occ : occupied s.E.M.total s.t ≤ s.n
  few : s.n ≤ thresh s.E

theorem thresh_lt {E : Env K} (hE : E.OK) : thresh E < E.M.total := by
  obtain ⟨k, hw⟩ := hE.wf
  have := hw.addr_pos
  have := hw.addr_le_total
  unfold thresh
  omega

theorem Good.room {s : St K V} {d : Dict K V} (h : Good s d) : HasRoom s.E s.t := fun _ => by
  apply occupied_lt
  have := thresh_lt h.ok; have := h.occ; have := h.few
  omega

theorem Good.probe {s : St K V} {d : Dict K V} (h : Good s d) (k : K) {f : Nat}
    (hf : s.E.M.total + 1 ≤ f) :
    (∃ j v, s.E.M.remap j < s.E.M.total ∧ (s.t (s.E.M.remap j)).c = .live k v ∧ d k = some v ∧
        SeqTable.probe s.E s.t k f (s.E.M.map (s.E.h k)) = .ok (.found (s.E.M.remap j))) ∨
      ∃ j, Passed s.E s.t k j ∧ s.E.M.remap j < s.E.M.total ∧ (s.t (s.E.M.remap j)).c = .empty ∧
        d k = none ∧
        SeqTable.probe s.E s.t k f (s.E.M.map (s.E.h k)) = .ok (.stop (s.E.M.remap j)) := by
  rcases probe_ends h.ok h.inv h.room (k := k) f _ (Passed.start _ _ _) (by omega) with
    ⟨j, v, h1, h2, h3⟩ | ⟨j, h1, h2, h3, h4⟩
  · exact .inl ⟨j, v, h1, h2, h.stores.of_live h1 h2, h3⟩
  · exact .inr ⟨j, h1, h2, h3, h.stores.of_absent (fun p v hp => h.inv.absent h1 h3 hp), h4⟩

/-- Writing a new element in the empty slot where the probe loop ended. -/
theorem Good.put_new {s : St K V} {d : Dict K V} (h : Good s d) {k : K} {j : Nat} (v : V)
    (hp : Passed s.E s.t k j) (hlt : s.E.M.remap j < s.E.M.total)
    (he : (s.t (s.E.M.remap j)).c = .empty) (hfew : s.n + 1 ≤ thresh s.E) :
    Good { s with t := s.t.set (s.E.M.remap j) (Cell.liveCell k v), n := s.n + 1 } (d.put k v) := by
  refine ⟨h.ok, h.cp, h.inv.insert hp he (fun hc => ?_), ?_, ?_, ?_, hfew⟩
  · rw [h.cp] at hc; cases hc
  · intro p w
    show ((s.t.set (s.E.M.remap j) (Cell.liveCell k v)) p).c ≠ _
    unfold Tbl.set
    split
    · simp [Cell.liveCell]
    · exact h.clean p w
  · exact h.stores.put hlt rfl (.inl he) (fun q w hq hw => absurd hw (h.inv.absent hp he hq))
  · have h0 := h.occ
    have := occupied_set_le s.t s.E.M.total (s.E.M.remap j) (Cell.liveCell k v)
    exact Nat.le_trans this (Nat.succ_le_succ h0)

/-- Updating an element in place. -/
theorem Good.update {s : St K V} {d : Dict K V} (h : Good s d) {k : K} {j : Nat} {w : V} (u : UpdFn V)
    (hlt : s.E.M.remap j < s.E.M.total) (hv : (s.t (s.E.M.remap j)).c = .live k w) :
    Good { s with t := s.t.set (s.E.M.remap j) (nonAtomicUpdate k (s.t (s.E.M.remap j)) u).1 }
      (d.put k (u.upd w)) ∧
    ((s.t.set (s.E.M.remap j) (nonAtomicUpdate k (s.t (s.E.M.remap j)) u).1)
      (s.E.M.remap j)).val? = some (u.upd w) := by
  have hx : (nonAtomicUpdate k (s.t (s.E.M.remap j)) u).1.c = .live k (u.upd w) := by
    simp [nonAtomicUpdate, Cell.setMapped, Cell.mapped, hv]
  obtain ⟨mk, hmk⟩ : ∃ b, (nonAtomicUpdate k (s.t (s.E.M.remap j)) u).1 = ⟨b, .live k (u.upd w)⟩ :=
    ⟨(nonAtomicUpdate k (s.t (s.E.M.remap j)) u).1.marked, by rw [← hx]⟩
  rw [hmk]
  obtain ⟨h1, -, h3⟩ := updInPlace (mk := mk) (w' := u.upd w) h.inv hlt hv
  refine ⟨⟨h.ok, h.cp, h1, ?_, (h3 d h.stores).2, ?_, h.few⟩, ?_⟩
  · intro p w'
    show ((s.t.set _ _) p).c ≠ _
    unfold Tbl.set
    split
    · simp
    · exact h.clean p w'
  · have : occupied s.E.M.total (s.t.set (s.E.M.remap j) ⟨mk, .live k (u.upd w)⟩) =
        occupied s.E.M.total s.t := by
      unfold occupied
      apply List.countP_congr
      intro q _
      by_cases hq : q = s.E.M.remap j
      · subst hq; simp [Tbl.set, Cell.isEmpty, hv]
      · simp [Tbl.set, hq]
    show occupied s.E.M.total (s.t.set (s.E.M.remap j) ⟨mk, .live k (u.upd w)⟩) ≤ s.n
    rw [this]; exact h.occ
  · simp [Tbl.set, Cell.val?]

/-- An insertion that does not grow the table. -/
theorem insert_small {s : St K V} {d : Dict K V} (h : Good s d) (k : K) (v : V) {f : Nat}
    (hf : s.E.M.total + 1 ≤ f) (hfew : d k = none → s.n + 1 ≤ thresh s.E) :
    ∃ s', SeqTable.insert f s k v = .ok (s', ((SOp.insert k v).sem d).2) ∧
      Good s' ((SOp.insert k v).sem d).1 ∧ s'.E = s.E ∧ s'.version = s.version ∧
      s'.n = s.n + (if d k = none then 1 else 0) := by
  obtain ⟨f, rfl⟩ : ∃ g, f = g + 1 := ⟨f - 1, by omega⟩
  rcases h.probe k hf with ⟨j, w, h1, h2, h3, h4⟩ | ⟨j, h1, h2, h3, h4, h5⟩
  · refine ⟨s, ?_, ?_, rfl, rfl, by simp [h3]⟩
    · simp only [SeqTable.insert, h4, SOp.sem, h3, Cell.val?, h2]
    · simp only [SOp.sem, h3]; exact h
  · have hn := hfew h4
    refine ⟨{ s with t := s.t.set (s.E.M.remap j) (Cell.liveCell k v), n := s.n + 1 }, ?_,
      (by simp only [SOp.sem, h4]; exact h.put_new v h1 h2 h3 hn), rfl, rfl, by simp [h4]⟩
    have : ¬ s.n + 1 > thresh s.E := by omega
    simp only [SeqTable.insert, h5, SOp.sem, h4, this, if_false]

/-- The migration loop, as long as the target does not grow. -/
theorem migLoop_good {t : Tbl K V} {f : Nat} : ∀ (ps : List Nat) (tgt : St K V) (d : Dict K V),
    Good tgt d → tgt.E.M.total + 1 ≤ f →
    ps.Nodup → (∀ p ∈ ps, ∀ q ∈ ps, ∀ k v w, (t p).c = .live k v → (t q).c = .live k w → p = q) →
    (∀ p ∈ ps, ∀ k v, (t p).c = .live k v → d k = none) →
    tgt.n + ps.countP (fun p => !(t p).isEmpty) ≤ thresh tgt.E →
    ∃ tgt' d', migLoop (SeqTable.insert f) t ps tgt = .ok tgt' ∧ Good tgt' d' ∧ tgt'.E = tgt.E ∧
      tgt'.version = tgt.version ∧
      tgt'.n ≤ tgt.n + ps.countP (fun p => !(t p).isEmpty) ∧
      ∀ k v, d' k = some v ↔ d k = some v ∨ ∃ p ∈ ps, (t p).c = .live k v := by
  intro ps
  induction ps with
  | nil =>
    intro tgt d h hf _ _ _ hc
    exact ⟨tgt, d, rfl, h, rfl, rfl, by simp, by simp⟩
  | cons p ps ih =>
    intro tgt d h hf hnd hun habs hc
    rw [List.nodup_cons] at hnd
    rw [List.countP_cons] at hc
    have hun' : ∀ p ∈ ps, ∀ q ∈ ps, ∀ k v w, (t p).c = .live k v → (t q).c = .live k w → p = q :=
      fun a ha b hb => hun a (by simp [ha]) b (by simp [hb])
    have skip : (∀ k v, (t p).c ≠ .live k v) → migLoop (SeqTable.insert f) t (p :: ps) tgt =
          migLoop (SeqTable.insert f) t ps tgt →
        ∃ tgt' d', migLoop (SeqTable.insert f) t (p :: ps) tgt = .ok tgt' ∧ Good tgt' d' ∧
          tgt'.E = tgt.E ∧ tgt'.version = tgt.version ∧
          tgt'.n ≤ tgt.n + (p :: ps).countP (fun p => !(t p).isEmpty) ∧
          ∀ k v, d' k = some v ↔ d k = some v ∨ ∃ q ∈ p :: ps, (t q).c = .live k v := by
      intro hno he
      obtain ⟨tgt', d', e1, e2, e3, e4, e5, e6⟩ := ih tgt d h hf hnd.2 hun'
        (fun q hq => habs q (by simp [hq])) (by omega)
      refine ⟨tgt', d', by rw [he, e1], e2, e3, e4, by rw [List.countP_cons]; omega, ?_⟩
      intro k v
      rw [e6 k v]
      simp [hno k v]
    cases hcell : (t p).c with
    | empty => exact skip (by simp [hcell]) (by simp only [migLoop, hcell])
    | deleted w => exact skip (by simp [hcell]) (by simp only [migLoop, hcell])
    | live k v =>
      have hk := habs p (by simp) k v hcell
      have hne : (!(t p).isEmpty) = true := by simp [Cell.isEmpty, hcell]
      simp only [hne, if_true] at hc
      obtain ⟨s1, g1, g2, g3, g4, g5⟩ := insert_small h k v hf (fun _ => by omega)
      simp only [SOp.sem, hk, if_true] at g1 g2 g5
      have hE : thresh s1.E = thresh tgt.E := by rw [g3]
      obtain ⟨tgt', d', e1, e2, e3, e4, e5, e6⟩ := ih s1 (d.put k v) g2 (by rw [g3]; exact hf) hnd.2
        hun' (by
          intro q hq k' v' hv'
          simp only [Dict.put]
          split
          · rename_i heq
            subst heq
            have := hun p (by simp) q (by simp [hq]) _ _ _ hcell hv'
            subst this
            exact absurd hq hnd.1
          · exact habs q (by simp [hq]) k' v' hv') (by omega)
      refine ⟨tgt', d', by simp only [migLoop, hcell, g1, e1], e2, e3.trans g3, e4.trans g4, ?_, ?_⟩
      · rw [List.countP_cons]; simp only [hne, if_true]; omega
      · intro k' v'
        rw [e6 k' v']
        simp only [Dict.put]
        split
        · rename_i heq
          subst heq
          constructor
          · rintro (h1 | ⟨q, hq, h1⟩)
            · cases h1; exact .inr ⟨p, by simp, hcell⟩
            · exact .inr ⟨q, by simp [hq], h1⟩
          · rintro (h1 | ⟨q, hq, h1⟩)
            · rw [hk] at h1; cases h1
            · rcases List.mem_cons.1 hq with rfl | hq
              · rw [hcell] at h1; cases h1; exact .inl rfl
              · exact .inr ⟨q, hq, h1⟩
        · rename_i hne
          constructor
          · rintro (h1 | ⟨q, hq, h1⟩)
            · exact .inl h1
            · exact .inr ⟨q, by simp [hq], h1⟩
          · rintro (h1 | ⟨q, hq, h1⟩)
            · exact .inl h1
            · rcases List.mem_cons.1 hq with rfl | hq
              · rw [hcell] at h1; cases h1; exact absurd rfl hne
              · exact .inr ⟨q, hq, h1⟩

/-- Growing: the new table has twice the size and stores the same. -/
theorem grow_good {s : St K V} {d : Dict K V} (h : Good s d) {f : Nat}
    (hbig : s.n + 1 > thresh s.E) (hn : s.n + 1 < 2 ^ 40) (hf : 2 * s.E.M.total + 1 ≤ f) :
    ∃ tgt, migLoop (SeqTable.insert f) s.t (List.range s.E.M.total) (growTarget s (s.n + 1)) =
        .ok tgt ∧ Good { tgt with n := s.n } d ∧ tgt.E.h = s.E.h ∧
      tgt.E.M.total = 2 * s.E.M.total ∧ s.n + 1 ≤ thresh tgt.E ∧ tgt.version = s.version + 1 ∧
      s.E.M.total ≤ 2 * (s.n + 1) := by
  obtain ⟨k, hw⟩ := h.ok.wf
  have htot : s.E.M.total = 2 ^ k := by rw [hw.total_eq]; simp [h.cp]
  have hk9 := hw.1
  have h512 : 2 ^ 9 ≤ 2 ^ k := Nat.pow_le_pow_right (by omega) hk9
  have hbig' := hbig
  unfold thresh at hbig'
  rw [htot] at hbig'
  have hk40 : k < 40 + 1 := by
    apply (Nat.pow_lt_pow_iff_right (by omega : 1 < 2)).1
    generalize 2 ^ k = A at *
    omega
  have hk40 : k < 42 := by omega
  have hcall : (growTarget s (s.n + 1)).E.M = Mapper.mk' s.E.M.cm s.E.M.cp (2 ^ (k + 1))
      (if s.E.M.cm then 2 ^ k else 1) := by
    have hsub : Mapper.sub64 (s.n + 1) 0 = s.n + 1 := by unfold Mapper.sub64; omega
    have hfill : Mapper.fillAboveExact (s.n + 1) (2 ^ k) = true := by
      unfold Mapper.fillAboveExact
      generalize 2 ^ k = A at *
      simp only [decide_eq_true_eq]
      omega
    simp only [growTarget, Mapper.resize, hw.addr_eq, hsub, hfill, if_true]
    rw [Nat.shiftLeft_eq, Nat.pow_one, Nat.pow_succ]
  have hw' : (growTarget s (s.n + 1)).E.M.WF (k + 1) := by
    rw [hcall]; exact Mapper.wf_mk' (by omega) (by omega)
  have hcp' : (growTarget s (s.n + 1)).E.M.cp = true := by rw [hcall]; exact h.cp
  have htot' : (growTarget s (s.n + 1)).E.M.total = 2 * s.E.M.total := by
    rw [hw'.total_eq, htot]; simp [hcp', Nat.pow_succ, Nat.mul_comm]
  have h0 : Good (growTarget s (s.n + 1)) (fun _ => none) := by
    refine ⟨⟨⟨_, hw'⟩, h.ok.hash⟩, hcp', Inv.emptyTbl _, ?_, Stores.emptyTbl _, ?_, ?_⟩
    · intro p v; simp [growTarget, emptyTbl, Cell.emptyCell]
    · simp [growTarget, occupied_empty]
    · simp [growTarget]
  have hth : s.n + 1 ≤ thresh (growTarget s (s.n + 1)).E := by
    have := h.few
    unfold thresh at this ⊢
    rw [htot', htot]
    rw [htot] at this
    generalize 2 ^ k = A at *
    omega
  obtain ⟨tgt, d', e1, e2, e3, e4, e5, e6⟩ := migLoop_good (t := s.t) (f := f)
    (List.range s.E.M.total) _ _ h0 (by rw [htot']; exact hf) List.nodup_range
    (fun p hp q hq k v w h1 h2 => h.inv.unique (List.mem_range.1 hp) (List.mem_range.1 hq) h1 h2)
    (fun _ _ _ _ _ => rfl) (by
      have := h.occ
      unfold occupied at this
      show 0 + _ ≤ _
      omega)
  have hd : d' = d := by
    funext x
    apply Option.ext
    intro v
    rw [e6 x v, h.stores x v]
    simp
  subst hd
  have hE' : thresh tgt.E = thresh (growTarget s (s.n + 1)).E := by rw [e3]
  refine ⟨tgt, e1, ⟨e2.ok, e2.cp, e2.inv, e2.clean, e2.stores, ?_, ?_⟩, by rw [e3]; rfl,
    by rw [e3]; exact htot', by rw [hE']; exact hth, by rw [e4]; rfl, ?_⟩
  · have h1 := e2.occ
    have h2 := h.occ
    unfold occupied at h2
    have h3 : (growTarget s (s.n + 1)).n = 0 := rfl
    show occupied tgt.E.M.total tgt.t ≤ s.n
    omega
  · show s.n ≤ thresh tgt.E
    omega
  · rw [htot]
    generalize 2 ^ k = A at *
    omega

/-- `insert` in general. -/
theorem insert_good {s : St K V} {d : Dict K V} (h : Good s d) (k : K) (v : V) {f B : Nat}
    (hB : s.E.M.total ≤ B) (hB' : 4 * (s.n + 1) ≤ B) (hn : s.n + 1 < 2 ^ 40) (hf : B + 2 ≤ f) :
    ∃ s', SeqTable.insert f s k v = .ok (s', ((SOp.insert k v).sem d).2) ∧
      Good s' ((SOp.insert k v).sem d).1 ∧ s'.E.h = s.E.h ∧ s'.E.M.total ≤ B ∧ s'.n ≤ s.n + 1 := by
  by_cases hsmall : d k = none → s.n + 1 ≤ thresh s.E
  · obtain ⟨s', h1, h2, h3, -, h5⟩ := insert_small h k v (f := f) (by omega) hsmall
    exact ⟨s', h1, h2, by rw [h3], by rw [h3]; exact hB, by rw [h5]; split <;> omega⟩
  · have hd : d k = none := Classical.byContradiction fun hc => hsmall fun h => absurd h hc
    have hbig : s.n + 1 > thresh s.E := by
      apply Classical.byContradiction; intro hc; exact hsmall fun _ => by omega
    obtain ⟨f, rfl⟩ : ∃ g, f = g + 1 := ⟨f - 1, by omega⟩
    rcases h.probe k (f := f + 1) (by omega) with ⟨j, w, h1, h2, h3, h4⟩ | ⟨j, h1, h2, h3, h4, h5⟩
    · rw [hd] at h3; cases h3
    · have hle : s.E.M.total ≤ 2 * (s.n + 1) := by
        have : s.n + 1 > s.E.M.total * 666 / 1000 := hbig
        omega
      obtain ⟨tgt, g1, g2, g3, g4, g5, g6, g7⟩ := grow_good h (f := f) hbig hn (by omega)
      obtain ⟨s', i1, i2, i3, -, i5⟩ := insert_small g2 k v (f := f)
        (by show tgt.E.M.total + 1 ≤ f; omega) (fun _ => g5)
      refine ⟨s', ?_, i2, by rw [i3]; exact g3, by rw [i3]; show tgt.E.M.total ≤ B; omega, ?_⟩
      · simp only [SeqTable.insert, h5, hbig, if_true, g1, Nat.add_sub_cancel]
        exact i1
      · rw [i5]; show s.n + _ ≤ _; split <;> omega

theorem insertOrUpdate_small {s : St K V} {d : Dict K V} (h : Good s d) (k : K) (v : V) (u : UpdFn V)
    {f : Nat} (hf : s.E.M.total + 1 ≤ f) (hfew : d k = none → s.n + 1 ≤ thresh s.E) :
    ∃ s', SeqTable.insertOrUpdate f s k v u =
        .ok (s', ((SOp.insertOrModify k v fun w => (u.upd w, u.upd w)).sem d).2) ∧
      Good s' ((SOp.insertOrModify k v fun w => (u.upd w, u.upd w)).sem d).1 ∧ s'.E = s.E ∧
      s'.version = s.version ∧ s'.n ≤ s.n + 1 := by
  obtain ⟨f, rfl⟩ : ∃ g, f = g + 1 := ⟨f - 1, by omega⟩
  rcases h.probe k hf with ⟨j, w, h1, h2, h3, h4⟩ | ⟨j, h1, h2, h3, h4, h5⟩
  · obtain ⟨g1, g2⟩ := h.update u h1 h2
    refine ⟨{ s with t := s.t.set (s.E.M.remap j) (nonAtomicUpdate k (s.t (s.E.M.remap j)) u).1 }, ?_,
      (by simp only [SOp.sem, h3]; exact g1), rfl, rfl, Nat.le_succ _⟩
    simp only [SeqTable.insertOrUpdate, h4, SOp.sem, h3, g2]
  · have hn := hfew h4
    refine ⟨{ s with t := s.t.set (s.E.M.remap j) (Cell.liveCell k v), n := s.n + 1 }, ?_,
      (by simp only [SOp.sem, h4]; exact h.put_new v h1 h2 h3 hn), rfl, rfl, Nat.le_refl _⟩
    have : ¬ s.n + 1 > thresh s.E := by omega
    simp only [SeqTable.insertOrUpdate, h5, SOp.sem, h4, this, if_false]

/-- `insert_or_update` in general. -/
theorem insertOrUpdate_good {s : St K V} {d : Dict K V} (h : Good s d) (k : K) (v : V) (u : UpdFn V)
    {f B : Nat} (hB : s.E.M.total ≤ B) (hB' : 4 * (s.n + 1) ≤ B) (hn : s.n + 1 < 2 ^ 40)
    (hf : B + 2 ≤ f) :
    ∃ s', SeqTable.insertOrUpdate f s k v u =
        .ok (s', ((SOp.insertOrModify k v fun w => (u.upd w, u.upd w)).sem d).2) ∧
      Good s' ((SOp.insertOrModify k v fun w => (u.upd w, u.upd w)).sem d).1 ∧
      s'.E.h = s.E.h ∧ s'.E.M.total ≤ B ∧ s'.n ≤ s.n + 1 := by
  by_cases hsmall : d k = none → s.n + 1 ≤ thresh s.E
  · obtain ⟨s', h1, h2, h3, -, h5⟩ := insertOrUpdate_small h k v u (f := f) (by omega) hsmall
    exact ⟨s', h1, h2, by rw [h3], by rw [h3]; exact hB, h5⟩
  · have hd : d k = none := Classical.byContradiction fun hc => hsmall fun h => absurd h hc
    have hbig : s.n + 1 > thresh s.E := by
      apply Classical.byContradiction; intro hc; exact hsmall fun _ => by omega
    obtain ⟨f, rfl⟩ : ∃ g, f = g + 1 := ⟨f - 1, by omega⟩
    rcases h.probe k (f := f + 1) (by omega) with ⟨j, w, h1, h2, h3, h4⟩ | ⟨j, h1, h2, h3, h4, h5⟩
    · rw [hd] at h3; cases h3
    · have hle : s.E.M.total ≤ 2 * (s.n + 1) := by
        have : s.n + 1 > s.E.M.total * 666 / 1000 := hbig
        omega
      obtain ⟨tgt, g1, g2, g3, g4, g5, g6, g7⟩ := grow_good h (f := f) hbig hn (by omega)
      obtain ⟨s', i1, i2, i3, -, i5⟩ := insertOrUpdate_small g2 k v u (f := f)
        (by show tgt.E.M.total + 1 ≤ f; omega) (fun _ => g5)
      refine ⟨s', ?_, i2, by rw [i3]; exact g3, by rw [i3]; show tgt.E.M.total ≤ B; omega, i5⟩
      simp only [SeqTable.insertOrUpdate, h5, hbig, if_true, g1, Nat.add_sub_cancel]
      exact i1

/-! ## Backward shifting -/

/-- Probe sequences that do not wrap around: every element is at or behind its home, and the slots in
between are occupied - except for the hole `i`, which only elements from slot `j` on may have.
(proof, no code) -/
structure Hole (E : Env K) (t : Tbl K V) (i j : Nat) : Prop where
  clean : ∀ p v, (t p).c ≠ .deleted v
  uniq : ∀ p q k v w, p < E.M.total → q < E.M.total → (t p).c = .live k v → (t q).c = .live k w → p = q
  home : ∀ p k v, p < E.M.total → (t p).c = .live k v → E.M.map (E.h k) ≤ p
  path : ∀ p k v q, p < E.M.total → (t p).c = .live k v → E.M.map (E.h k) ≤ q → q < p →
    (t q).c = .empty → q = i ∧ j ≤ p
  hole : (t i).c = .empty
  lt : i < j
  between : ∀ q, i < q → q < j → (t q).c ≠ .empty
  last : (t (E.M.total - 1)).c = .empty
  notLast : i < E.M.total - 1
  raw : ∀ p k v, p < E.M.total → (t p).c = .live k v → E.h k = E.M.map (E.h k)

theorem remap_small {M : Mapper} {k : Nat} (hw : M.WF k) (hcp : M.cp = true) {p : Nat}
    (hp : p < M.total) : M.remap p = p := by
  have : M.total = 2 ^ k := by rw [hw.total_eq]; simp [hcp]
  rw [hw.remap_cp hcp, Nat.mod_eq_of_lt (by omega)]

theorem eraseLoop_good {E : Env K} (hE : E.OK) (hcp : E.M.cp = true) {d : Dict K V} :
    ∀ f (t : Tbl K V) i j, Hole E t i j → Stores E t d → E.M.total + 1 ≤ f + j →
    ∃ t', eraseLoop E f t i j = .ok t' ∧ Inv E t' ∧ Stores E t' d ∧ (∀ p v, (t' p).c ≠ .deleted v) ∧
      (t' (E.M.total - 1)).c = .empty := by
  obtain ⟨n, hw⟩ := hE.wf
  intro f
  induction f with
  | zero =>
    intro t i j hH hst hf
    exfalso
    exact hH.between (E.M.total - 1) hH.notLast (by omega) hH.last
  | succ f ih =>
    intro t i j hH hst hf
    have hj : j ≤ E.M.total - 1 := by
      apply Classical.byContradiction
      intro hn
      exact hH.between (E.M.total - 1) hH.notLast (by omega) hH.last
    have hnl := hH.notLast
    have hjt : j < E.M.total := by omega
    have hr := remap_small hw hcp hjt
    have hlt := hH.lt
    simp only [eraseLoop, hr, hjt, if_true]
    cases hc : (t j).c with
    | empty =>
      refine ⟨t, rfl, ⟨?_, fun h => by rw [hcp] at h; cases h⟩, hst, hH.clean, hH.last⟩
      intro p k v hp hv
      refine ⟨p, remap_small hw hcp hp, hH.home p k v hp hv, ?_⟩
      intro q h1 h2
      rw [remap_small hw hcp (by omega)]
      refine ⟨fun he => ?_, fun w hw' => ?_⟩
      · obtain ⟨rfl, h3⟩ := hH.path p k v q hp hv h1 h2 he
        by_cases hpj : p = j
        · subst hpj; rw [hc] at hv; cases hv
        · have := (hH.path p k v j hp hv (by omega) (by omega) hc).1
          omega
      · have := hH.uniq p q k v w hp (by omega) hv hw'
        omega
    | deleted v => exact absurd hc (hH.clean j v)
    | live k v =>
      have hraw := hH.raw j k v hjt hc
      simp only
      split
      · rename_i hle
        rw [hraw] at hle
        have hne : i ≠ j := by omega
        have hset : ∀ q, ((t.set i (t j)).set j Cell.emptyCell) q =
            if q = j then Cell.emptyCell else if q = i then t j else t q := by
          intro q; simp only [Tbl.set]
        apply ih
        · constructor
          · intro p w
            rw [hset]
            split
            · simp [Cell.emptyCell]
            · split
              · rw [hc]; simp
              · exact hH.clean p w
          · intro p q k' v' w' hp hq h1 h2
            rw [hset] at h1 h2
            have fact : ∀ p k' v', p < E.M.total → p ≠ j → (if p = i then t j else t p).c = .live k' v' →
                (p = i ∧ k' = k ∧ v' = v) ∨ (p ≠ i ∧ (t p).c = .live k' v') := by
              intro p k' v' _ _ h
              split at h
              · rw [hc] at h; cases h; exact .inl ⟨by assumption, rfl, rfl⟩
              · exact .inr ⟨by assumption, h⟩
            by_cases hpj : p = j
            · simp [hpj, Cell.emptyCell] at h1
            by_cases hqj : q = j
            · simp [hqj, Cell.emptyCell] at h2
            simp only [hpj, hqj, if_false] at h1 h2
            rcases fact p k' v' hp hpj h1 with ⟨e1, e2, -⟩ | ⟨e1, e2⟩ <;>
              rcases fact q k' w' hq hqj h2 with ⟨e3, e4, -⟩ | ⟨e3, e4⟩
            · omega
            · subst e2; have := hH.uniq j q _ _ _ hjt hq hc e4; omega
            · subst e4; have := hH.uniq p j _ _ _ hp hjt e2 hc; omega
            · exact hH.uniq p q _ _ _ hp hq e2 e4
          · intro p k' v' hp h1
            rw [hset] at h1
            split at h1
            · simp [Cell.emptyCell] at h1
            · split at h1
              · rename_i hpi
                rw [hc] at h1; cases h1; omega
              · exact hH.home p k' v' hp h1
          · intro p k' v' q hp h1 h2 h3 h4
            rw [hset] at h1 h4
            split at h1
            · simp [Cell.emptyCell] at h1
            · rename_i hpj
              split at h1
              · rename_i hpi
                subst hpi
                rw [hc] at h1; cases h1
                exfalso
                have : q ≠ j := by omega
                have hqi : q ≠ p := by omega
                simp only [this, hqi, if_false] at h4
                have := (hH.path j k v q hjt hc h2 (by omega) h4).1
                omega
              · split at h4
                · rename_i hqj
                  exact ⟨hqj, by omega⟩
                · split at h4
                  · rw [hc] at h4; cases h4
                  · rename_i hqi
                    exact absurd (hH.path p k' v' q hp h1 h2 h3 h4).1 hqi
          · rw [hset]; simp [Cell.emptyCell]
          · omega
          · intro q h1 h2; omega
          · rw [hset]
            split
            · rfl
            · split
              · omega
              · exact hH.last
          · have : j ≠ E.M.total - 1 := by rintro rfl; rw [hH.last] at hc; cases hc
            omega
          · intro p k' v' hp h1
            rw [hset] at h1
            split at h1
            · simp [Cell.emptyCell] at h1
            · split at h1
              · rw [hc] at h1; cases h1; exact hraw
              · exact hH.raw p k' v' hp h1
        · intro k' v'
          rw [hst k' v']
          constructor
          · rintro ⟨p, hp, hv⟩
            by_cases hpj : p = j
            · subst hpj
              exact ⟨i, by omega, by rw [hset]; simp [hne, hv]⟩
            · refine ⟨p, hp, ?_⟩
              rw [hset]
              have : p ≠ i := by rintro rfl; rw [hH.hole] at hv; cases hv
              simp [hpj, this, hv]
          · rintro ⟨p, hp, hv⟩
            rw [hset] at hv
            split at hv
            · simp [Cell.emptyCell] at hv
            · split at hv
              · exact ⟨j, hjt, hv⟩
              · exact ⟨p, hp, hv⟩
        · omega
      · rename_i hle
        rw [hraw] at hle
        apply ih
        · refine ⟨hH.clean, hH.uniq, hH.home, ?_, hH.hole, by omega, ?_, hH.last, hH.notLast, hH.raw⟩
          · intro p k' v' q hp h1 h2 h3 h4
            obtain ⟨e1, e2⟩ := hH.path p k' v' q hp h1 h2 h3 h4
            refine ⟨e1, ?_⟩
            by_cases hpj : p = j
            · subst hpj
              rw [hc] at h1; cases h1
              omega
            · omega
          · intro q h1 h2
            by_cases hq : q = j
            · subst hq; rw [hc]; simp
            · exact hH.between q h1 (by omega)
        · exact hst
        · omega

/-- The hole made by `erase`. -/
theorem Hole.start {E : Env K} (hE : E.OK) (hcp : E.M.cp = true) {t : Tbl K V} (hI : Inv E t)
    (hclean : ∀ p v, (t p).c ≠ .deleted v) (hlast : (t (E.M.total - 1)).c = .empty)
    (hraw : ∀ p k v, p < E.M.total → (t p).c = .live k v → E.h k = E.M.map (E.h k))
    {p : Nat} {k : K} {v : V} (hp : p < E.M.total) (hv : (t p).c = .live k v) :
    Hole E (t.set p Cell.emptyCell) p (p + 1) := by
  obtain ⟨n, hw⟩ := hE.wf
  have hpl : p ≠ E.M.total - 1 := by rintro rfl; rw [hlast] at hv; cases hv
  have hplain : ∀ q k v, q < E.M.total → (t q).c = .live k v → E.M.map (E.h k) ≤ q ∧
      ∀ r, E.M.map (E.h k) ≤ r → r < q → (t r).c ≠ .empty := by
    intro q k v hq hv
    obtain ⟨i, hi, hpa⟩ := hI.reach q k v hq hv
    have hm := hw.map_lt (hE.hash k)
    have := hw.addr_le_total
    have hil : i ≤ E.M.total - 1 := by
      apply Classical.byContradiction
      intro hn
      have := (hpa.2 (E.M.total - 1) (by omega) (by omega)).1
      rw [remap_small hw hcp (by omega)] at this
      exact this hlast
    rw [remap_small hw hcp (by omega)] at hi
    subst hi
    refine ⟨hpa.1, fun r h1 h2 => ?_⟩
    have := (hpa.2 r h1 h2).1
    rwa [remap_small hw hcp (by omega)] at this
  have hset : ∀ q, (t.set p Cell.emptyCell) q = if q = p then Cell.emptyCell else t q := fun q => rfl
  have hlive : ∀ q k v, ((t.set p Cell.emptyCell) q).c = .live k v → q ≠ p ∧ (t q).c = .live k v := by
    intro q k v h
    rw [hset] at h
    split at h
    · simp [Cell.emptyCell] at h
    · exact ⟨by assumption, h⟩
  constructor
  · intro q w
    rw [hset]
    split
    · simp [Cell.emptyCell]
    · exact hclean q w
  · intro q r k v w hq hr h1 h2
    exact hI.unique hq hr (hlive _ _ _ h1).2 (hlive _ _ _ h2).2
  · intro q k v hq h1
    exact (hplain q k v hq (hlive _ _ _ h1).2).1
  · intro q k v r hq h1 h2 h3 h4
    have := (hplain q k v hq (hlive _ _ _ h1).2).2 r h2 h3
    rw [hset] at h4
    split at h4
    · exact ⟨by assumption, by omega⟩
    · exact absurd h4 this
  · rw [hset]; simp [Cell.emptyCell]
  · omega
  · intro q h1 h2; omega
  · rw [hset]
    split
    · rfl
    · exact hlast
  · omega
  · intro q k v hq h1
    exact hraw q k v hq (hlive _ _ _ h1).2

end
end SeqTable
end Growt
