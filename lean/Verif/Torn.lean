import Verif.Words

/-!
# Slots that are loaded in two halves

`_mm_loadu_si128` (`simple_slot.hpp:313-322`) need not be one access.  This file follows the executions of the
bounded table on words (`WStep`) in which the halves of a slot are loaded one after the other.
-/

set_option linter.unusedSectionVars false

namespace Growt
namespace Words
section
variable {T V : Type} [DecidableEq T] [DecidableEq V] [Inhabited V]

/-- What remains of a result if the values shown by `find` and `insert` are disregarded. (specification, no code) -/
structure Seen (V : Type) where
  ok : Bool
  code : Option ReturnCode
  key : Option Nat
  val : Option V

/-- The calls whose shown value does not come from the load alone; `locate` is only used on slots with pointers,
whose loads are not torn. (specification, no code) -/
def shows : Op Nat V → Bool
  | .find _ | .locate _ | .insert _ _ => false
  | _ => true

/-- Proof, no code: the parts of a result. -/
def see (m : Bool) (b : Nat) (op : Op Nat V) (r : WRet V) : Seen V :=
  ⟨r.ok op, r.code, (r.shown m b).map (·.1), if shows op then (r.shown m b).map (·.2) else none⟩

/-- The events with the parts of the results that are regarded. (specification, no code) -/
def seeEv (m : Bool) (b : Nat) : WEv T V → Ev T (Op Nat V) (Seen V)
  | .call i o => .call i o
  | .lin i o r => .lin i o (see m b o r)
  | .ret i o r => .ret i o (see m b o r)

/-- The ideal map without the values shown by `find` and `insert`: the boolean result is right, an iterator is
returned where the ideal map shows an element, it shows the key of the call, and all other calls show the right
value.  Refusals and the exemption of a successful `insert` as in `wordObj`. (specification, no code) -/
def seenObj (m : Bool) : Obj (Op Nat V) (Seen V) (Dict Nat V) where
  init := fun _ => none
  legal d op x d' :=
    (d' = ((op.toSpec m).sem d).1 ∧ x.ok = ((op.toSpec m).sem d).2.ok ∧
      ((∃ k v, op = .insert k v) ∧ x.ok = true ∨ x.key = ((op.toSpec m).sem d).2.shown.map fun _ => op.key) ∧
      (shows op = true → x.val = ((op.toSpec m).sem d).2.shown)) ∨
    ∃ c, op.mayRefuse c ∧ x = ⟨false, some c, none, none⟩ ∧ d' = d ∧ (c = .UNSUCCESS_FULL → d op.key = none)

/-- What is legal with all values is legal without some. -/
theorem seen_legal {m : Bool} {b : Nat} {d d' : Dict Nat V} {op : Op Nat V} {r : WRet V}
    (h : (wordObj m b).legal d op r d') : (seenObj m).legal d op (see m b op r) d' := by
  rcases h with ⟨h1, h2, h3⟩ | ⟨c, h1, h2, h3, h4⟩
  · refine .inl ⟨h1, h2, ?_, ?_⟩
    · rcases h3 with h3 | h3
      · exact .inl h3
      · refine .inr ?_
        simp only [see, h3, Option.map_map]; rfl
    · intro hs
      rcases h3 with ⟨⟨k, v, h3⟩, -⟩ | h3
      · subst h3; cases hs
      · simp only [see, h3, hs, if_true, Option.map_map]
        show Option.map id _ = _
        exact Option.map_id_apply
  · refine .inr ⟨c, h1, ?_, h3, h4⟩
    subst h2
    have : (⟨some c, none⟩ : WRet V).ok op = false := by
      cases op <;> simp only [Op.mayRefuse] at h1 <;> first
        | exact h1.elim
        | (subst h1; rfl)
        | (rw [h1.1]; rfl)
    simp [see, this, WRet.shown]

/-- Proof, no code: the call is `erase_if(k, dd)` and the key half of the loaded slot is `k`, so the mapped half
decides. -/
def ByData (b : Nat) (E : Env Nat) (op : Op Nat V) (i att w k : Nat) (dd : V) : Prop :=
  op = .eraseIf k dd ∧ (⟨w, default⟩ : WSlot V).compareKey E.m b k = true ∧
    ∀ d, afterLoadW b E op i att (E.M.remap i) ⟨w, d⟩ =
      if d = dd then .cont (.act i att ⟨w, d⟩) else .done ⟨some .UNSUCCESS_NOT_FOUND, none⟩

/-- What a load leads to is decided by the key half of the slot, except for `erase_if`. -/
theorem decided {m : Bool} {b : Nat} {E : Env Nat} (hm : E.m = m) (op : Op Nat V) (i att w : Nat) :
    (∀ d, afterLoadW b E op i att (E.M.remap i) ⟨w, d⟩ = .cont (.load (i + 1) att)) ∨
    ((∀ k dd, op ≠ .eraseIf k dd) ∧ ∀ d, afterLoadW b E op i att (E.M.remap i) ⟨w, d⟩ = .cont (.act i att ⟨w, d⟩)) ∨
    (∃ x, ∀ d, ∃ r, afterLoadW b E op i att (E.M.remap i) ⟨w, d⟩ = .done r ∧ see m b op r = x) ∨
    ∃ k dd, ByData b E op i att w k dd := by
  generalize hpos : E.M.remap i = pos
  subst hm
  have h1 : ∀ d : V, (⟨w, d⟩ : WSlot V).isMarked E.m b = (⟨w, default⟩ : WSlot V).isMarked E.m b := fun _ => rfl
  have h2 : ∀ d : V, (⟨w, d⟩ : WSlot V).isEmpty b = (⟨w, default⟩ : WSlot V).isEmpty b := fun _ => rfl
  have h3 : ∀ (d : V) k, (⟨w, d⟩ : WSlot V).compareKey E.m b k = (⟨w, default⟩ : WSlot V).compareKey E.m b k :=
    fun _ _ => rfl
  have h4 : ∀ d : V, (⟨w, d⟩ : WSlot V).getKey E.m b = (⟨w, default⟩ : WSlot V).getKey E.m b := fun _ => rfl
  cases op with
  | eraseIf k d =>
    by_cases g1 : (⟨w, default⟩ : WSlot V).isMarked E.m b = true
    · refine .inr (.inr (.inl ⟨_, fun x => ⟨⟨some .UNSUCCESS_INVALID, none⟩, ?_, rfl⟩⟩))
      simp only [afterLoadW, h1, g1, if_true, retEndW]
    · by_cases g2 : (⟨w, default⟩ : WSlot V).isEmpty b = true
      · refine .inr (.inr (.inl ⟨_, fun x => ⟨⟨some .UNSUCCESS_NOT_FOUND, none⟩, ?_, rfl⟩⟩))
        simp only [afterLoadW, h1, h2, g1, g2, if_true, retEndW]
        rfl
      · by_cases g3 : (⟨w, default⟩ : WSlot V).compareKey E.m b k = true
        · refine .inr (.inr (.inr ⟨k, d, rfl, g3, fun x => ?_⟩))
          simp only [afterLoadW, h1, h2, h3, g1, g2, g3, if_true, retEndW, ne_eq]
          by_cases hx : x = d <;> simp [hx]
        · refine .inl fun x => ?_
          simp only [afterLoadW, h1, h2, h3, g1, g2, g3]
          rfl
  | find k =>
    simp only [afterLoadW, h2, h3]
    (repeat' split) <;> first
      | exact .inl fun _ => rfl
      | exact .inr (.inl ⟨fun _ _ h => (by cases h), fun _ => rfl⟩)
      | exact .inr (.inr (.inl ⟨_, fun _ => ⟨_, rfl, rfl⟩⟩))
      | exact .inr (.inr (.inl ⟨see E.m b (.find k) ⟨none, some (pos, ⟨w, default⟩)⟩, fun _ => ⟨_, rfl, rfl⟩⟩))
  | locate k =>
    simp only [afterLoadW, h1, h2, h3, retEndW]
    (repeat' split) <;> first
      | exact .inl fun _ => rfl
      | exact .inr (.inr (.inl ⟨see E.m b (.locate k) ⟨some .SUCCESS_UP, some (pos, ⟨w, default⟩)⟩, fun _ => ⟨_, rfl, rfl⟩⟩))
      | exact .inr (.inr (.inl ⟨_, fun _ => ⟨_, rfl, rfl⟩⟩))
  | insert k d =>
    simp only [afterLoadW, h1, h2, h3, retEndW]
    (repeat' split) <;> first
      | exact .inl fun _ => rfl
      | exact .inr (.inl ⟨fun _ _ h => (by cases h), fun _ => rfl⟩)
      | exact .inr (.inr (.inl ⟨_, fun _ => ⟨_, rfl, rfl⟩⟩))
      | exact .inr (.inr (.inl ⟨see E.m b (.insert k d) ⟨some .UNSUCCESS_ALREADY_USED, some (pos, ⟨w, default⟩)⟩,
          fun _ => ⟨_, rfl, rfl⟩⟩))
  | _ =>
    simp only [afterLoadW, h1, h2, h3, retEndW]
    (repeat' split) <;> first
      | exact .inl fun _ => rfl
      | exact .inr (.inl ⟨fun _ _ h => (by cases h), fun _ => rfl⟩)
      | exact .inr (.inr (.inl ⟨_, fun _ => ⟨_, rfl, rfl⟩⟩))

/-- A loaded copy is the slot. -/
theorem afterLoad_act {K : Type} [DecidableEq K] {E : Env K} {op : Op K V} {i att pos : Nat} {c : Cell K V}
    {j a : Nat} {c' : Cell K V} (h : afterLoad E op i att pos c = .cont (.act j a c')) : j = i ∧ a = att ∧ c' = c := by
  revert h
  cases op <;> simp only [afterLoad, retEnd] <;> (repeat' split) <;> intro h <;> cases h <;> exact ⟨rfl, rfl, rfl⟩

/-- What is known of the table. (proof, no code) -/
structure Good (b : Nat) (E : Env Nat) (t : Tbl Nat V) : Prop where
  inv : Inv E t
  nomarks : NoMarks t
  legal : ∀ p, LegalCell E.m b (t p)
  dels : ∀ p v, (t p).c = .deleted v → v = default

/-- Tombstones have the mapped value of `get_deleted()`. -/
theorem step_dels {K : Type} [DecidableEq K] {E : Env K} {op : Op K V} {t : Tbl K V}
    (ht : ∀ p v, (t p).c = .deleted v → v = default) {pc : PC K V} (hpc : PcInv E t op pc) (hs : SafeAct E t op pc)
    (hu : (∀ k f, op ≠ .updateUnsafe k f) ∧ ∀ k d f, op ≠ .insertOrUpdateUnsafe k d f) (p : Nat) (v : V)
    (h : ((step E op pc t).1 p).c = .deleted v) : v = default := by
  revert h
  have hset : ∀ (q : Nat) (c : Cell K V), (∀ v, c.c = .deleted v → v = default) →
      ((t.set q c) p).c = .deleted v → v = default := by
    intro q c hc
    simp only [Tbl.set]; split
    · exact hc v
    · exact ht p v
  cases pc with
  | load i att => simp only [step]; split <;> exact ht p v
  | act i att curr =>
    obtain ⟨-, ⟨hm, hact⟩, -⟩ := hpc
    have hs := hs i att curr rfl
    have hcas : ∀ (new : Cell K V) (r : Ret K V), (∀ v, new.c = .deleted v → v = default) →
        ((casStep t i att (E.M.remap i) curr new r).1 p).c = .deleted v → v = default := by
      intro new r hn
      unfold casStep; split
      · exact hset _ _ hn
      · exact ht p v
    have hlive : ∀ (x : Cell K V) (k : K) (w u v : V), x.c = .live k w → (x.setMapped u).c = .deleted v → v = default := by
      rintro ⟨mk, c⟩ k w u v hx h
      cases hx; cases h
    have hau : ∀ f, op.usesCas E.m = E.m → (∃ w, curr.c = .live op.key w) →
        ∀ v, (atomicUpdate E.m op.key (t (E.M.remap i)) curr f).1.c = .deleted v → v = default := by
      intro f hcs ⟨w, hw⟩ v
      unfold atomicUpdate
      cases hmm : E.m with
      | true =>
        simp only [if_true]
        split
        · exact hlive _ _ _ _ _ hw
        · exact ht _ v
      | false =>
        simp only [Bool.false_eq_true, if_false]
        have hl : ∃ u, (t (E.M.remap i)).c = .live op.key u := by
          rcases hs with h | h | h
          · rw [hcs, hmm] at h; cases h
          · rw [h] at hw; cases hw
          · exact h
        obtain ⟨u, hl⟩ := hl
        cases f.atomic with
        | some g => exact hlive _ _ _ _ _ hl
        | none =>
          simp only
          split
          · exact hlive _ _ _ _ _ hl
          · exact ht _ v
    have hnl : ∀ (k : K) (d v : V), (Cell.liveCell k d).c = .deleted v → v = default := by
      intro k d v h; cases h
    have hnd : ∀ v, (Cell.deletedCell : Cell K V).c = .deleted v → v = default := by
      intro v h; cases h; rfl
    simp only [step]
    split
    · cases op with
      | find | locate => exact hact.elim
      | insert k d => exact hcas _ _ (hnl _ _)
      | update k f => exact hset _ _ (hau f rfl hact)
      | updateBackoff k f c => exact hset _ _ (hau f rfl hact)
      | updateUnsafe k f => exact absurd rfl (hu.1 k f)
      | insertOrUpdateUnsafe k d f => exact absurd rfl (hu.2 k d f)
      | insertOrUpdate k d f =>
        simp only [actStep]
        split
        · exact hcas _ _ (hnl _ _)
        · rename_i he
          refine hset _ _ (hau f rfl ?_)
          rcases hact with h | h
          · exact absurd (Cell.isEmpty_iff.2 h.1) he
          · exact h
      | erase k => exact hcas _ _ hnd
      | eraseIf k d => exact hcas _ _ hnd
    · exact ht p v

/-- Proof, no code: an update that works on the mapped half needs the key to stay. -/
def SafeW (b : Nat) (E : Env Nat) (t : Tbl Nat V) (op : Op Nat V) (i w : Nat) : Prop :=
  E.m = false → op.modifies op.key → (⟨w, default⟩ : WSlot V).compareKey E.m b op.key = true →
    ∃ v, (t (E.M.remap i)).c = .live op.key v

/-- The key half of a slot decides as the slot does. -/
theorem resolve {b : Nat} (hb : 1 ≤ b) {E : Env Nat} {t : Tbl Nat V} (hG : Good b E t)
    {op : Op Nat V} (hk : LegalKey E.m b op.key)
    (hu : (∀ k f, op ≠ .updateUnsafe k f) ∧ ∀ k d f, op ≠ .insertOrUpdateUnsafe k d f) {i att : Nat}
    (hp : Passed E t op.key i) (hlt : E.M.remap i < E.M.total) :
    ((∀ d, afterLoadW b E op i att (E.M.remap i) ⟨(encT b t (E.M.remap i)).key, d⟩ = .cont (.load (i + 1) att)) ∧
      Passed E t op.key (i + 1)) ∨
    ((∀ d, afterLoadW b E op i att (E.M.remap i) ⟨(encT b t (E.M.remap i)).key, d⟩ =
        .cont (.act i att ⟨(encT b t (E.M.remap i)).key, d⟩)) ∧
      SafeW b E t op i (encT b t (E.M.remap i)).key) ∨
    (∃ x, (∀ d, ∃ r, afterLoadW b E op i att (E.M.remap i) ⟨(encT b t (E.M.remap i)).key, d⟩ = .done r ∧
        see E.m b op r = x) ∧
      ∀ D : Dict Nat V, Stores E t D → ∃ D', Stores E t D' ∧ (seenObj E.m).legal D op x D') ∨
    ∃ k dd v, ByData b E op i att (encT b t (E.M.remap i)).key k dd ∧ (t (E.M.remap i)).c = .live k v := by
  have hload := load_enc (op := op) hb hk (hG.legal (E.M.remap i)) i att (E.M.remap i)
  have hgood := load_good (att := att) hG.inv hp hlt
  have hw : encode b (t (E.M.remap i)) =
      ⟨(encT b t (E.M.remap i)).key, (encT b t (E.M.remap i)).data⟩ := rfl
  rcases decided (m := E.m) (b := b) (E := E) rfl op i att (encT b t (E.M.remap i)).key with
    h | ⟨-, h⟩ | ⟨x, h⟩ | ⟨k, dd, h⟩
  · refine .inl ⟨h, ?_⟩
    rw [hw, h] at hload
    cases ho : afterLoad E op i att (E.M.remap i) (t (E.M.remap i)) with
    | done r => rw [ho] at hload; cases hload
    | oob => rw [ho] at hload; cases hload
    | cont pc =>
      rw [ho] at hload hgood
      cases pc with
      | act => cases hload
      | load j a => cases hload; exact hgood.2.2.2
  · refine .inr (.inl ⟨h, ?_⟩)
    intro _ _ hc
    have h5 := (layout_faithful hb (hG.legal (E.M.remap i))).2.2.2.2.1 op.key hk
    have : (encode b (t (E.M.remap i))).compareKey E.m b op.key = true := hc
    rw [h5] at this
    exact Cell.hasKey_iff.1 this
  · refine .inr (.inr (.inl ⟨x, h, fun D hD => ?_⟩))
    obtain ⟨r, h1, h2⟩ := h (encT b t (E.M.remap i)).data
    rw [hw, h1] at hload
    cases ho : afterLoad E op i att (E.M.remap i) (t (E.M.remap i)) with
    | cont => rw [ho] at hload; cases hload
    | oob => rw [ho] at hload; cases hload
    | done r' =>
      rw [ho] at hload hgood
      cases hload
      rw [← h2]
      have hst : step E op (.load i att) t = (t, .done r') := by
        simp only [step, hlt, if_true, ho]
      have hsh : ((∃ k d, op = .insert k d) ∧ r'.ok op = true) ∨
          (encRet b r').shown E.m b = r'.shown.map fun v => (op.key, v) := by
        rcases ret_live (pc := .load i att) hG.nomarks hp hst hu with h' | h'
        · exact .inl h'
        · exact .inr (shown_enc hb hk h')
      cases hgood.2.2 with
      | invalid hr ht hm => obtain ⟨p, _, hp⟩ := hm; rw [hG.nomarks p] at hp; cases hp
      | refused c hc hr ht habs =>
        exact ⟨D, hD, seen_legal (legal_enc hsh (.inr ⟨c, hc, hr, rfl, fun h => habs h D hD⟩))⟩
      | effect h =>
        obtain ⟨h1, h2⟩ := h D hD
        exact ⟨_, h1, seen_legal (legal_enc hsh (.inl ⟨rfl, h2⟩))⟩
  · have hc := h.2.1
    have hk' : LegalKey E.m b k := by rw [h.1] at hk; exact hk
    have h5 := (layout_faithful hb (hG.legal (E.M.remap i))).2.2.2.2.1 k hk'
    have : (encode b (t (E.M.remap i))).compareKey E.m b k = true := hc
    rw [h5] at this
    obtain ⟨v, hv⟩ := Cell.hasKey_iff.1 this
    exact .inr (.inr (.inr ⟨k, dd, v, h, hv⟩))

/-- A modifying access on a copy that may be torn: it does what it would do on the slot as it is, or nothing. -/
theorem act_torn {b : Nat} {E : Env Nat} {op : Op Nat V} (hk : LegalKey E.m b op.key)
    (hu : (∀ k f, op ≠ .updateUnsafe k f) ∧ ∀ k d f, op ≠ .insertOrUpdateUnsafe k d f)
    {i att : Nat} {w : WSlot V} {t : WTbl V}
    (hw : afterLoadW b E op i att (E.M.remap i) w = .cont (.act i att w))
    (hsafe : E.m = false → op.modifies op.key → w.compareKey E.m b op.key = true →
      (t (E.M.remap i)).key = op.key) :
    (w.key = (t (E.M.remap i)).key ∧ ((∃ k d, op = .eraseIf k d) → w = t (E.M.remap i)) ∧
      actW b E op i att (E.M.remap i) w t = actW b E op i att (E.M.remap i) (t (E.M.remap i)) t) ∨
    ∃ o, actW b E op i att (E.M.remap i) w t = (t, o) ∧
      ((∃ a, o = .cont (.load i a)) ∨
        ∃ k f c, op = .updateBackoff k f c ∧ c att = false ∧ o = .done ⟨some .UNSUCCESS_BACKOFF, none⟩) := by
  by_cases he : t (E.M.remap i) = w
  · subst he; exact .inl ⟨rfl, fun _ => rfl, rfl⟩
  · have hself : t.set (E.M.remap i) (t (E.M.remap i)) = t := by
      funext q; simp only [WTbl.set]; split
      · rename_i h; rw [h]
      · rfl
    have hcas : ∀ (new : WSlot V) (r : WRet V), casW t i att (E.M.remap i) w new r = (t, .cont (.load i att)) := by
      intro new r; simp [casW, he]
    -- the update of the mapped half
    have hupd : ∀ f : UpdFn V, op.modifies op.key → w.compareKey E.m b op.key = true →
        (w.key = (t (E.M.remap i)).key ∧
          updateW E.m b (t (E.M.remap i)) w f = updateW E.m b (t (E.M.remap i)) (t (E.M.remap i)) f) ∨
        ∃ x, updateW E.m b (t (E.M.remap i)) w f = (t (E.M.remap i), x, false) := by
      intro f hmod hc
      unfold updateW
      cases hm : E.m with
      | true => right; simp [he]
      | false =>
        simp only [Bool.false_eq_true, if_false]
        have h1 := hsafe hm hmod hc
        have h2 : w.key = op.key := by
          rw [hm] at hc
          simpa [WSlot.compareKey] using hc
        have h3 : w.key = (t (E.M.remap i)).key := by rw [h1, h2]
        cases f.atomic with
        | some g => left; refine ⟨h3, ?_⟩; simp only [WSlot.getKey, h3]
        | none =>
          by_cases hd : (t (E.M.remap i)).data = w.data
          · exfalso
            apply he
            cases hx : t (E.M.remap i) with
            | mk k d =>
              rw [hx] at hd h3
              cases hy : w with
              | mk k' d' => rw [hy] at hd h3; simp_all
          · right; simp [hd]
    cases op with
    | find k | locate k =>
      revert hw; simp only [afterLoadW, retEndW]
      (repeat' split) <;> intro hw <;> cases hw
    | updateUnsafe k f => exact absurd rfl (hu.1 k f)
    | insertOrUpdateUnsafe k d f => exact absurd rfl (hu.2 k d f)
    | insert k d => exact .inr ⟨_, hcas _ _, .inl ⟨_, rfl⟩⟩
    | erase k => exact .inr ⟨_, hcas _ _, .inl ⟨_, rfl⟩⟩
    | eraseIf k d => exact .inr ⟨_, hcas _ _, .inl ⟨_, rfl⟩⟩
    | update k f =>
      have hc : w.compareKey E.m b k = true := by
        revert hw; simp only [afterLoadW, retEndW]
        (repeat' split) <;> intro hw <;> cases hw
        assumption
      rcases hupd f (.inl ⟨f, rfl⟩) hc with ⟨h1, h2⟩ | ⟨x, h⟩
      · refine .inl ⟨h1, fun ⟨_, _, h⟩ => (by cases h), ?_⟩
        simp only [actW, h2]
      · refine .inr ⟨.cont (.load i att), ?_, .inl ⟨_, rfl⟩⟩
        simp only [actW, h, hself]; rfl
    | updateBackoff k f c =>
      have hc : w.compareKey E.m b k = true := by
        revert hw; simp only [afterLoadW, retEndW]
        (repeat' split) <;> intro hw <;> cases hw
        assumption
      rcases hupd f (.inr (.inl ⟨f, c, rfl⟩)) hc with ⟨h1, h2⟩ | ⟨x, h⟩
      · refine .inl ⟨h1, fun ⟨_, _, h⟩ => (by cases h), ?_⟩
        simp only [actW, h2]
      · cases hca : c att with
        | true =>
          refine .inr ⟨.cont (.load i (att + 1)), ?_, .inl ⟨_, rfl⟩⟩
          simp only [actW, h, hself, hca]; rfl
        | false =>
          refine .inr ⟨.done ⟨some .UNSUCCESS_BACKOFF, none⟩, ?_, .inr ⟨k, f, c, rfl, hca, rfl⟩⟩
          simp only [actW, h, hself, hca]; rfl
    | insertOrUpdate k d f =>
      by_cases hemp : w.isEmpty b = true
      · refine .inr ⟨.cont (.load i att), ?_, .inl ⟨_, rfl⟩⟩
        simp only [actW, hemp, if_true]
        exact hcas _ _
      · have hc : w.compareKey E.m b k = true := by
          revert hw; simp only [afterLoadW, retEndW]
          (repeat' split) <;> intro hw <;> cases hw <;> first | contradiction | assumption
        rcases hupd f (.inr (.inr ⟨d, f, rfl⟩)) hc with ⟨h1, h2⟩ | ⟨x, h⟩
        · refine .inl ⟨h1, fun ⟨_, _, h⟩ => (by cases h), ?_⟩
          have hemp' : (t (E.M.remap i)).isEmpty b = w.isEmpty b := by simp only [WSlot.isEmpty, h1]
          simp only [actW, h2, hemp']
          rw [if_neg hemp, if_neg hemp]
        · refine .inr ⟨.cont (.load i att), ?_, .inl ⟨_, rfl⟩⟩
          simp only [actW, hemp, h, hself]; rfl

/-! ## Effects found out later -/

section
variable {O R D : Type}

/-- The thread of an event. (specification, no code) -/
def who : Ev T O R → T
  | .call i _ | .lin i _ _ | .ret i _ _ => i

/-- Proof, no code: a history of events, each with the abstract state after it. -/
def Run (S : Obj O R D) : D → List (Ev T O R × D) → Prop
  | _, [] => True
  | d, (.lin _ o r, d') :: a => S.legal d o r d' ∧ Run S d' a
  | d, (.call _ _, d') :: a => d' = d ∧ Run S d' a
  | d, (.ret _ _ _, d') :: a => d' = d ∧ Run S d' a

/-- Proof, no code: the abstract state at the end. -/
def lastD : D → List (Ev T O R × D) → D
  | d, [] => d
  | _, (_, d') :: a => lastD d' a

theorem lastD_append (d : D) (a c : List (Ev T O R × D)) : lastD d (a ++ c) = lastD (lastD d a) c := by
  induction a generalizing d with
  | nil => rfl
  | cons e a ih => exact ih e.2

theorem Run.append {S : Obj O R D} {d : D} {a c : List (Ev T O R × D)} (h : Run S d a) (h' : Run S (lastD d a) c) :
    Run S d (a ++ c) := by
  induction a generalizing d with
  | nil => exact h'
  | cons e a ih =>
    obtain ⟨e, d'⟩ := e
    cases e with
    | call => exact ⟨h.1, ih h.2 h'⟩
    | lin => exact ⟨h.1, ih h.2 h'⟩
    | ret => exact ⟨h.1, ih h.2 h'⟩

theorem Run.split {S : Obj O R D} {d : D} {a c : List (Ev T O R × D)} (h : Run S d (a ++ c)) :
    Run S d a ∧ Run S (lastD d a) c := by
  induction a generalizing d with
  | nil => exact ⟨trivial, h⟩
  | cons e a ih =>
    obtain ⟨e, d'⟩ := e
    cases e with
    | call => exact ⟨⟨h.1, (ih h.2).1⟩, (ih h.2).2⟩
    | lin => exact ⟨⟨h.1, (ih h.2).1⟩, (ih h.2).2⟩
    | ret => exact ⟨⟨h.1, (ih h.2).1⟩, (ih h.2).2⟩

theorem Run.legal {S : Obj O R D} {d : D} {a : List (Ev T O R × D)} (h : Run S d a) :
    Legal S d (effects (a.map (·.1))) (lastD d a) := by
  induction a generalizing d with
  | nil => exact .nil _
  | cons e a ih =>
    obtain ⟨e, d'⟩ := e
    cases e with
    | call i o => obtain ⟨rfl, h⟩ := h; exact ih h
    | lin => exact .cons h.1 (ih h.2)
    | ret => obtain ⟨rfl, h⟩ := h; exact ih h

/-- Proof, no code: at some earlier time, after the last event of thread `i`, the call `o` with the result `x` and no
effect was legal. -/
def Retro (S : Obj O R D) (a : List (Ev T O R × D)) (i : T) (o : O) (x : R) : Prop :=
  ∃ a1 a2, a = a1 ++ a2 ∧ (∀ e ∈ a2, who e.1 ≠ i) ∧ S.legal (lastD S.init a1) o x (lastD S.init a1)

theorem Retro.now {S : Obj O R D} {a : List (Ev T O R × D)} {i : T} {o : O} {x : R}
    (h : S.legal (lastD S.init a) o x (lastD S.init a)) : Retro S a i o x := ⟨a, [], by simp, by simp, h⟩

theorem Retro.later {S : Obj O R D} {a : List (Ev T O R × D)} {i : T} {o : O} {x : R} (h : Retro S a i o x)
    {e : Ev T O R × D} (he : who e.1 ≠ i) : Retro S (a ++ [e]) i o x := by
  obtain ⟨a1, a2, h1, h2, h3⟩ := h
  refine ⟨a1, a2 ++ [e], by rw [h1, List.append_assoc], fun e' hm => ?_, h3⟩
  rcases List.mem_append.1 hm with hm | hm
  · exact h2 e' hm
  · simp only [List.mem_singleton] at hm; rw [hm]; exact he

theorem wf_split {p q : T → Phase O R} {a c : List (Ev T O R)} (h : WellFormed p (a ++ c) q) :
    ∃ r, WellFormed p a r ∧ WellFormed r c q := by
  induction a generalizing p with
  | nil => exact ⟨p, .nil _, h⟩
  | cons e a ih =>
    cases h with
    | call h1 h2 h3 h4 => obtain ⟨r, g1, g2⟩ := ih h4; exact ⟨r, .call h1 h2 h3 g1, g2⟩
    | lin h1 h2 h3 h4 => obtain ⟨r, g1, g2⟩ := ih h4; exact ⟨r, .lin h1 h2 h3 g1, g2⟩
    | ret h1 h2 h3 h4 => obtain ⟨r, g1, g2⟩ := ih h4; exact ⟨r, .ret h1 h2 h3 g1, g2⟩

theorem wf_other {p q : T → Phase O R} {a : List (Ev T O R)} (h : WellFormed p a q) {i : T}
    (hi : ∀ e ∈ a, who e ≠ i) (y : Phase O R) : p i = q i ∧ WellFormed (setAt p i y) a (setAt q i y) := by
  induction h with
  | nil => exact ⟨rfl, .nil _⟩
  | @call p q p' j o l h hq hf _ ih =>
    have hj : j ≠ i := hi _ (List.mem_cons_self ..)
    obtain ⟨g1, g2⟩ := ih fun e he => hi e (List.mem_cons_of_mem _ he)
    refine ⟨by rw [← g1, hf i (Ne.symm hj)], .call (q := setAt q i y) ?_ ?_ (fun x hx => ?_) g2⟩
    · rw [setAt_other hj]; exact h
    · rw [setAt_other hj]; exact hq
    · by_cases hxi : x = i
      · subst hxi; rw [setAt_same, setAt_same]
      · rw [setAt_other hxi, setAt_other hxi]; exact hf x hx
  | @lin p q p' j o r l h hq hf _ ih =>
    have hj : j ≠ i := hi _ (List.mem_cons_self ..)
    obtain ⟨g1, g2⟩ := ih fun e he => hi e (List.mem_cons_of_mem _ he)
    refine ⟨by rw [← g1, hf i (Ne.symm hj)], .lin (q := setAt q i y) ?_ ?_ (fun x hx => ?_) g2⟩
    · rw [setAt_other hj]; exact h
    · rw [setAt_other hj]; exact hq
    · by_cases hxi : x = i
      · subst hxi; rw [setAt_same, setAt_same]
      · rw [setAt_other hxi, setAt_other hxi]; exact hf x hx
  | @ret p q p' j o r l h hq hf _ ih =>
    have hj : j ≠ i := hi _ (List.mem_cons_self ..)
    obtain ⟨g1, g2⟩ := ih fun e he => hi e (List.mem_cons_of_mem _ he)
    refine ⟨by rw [← g1, hf i (Ne.symm hj)], .ret (q := setAt q i y) ?_ ?_ (fun x hx => ?_) g2⟩
    · rw [setAt_other hj]; exact h
    · rw [setAt_other hj]; exact hq
    · by_cases hxi : x = i
      · subst hxi; rw [setAt_same, setAt_same]
      · rw [setAt_other hxi, setAt_other hxi]; exact hf x hx

/-- **An effect can be put in where it was legal.** -/
theorem Retro.put {S : Obj O R D} {a : List (Ev T O R × D)} {p ph : T → Phase O R} (hrun : Run S S.init a)
    (hwf : WellFormed p (a.map (·.1)) ph) {i : T} {o : O} {x : R} (hi : ph i = .called o) (h : Retro S a i o x) :
    ∃ a', Run S S.init a' ∧ lastD S.init a' = lastD S.init a ∧ visible (a'.map (·.1)) = visible (a.map (·.1)) ∧
      WellFormed p (a'.map (·.1)) (setAt ph i (.effected o x)) ∧
      ∀ j o' x', j ≠ i → Retro S a j o' x' → Retro S a' j o' x' := by
  obtain ⟨a1, a2, rfl, h2, h3⟩ := h
  obtain ⟨r1, r2⟩ := hrun.split
  rw [List.map_append] at hwf
  obtain ⟨r, w1, w2⟩ := wf_split hwf
  obtain ⟨w3, w4⟩ := wf_other w2 (i := i) (fun e he => by
    obtain ⟨e', he', rfl⟩ := List.mem_map.1 he
    exact h2 e' he') (.effected o x)
  refine ⟨a1 ++ (.lin i o x, lastD S.init a1) :: a2, r1.append ⟨h3, r2⟩, ?_, ?_, ?_, ?_⟩
  · rw [lastD_append, lastD_append]; rfl
  · simp only [List.map_append, List.map_cons, visible_append]; rfl
  · rw [List.map_append]
    refine w1.append (.lin (by rw [w3, hi]) (setAt_same ..) (fun j hj => setAt_other hj) w4)
  · rintro j o' x' hj ⟨c1, c2, hc, hc2, hc3⟩
    rcases List.append_eq_append_iff.1 hc with ⟨m, g1, g2⟩ | ⟨m, g1, g2⟩
    · subst g1
      refine ⟨a1 ++ (.lin i o x, lastD S.init a1) :: m, c2, ?_, hc2, ?_⟩
      · rw [g2]; simp
      · rw [lastD_append] at hc3 ⊢; exact hc3
    · subst g1
      refine ⟨c1, m ++ (.lin i o x, lastD S.init (c1 ++ m)) :: a2, by simp, ?_, hc3⟩
      intro e he
      rcases List.mem_append.1 he with he | he
      · exact hc2 e (by rw [g2]; exact List.mem_append_left _ he)
      · rcases List.mem_cons.1 he with he | he
        · rw [he]; exact Ne.symm hj
        · exact hc2 e (by rw [g2]; exact List.mem_append_right _ he)

end

/-! ## Following an execution -/

/-- A thread and what it has done as seen from outside; `N op`: at some time during the call an unsuccessful result of
`erase_if` was right. (proof, no code) -/
def Rel (b : Nat) (E : Env Nat) (ok : Op Nat V → Prop) (t : Tbl Nat V) (N : Op Nat V → Prop) :
    WThr V → Phase (Op Nat V) (Seen V) → Prop
  | .idle, p => p = .idle
  | .fin op r, p => p = .effected op (see E.m b op r)
  | .busy op (.load i _), p => ok op ∧ p = .called op ∧ Passed E t op.key i
  | .busy op (.half i _ (.data d)), p => ok op ∧ p = .called op ∧ Passed E t op.key i ∧
      ∀ k dd, op = .eraseIf k dd → d ≠ dd →
        N op ∨ ((t (E.M.remap i)).c ≠ .empty ∧ ∀ v, (t (E.M.remap i)).c ≠ .live k v)
  | .busy op (.half i att (.key w)), p => ok op ∧
    ((p = .called op ∧ Passed E t op.key (i + 1) ∧
        ∀ d, afterLoadW b E op i att (E.M.remap i) ⟨w, d⟩ = .cont (.load (i + 1) att)) ∨
      (p = .called op ∧ Passed E t op.key i ∧ SafeW b E t op i w ∧
        ∀ d, afterLoadW b E op i att (E.M.remap i) ⟨w, d⟩ = .cont (.act i att ⟨w, d⟩)) ∨
      (∃ x, p = .effected op x ∧
        ∀ d, ∃ r, afterLoadW b E op i att (E.M.remap i) ⟨w, d⟩ = .done r ∧ see E.m b op r = x) ∨
      ∃ k dd, ByData b E op i att w k dd ∧ p = .called op ∧ Passed E t op.key i ∧ E.M.remap i < E.M.total ∧
        ((∃ v, (t (E.M.remap i)).c = .live k v) ∨ N op))
  | .busy op (.act i att w), p => ok op ∧ p = .called op ∧ Passed E t op.key i ∧ SafeW b E t op i w.key ∧
      afterLoadW b E op i att (E.M.remap i) w = .cont (.act i att w)

/-- Elements go only by removals. (proof, no code) -/
def Keeps (ok : Op Nat V → Prop) (t t' : Tbl Nat V) : Prop :=
  ∀ p k v, (t p).c = .live k v → (∃ op, ok op ∧ op.removes k) ∨ ∃ v', (t' p).c = .live k v'

/-- An element that goes is no longer in the map. (proof, no code) -/
def Gone (E : Env Nat) (t t' : Tbl Nat V) : Prop :=
  ∀ p k v, p < E.M.total → (t p).c = .live k v →
    (∃ v', (t' p).c = .live k v') ∨ ∀ D : Dict Nat V, Stores E t' D → D k = none

theorem Gone.same (E : Env Nat) (t : Tbl Nat V) : Gone E t t := fun _ _ v _ h => .inl ⟨v, h⟩

/-- An access changes one slot only. -/
theorem gone_step {E : Env Nat} {t : Tbl Nat V} (hI : Inv E t) (op : Op Nat V) (pc : PC Nat V) :
    Gone E t (step E op pc t).1 := by
  intro p k v hp hv
  obtain ⟨q, x, hq⟩ := step_set E op pc t
  rw [hq]
  by_cases hpq : p = q
  · subst hpq
    by_cases hl : ∃ v', x.c = .live k v'
    · left; simpa [Tbl.set] using hl
    · right
      intro D hD
      cases hdk : D k with
      | none => rfl
      | some u =>
        exfalso
        obtain ⟨r, hr, hru⟩ := (hD k u).1 hdk
        by_cases hrp : r = p
        · subst hrp
          simp only [Tbl.set, if_true] at hru
          exact hl ⟨u, hru⟩
        · simp only [Tbl.set, hrp, if_false] at hru
          exact hrp (hI.unique hr hp hru hv)
  · left; simp only [Tbl.set, hpq, if_false]; exact ⟨v, hv⟩

theorem SafeW.stable {b : Nat} {E : Env Nat} {ok : Op Nat V → Prop} (hmix : Mix E.m ok) {t t' : Tbl Nat V}
    (hke : Keeps ok t t') {op : Op Nat V} (ho : ok op) {i w : Nat} (h : SafeW b E t op i w) :
    SafeW b E t' op i w := by
  intro hm hmod hc
  obtain ⟨v, hv⟩ := h hm hmod hc
  rcases hke _ _ _ hv with ⟨op2, ho2, hr⟩ | h
  · rcases hmix.split hm op.key with h' | h'
    · exact absurd hr (h' op2 ho2)
    · exact absurd hmod (h' op ho)
  · exact h

theorem passed_after {E : Env Nat} {t t' : Tbl Nat V} {op : Op Nat V} {i : Nat} (h : Passed E t op.key i)
    (he : Evolves t t') : Passed E t' op.key i := PcInv.evolve (op := op) (pc := .load i 0) h he

theorem Rel.stable {b : Nat} {E : Env Nat} {ok : Op Nat V → Prop} (hmix : Mix E.m ok) {t t' : Tbl Nat V}
    (he : Evolves t t') (hke : Keeps ok t t') (hgo : Gone E t t') {N N' : Op Nat V → Prop} (hN : ∀ op, N op → N' op)
    (hnew : ∀ k dd, (∀ D : Dict Nat V, Stores E t' D → D k = none) → N' (.eraseIf k dd))
    {x : WThr V} {p : Phase (Op Nat V) (Seen V)} (h : Rel b E ok t N x p) : Rel b E ok t' N' x p := by
  cases x with
  | idle => exact h
  | fin => exact h
  | busy op pc =>
    cases pc with
    | load i att => exact ⟨h.1, h.2.1, passed_after h.2.2 he⟩
    | act i att w => exact ⟨h.1, h.2.1, passed_after h.2.2.1 he, h.2.2.2.1.stable hmix hke h.1, h.2.2.2.2⟩
    | half i att y =>
      cases y with
      | data d =>
        refine ⟨h.1, h.2.1, passed_after h.2.2.1 he, fun k dd hop hd => ?_⟩
        rcases h.2.2.2 k dd hop hd with h' | ⟨h1, h2⟩
        · exact .inl (hN _ h')
        · refine .inr ⟨(he _).1 h1, fun v hv => ?_⟩
          rcases (he _).2 _ _ hv with h3 | ⟨u, h3⟩
          · exact h1 h3
          · exact h2 u h3
      | key w =>
        refine ⟨h.1, ?_⟩
        rcases h.2 with h' | h' | h' | ⟨k, dd, h1, h2, h3, h4, h5⟩
        · exact .inl ⟨h'.1, passed_after h'.2.1 he, h'.2.2⟩
        · exact .inr (.inl ⟨h'.1, passed_after h'.2.1 he, h'.2.2.1.stable hmix hke h.1, h'.2.2.2⟩)
        · exact .inr (.inr (.inl h'))
        · refine .inr (.inr (.inr ⟨k, dd, h1, h2, passed_after h3 he, h4, ?_⟩))
          rcases h5 with ⟨v, h5⟩ | h5
          · rcases hgo _ _ _ h4 h5 with h6 | h6
            · exact .inl h6
            · exact .inr (by rw [h1.1]; exact hnew k dd h6)
          · exact .inr (hN _ h5)

/-- An unsuccessful `erase_if` is right if the element is not in the map. -/
theorem nf_legal {m : Bool} {D : Dict Nat V} {k : Nat} {dd : V} (h : D k ≠ some dd) :
    (seenObj m).legal D (.eraseIf k dd) ⟨false, some .UNSUCCESS_NOT_FOUND, none, none⟩ D := by
  refine .inl ⟨?_, ?_, .inr ?_, fun _ => ?_⟩ <;> simp [Op.toSpec, SOp.sem, h]

theorem Keeps.same (ok : Op Nat V → Prop) (t : Tbl Nat V) : Keeps ok t t := fun _ _ v h => .inr ⟨v, h⟩

/-- The result of an unsuccessful `erase_if`. (proof, no code) -/
def notFound : Seen V := ⟨false, some .UNSUCCESS_NOT_FOUND, none, none⟩

/-- What an access has done. (proof, no code) -/
def Done (b : Nat) (E : Env Nat) (ok : Op Nat V → Prop) (N : Op Nat V → Prop) (op : Op Nat V) (p : Phase (Op Nat V) (Seen V))
    (t t' : Tbl Nat V) : WOut V → Prop
  | .oob => True
  | .cont pc => t' = t ∧ Rel b E ok t N (.busy op pc) p
  | .done r => (t' = t ∧ p = .effected op (see E.m b op r)) ∨
      (t' = t ∧ p = .called op ∧ N op ∧ see E.m b op r = notFound) ∨
      (p = .called op ∧ ∀ D : Dict Nat V, Stores E t D →
        ∃ D', Stores E t' D' ∧ (seenObj E.m).legal D op (see E.m b op r) D')

/-- **One access.** -/
theorem access {b : Nat} (hb : 1 ≤ b) {E : Env Nat} (hE : E.OK) {ok : Op Nat V → Prop} (hmix : Mix E.m ok)
    (hok : Legals E.m b ok) {t : Tbl Nat V} (hG : Good b E t) {N : Op Nat V → Prop} {op : Op Nat V}
    {pc : WPC V} {p : Phase (Op Nat V) (Seen V)} (hR : Rel b E ok t N (.busy op pc) p) :
    ∃ t', (stepW b E op pc (encT b t)).1 = encT b t' ∧ Good b E t' ∧ Evolves t t' ∧ Keeps ok t t' ∧ Gone E t t' ∧
      Done b E ok N op p t t' (stepW b E op pc (encT b t)).2 := by
  have hrefl : Evolves t t := fun p => CellLe.refl _
  -- `erase_if` meets its key with another value
  have hnow : ∀ {k : Nat} {dd v : V} {i : Nat}, op = .eraseIf k dd → p = .called op → E.M.remap i < E.M.total →
      (t (E.M.remap i)).c = .live k v → v ≠ dd →
      Done b E ok N op p t t (.done ⟨some .UNSUCCESS_NOT_FOUND, none⟩) := by
    intro k dd v i hop hp hlt hv hne
    subst hop
    refine .inr (.inr ⟨hp, fun D hD => ⟨D, hD, nf_legal ?_⟩⟩)
    rw [(hD k v).2 ⟨_, hlt, hv⟩]
    intro h; exact hne (Option.some.inj h)
  -- a load of the key half in this step, any mapped half
  have hres : ∀ (i att : Nat) (d : V), ok op → p = .called op → Passed E t op.key i → E.M.remap i < E.M.total →
      (∀ k dd v, op = .eraseIf k dd → d ≠ dd → (t (E.M.remap i)).c = .live k v → N op ∨ v ≠ dd) →
      Done b E ok N op p t t (afterLoadW b E op i att (E.M.remap i) ⟨(encT b t (E.M.remap i)).key, d⟩) := by
    intro i att d ho hp hpass hlt hdat
    rcases resolve (att := att) hb hG (hok op ho) (hmix.safe op ho) hpass hlt with
      ⟨h1, h2⟩ | ⟨h1, h2⟩ | ⟨x, h1, h2⟩ | ⟨k, dd, v, h1, h2⟩
    · rw [h1]; exact ⟨rfl, ho, hp, h2⟩
    · rw [h1]; exact ⟨rfl, ho, hp, hpass, h2, h1 d⟩
    · obtain ⟨r, h3, h4⟩ := h1 d
      rw [h3]
      exact .inr (.inr ⟨hp, by rw [h4]; exact h2⟩)
    · rw [h1.2.2]
      by_cases hd : d = dd
      · rw [if_pos hd]
        refine ⟨rfl, ho, hp, hpass, ?_, ?_⟩
        · intro _ hmod _; rw [h1.1] at hmod
          rcases hmod with ⟨_, h⟩ | ⟨_, _, h⟩ | ⟨_, _, h⟩ <;> cases h
        · rw [h1.2.2, if_pos hd]
      · rw [if_neg hd]
        rcases hdat k dd v h1.1 hd h2 with h3 | h3
        · refine .inr (.inl ⟨rfl, hp, h3, ?_⟩)
          rw [h1.1]; rfl
        · exact hnow h1.1 hp hlt h2 h3
  cases pc with
  | load i att =>
    obtain ⟨ho, hp, hpass⟩ := hR
    refine ⟨t, ?_, hG, hrefl, .same _ _, .same _ _, ?_⟩
    · simp only [stepW]; split <;> rfl
    · simp only [stepW]
      split
      · refine hres i att (encT b t (E.M.remap i)).data ho hp hpass ‹_› fun k dd v _ hd hv => .inr ?_
        intro h; apply hd; rw [← h]; simp [encT, encode, Cell.mapped, hv]
      · trivial
  | half i att y =>
    refine ⟨t, ?_, hG, hrefl, .same _ _, .same _ _, ?_⟩
    · simp only [stepW]; split <;> rfl
    · simp only [stepW]
      split
      · cases y with
        | data d =>
          obtain ⟨ho, hp, hpass, hdat⟩ := hR
          refine hres i att d ho hp hpass ‹_› fun k dd v hop hd hv => ?_
          rcases hdat k dd hop hd with h | ⟨-, h⟩
          · exact .inl h
          · exact absurd hv (h v)
        | key w =>
          obtain ⟨ho, h⟩ := hR
          simp only [Half.join]
          rcases h with ⟨h1, h2, h3⟩ | ⟨h1, h2, h3, h4⟩ | ⟨x, h1, h2⟩ | ⟨k, dd, h1, h2, h3, h4, h5⟩
          · rw [h3]; exact ⟨rfl, ho, h1, h2⟩
          · rw [h4]; exact ⟨rfl, ho, h1, h2, h3, h4 _⟩
          · obtain ⟨r, h3, h4⟩ := h2 (encT b t (E.M.remap i)).data
            rw [h3]
            exact .inl ⟨rfl, by rw [h4]; exact h1⟩
          · rw [h1.2.2]
            by_cases hd : (encT b t (E.M.remap i)).data = dd
            · rw [if_pos hd]
              refine ⟨rfl, ho, h2, h3, ?_, ?_⟩
              · intro _ hmod _; rw [h1.1] at hmod
                rcases hmod with ⟨_, h⟩ | ⟨_, _, h⟩ | ⟨_, _, h⟩ <;> cases h
              · rw [h1.2.2, if_pos hd]
            · rw [if_neg hd]
              rcases h5 with ⟨v, h5⟩ | h5
              · refine hnow h1.1 h2 h4 h5 fun h => hd ?_
                rw [← h]; simp [encT, encode, Cell.mapped, h5]
              · refine .inr (.inl ⟨rfl, h2, h5, ?_⟩)
                rw [h1.1]; rfl
      · trivial
  | act i att w =>
    obtain ⟨ho, hp, hpass, hsw, hw⟩ := hR
    by_cases hlt : E.M.remap i < E.M.total
    · have hstep : stepW b E op (.act i att w) (encT b t) = actW b E op i att (E.M.remap i) w (encT b t) := by
        simp only [stepW, hlt, if_true]
      rw [hstep]
      have hsafe : E.m = false → op.modifies op.key → w.compareKey E.m b op.key = true →
          (encT b t (E.M.remap i)).key = op.key := by
        intro hm hmod hc
        obtain ⟨v, hv⟩ := hsw hm hmod hc
        have := hG.nomarks (E.M.remap i)
        simp [encT, encode, this, hv, contentKey]
      rcases act_torn (t := encT b t) (hok op ho) (hmix.safe op ho) hw hsafe with
        ⟨hkey, hall, heq⟩ | ⟨o, heq, hoo⟩
      · -- as on the slot itself
        rw [heq]
        have hcur : afterLoad E op i att (E.M.remap i) (t (E.M.remap i)) = .cont (.act i att (t (E.M.remap i))) := by
          have h1 := load_enc (op := op) hb (hok op ho) (hG.legal (E.M.remap i)) i att (E.M.remap i)
          have h2 : afterLoadW b E op i att (E.M.remap i) (encode b (t (E.M.remap i))) =
              .cont (.act i att (encode b (t (E.M.remap i)))) := by
            have he : encode b (t (E.M.remap i)) = ⟨w.key, (encT b t (E.M.remap i)).data⟩ := by rw [hkey]; rfl
            rcases decided (m := E.m) (b := b) (E := E) rfl op i att w.key with
              h | ⟨-, h⟩ | ⟨x, h⟩ | ⟨k, dd, h⟩
            · have := h w.data
              rw [show (⟨w.key, w.data⟩ : WSlot V) = w from rfl, hw] at this; cases this
            · rw [he]; exact h _
            · obtain ⟨r, h, -⟩ := h w.data
              rw [show (⟨w.key, w.data⟩ : WSlot V) = w from rfl, hw] at h; cases h
            · have he' : encode b (t (E.M.remap i)) = w := (hall ⟨k, dd, h.1⟩).symm
              rw [he']; exact hw
          rw [h2] at h1
          cases hx : afterLoad E op i att (E.M.remap i) (t (E.M.remap i)) with
          | done r => rw [hx] at h1; cases h1
          | oob => rw [hx] at h1; cases h1
          | cont pc =>
            cases pc with
            | load => rw [hx] at h1; cases h1
            | act j a c => obtain ⟨rfl, rfl, rfl⟩ := afterLoad_act hx; rfl
        have hst : step E op (.load i att) t = (t, .cont (.act i att (t (E.M.remap i)))) := by
          simp only [step, hlt, if_true, hcur]
        have hpc : PcInv E t op (.act i att (t (E.M.remap i))) := by
          have := load_good (att := att) (op := op) hG.inv hpass hlt
          rw [hcur] at this
          exact this.2.2.2
        have hsa : SafeAct E t op (.act i att (t (E.M.remap i))) := safe_after_load hmix ho hst
        have henc := act_enc hb (hok op ho) hG.legal hpc hsa (hmix.safe op ho)
        have hgood := step_good hE hG.inv hpc hsa
        have hstep2 : step E op (.act i att (t (E.M.remap i))) t =
            actStep E op i att (E.M.remap i) (t (E.M.remap i)) t := by simp only [step, hlt, if_true]
        rw [← hstep2] at henc
        have henc : actW b E op i att (E.M.remap i) (encT b t (E.M.remap i)) (encT b t) = _ := henc
        rw [henc]
        refine ⟨_, rfl, ⟨hgood.1, hG.nomarks.step hpc, step_legal (hok op ho) hG.legal hpc,
          step_dels hG.dels hpc hsa (hmix.safe op ho)⟩, hgood.2.1, ?_, gone_step hG.inv _ _, ?_⟩
        · intro q k v hv
          by_cases hr : op.removes k
          · exact .inl ⟨op, ho, hr⟩
          · exact .inr (step_live_stays hpc hv hr)
        · cases hx : (step E op (.act i att (t (E.M.remap i))) t).2 with
          | oob => trivial
          | cont pc' =>
            obtain ⟨-, -, hg⟩ := hgood
            rw [hx] at hg
            obtain ⟨hg1, hg2⟩ := hg
            refine ⟨hg1, ?_⟩
            cases pc' with
            | load j a => exact ⟨ho, hp, hg2⟩
            | act j a c =>
              exfalso
              rw [hstep2] at hx
              revert hx
              cases op <;> simp only [actStep, casStep, retEnd] <;> (repeat' split) <;> intro hx <;> cases hx
          | done r =>
            obtain ⟨-, -, hg⟩ := hgood
            rw [hx] at hg
            have hsh : ((∃ k d, op = .insert k d) ∧ r.ok op = true) ∨
                (encRet b r).shown E.m b = r.shown.map fun v => (op.key, v) := by
              rcases ret_live hG.nomarks hpc (Prod.ext rfl hx) (hmix.safe op ho) with h' | h'
              · exact .inl h'
              · exact .inr (shown_enc hb (hok op ho) h')
            refine .inr (.inr ⟨hp, fun D hD => ?_⟩)
            cases hg with
            | invalid hr ht hm => obtain ⟨p, _, hp⟩ := hm; rw [hG.nomarks p] at hp; cases hp
            | refused c hc hr ht habs =>
              exact ⟨D, by rw [ht]; exact hD,
                seen_legal (legal_enc hsh (.inr ⟨c, hc, hr, rfl, fun h => habs h D hD⟩))⟩
            | effect h =>
              obtain ⟨h1, h2⟩ := h D hD
              exact ⟨_, h1, seen_legal (legal_enc hsh (.inl ⟨rfl, h2⟩))⟩
      · rw [heq]
        refine ⟨t, rfl, hG, hrefl, .same _ _, .same _ _, ?_⟩
        rcases hoo with ⟨a, rfl⟩ | ⟨k, f, c, rfl, hc, rfl⟩
        · exact ⟨rfl, ho, hp, hpass⟩
        · refine .inr (.inr ⟨hp, fun D hD => ⟨D, hD, .inr ⟨.UNSUCCESS_BACKOFF, ⟨rfl, att, hc⟩, rfl, rfl, ?_⟩⟩⟩)
          intro h; cases h
    · refine ⟨t, ?_, hG, hrefl, .same _ _, .same _ _, ?_⟩ <;> simp only [stepW, hlt, if_false]
      trivial

/-- Proof, no code: `N` of thread `i` in a history. -/
def Late (m : Bool) (a : List (Ev T (Op Nat V) (Seen V) × Dict Nat V)) (i : T) (op : Op Nat V) : Prop :=
  Retro (seenObj m) a i op notFound

/-- **Every execution with torn loads is explained.** -/
theorem torn_explained {whole : Bool} {b : Nat} (hb : 1 ≤ b) {E : Env Nat} (hE : E.OK) {ok : Op Nat V → Prop}
    (hmix : Mix E.m ok) (hok : Legals E.m b ok) {l : List (WEv T V)} {s : WSt T V}
    (h : Exec (WStep whole b E ok) WSt.init l s) :
    ∃ (t : Tbl Nat V) (ph : T → Phase (Op Nat V) (Seen V)) (a : List (Ev T (Op Nat V) (Seen V) × Dict Nat V)),
      s.tbl = encT b t ∧ Good b E t ∧ (∀ i, Rel b E ok t (Late E.m a i) (s.thr i) (ph i)) ∧
      visible (a.map (·.1)) = (visible l).map (seeEv E.m b) ∧ WellFormed (fun _ => .idle) (a.map (·.1)) ph ∧
      Run (seenObj E.m) (seenObj E.m).init a ∧ Stores E t (lastD (seenObj E.m).init a) := by
  have hrefl : ∀ t : Tbl Nat V, Evolves t t := fun t p => CellLe.refl _
  -- the other threads do not mind
  have hoth : ∀ {t t' : Tbl Nat V} {a a' : List (Ev T (Op Nat V) (Seen V) × Dict Nat V)} {i : T} {x : WThr V}
      {p : Phase (Op Nat V) (Seen V)}, Evolves t t' → Keeps ok t t' → Gone E t t' →
      Stores E t' (lastD (seenObj E.m).init a') → (∀ op, Late E.m a i op → Late E.m a' i op) →
      Rel b E ok t (Late E.m a i) x p → Rel b E ok t' (Late E.m a' i) x p := by
    intro t t' a a' i x p h1 h2 h3 h4 h5 h
    refine h.stable hmix h1 h2 h3 h5 fun k dd hk => Retro.now (nf_legal ?_)
    rw [hk _ h4]; intro h; cases h
  have hset : ∀ {t t' : Tbl Nat V} {a a' : List (Ev T (Op Nat V) (Seen V) × Dict Nat V)} {s : WSt T V}
      {ph : T → Phase (Op Nat V) (Seen V)} {i : T} {x : WThr V} {p : Phase (Op Nat V) (Seen V)},
      Evolves t t' → Keeps ok t t' → Gone E t t' → Stores E t' (lastD (seenObj E.m).init a') →
      (∀ j op, j ≠ i → Late E.m a j op → Late E.m a' j op) →
      (∀ j, Rel b E ok t (Late E.m a j) (s.thr j) (ph j)) → Rel b E ok t' (Late E.m a' i) x p →
      ∀ j, Rel b E ok t' (Late E.m a' j) (setAt s.thr i x j) (setAt ph i p j) := by
    intro t t' a a' s ph i x p h1 h2 h3 h4 h5 h hx j
    by_cases hj : j = i
    · subst hj; rw [setAt_same, setAt_same]; exact hx
    · rw [setAt_other hj, setAt_other hj]
      exact hoth h1 h2 h3 h4 (fun op => h5 j op hj) (h j)
  have hsame : ∀ {t : Tbl Nat V} {a : List (Ev T (Op Nat V) (Seen V) × Dict Nat V)} {s : WSt T V}
      {ph : T → Phase (Op Nat V) (Seen V)} {i : T} {x : WThr V},
      (∀ j, Rel b E ok t (Late E.m a j) (s.thr j) (ph j)) → Rel b E ok t (Late E.m a i) x (ph i) →
      ∀ j, Rel b E ok t (Late E.m a j) (setAt s.thr i x j) (ph j) := by
    intro t a s ph i x h hx j
    by_cases hj : j = i
    · subst hj; rw [setAt_same]; exact hx
    · rw [setAt_other hj]; exact h j
  have hcalled : ∀ {ph : T → Phase (Op Nat V) (Seen V)} {i : T} {op : Op Nat V} {x : Seen V}, ph i = .called op →
      WellFormed ph [.lin i op x] (setAt ph i (.effected op x)) := fun h =>
    .lin h (setAt_same ..) (fun j hj => setAt_other hj) (.nil _)
  have hlate : ∀ {a : List (Ev T (Op Nat V) (Seen V) × Dict Nat V)} {e : Ev T (Op Nat V) (Seen V) × Dict Nat V},
      ∀ j op, j ≠ who e.1 → Late E.m a j op → Late E.m (a ++ [e]) j op := fun j op hj h => h.later (Ne.symm hj)
  have hlast : ∀ (a : List (Ev T (Op Nat V) (Seen V) × Dict Nat V)) (e : Ev T (Op Nat V) (Seen V) × Dict Nat V),
      lastD (seenObj E.m).init (a ++ [e]) = e.2 := by intro a e; rw [lastD_append]; rfl
  induction h with
  | init =>
    exact ⟨emptyTbl, fun _ => .idle, [], rfl,
      ⟨Inv.emptyTbl E, fun _ => rfl, fun p => ⟨fun h => (by cases h), fun k v h => (by cases h)⟩,
        fun p v h => (by cases h)⟩, fun _ => rfl, rfl,
      .nil _, trivial, Stores.emptyTbl E⟩
  | @silent l s s1 h hs ih =>
    obtain ⟨t, ph, a, ht, hG, hR, hv, hwf, hrun, hD⟩ := ih
    cases hs with
    | @first i op j att x hw hi hj hx =>
      have hRi := hR i
      rw [hi] at hRi
      obtain ⟨ho, hp, hpass⟩ := hRi
      rcases hx with hx | hx
      · rcases resolve (att := att) hb hG (hok op ho) (hmix.safe op ho) hpass hj with
          ⟨h1, h2⟩ | ⟨h1, h2⟩ | ⟨y, h1, h2⟩ | ⟨k, dd, v, h1, h2⟩
        · refine ⟨t, ph, a, ht, hG, hsame hR ?_, hv, hwf, hrun, hD⟩
          rw [hx, ht]
          exact ⟨ho, .inl ⟨hp, h2, h1⟩⟩
        · refine ⟨t, ph, a, ht, hG, hsame hR ?_, hv, hwf, hrun, hD⟩
          rw [hx, ht]
          exact ⟨ho, .inr (.inl ⟨hp, hpass, h2, h1⟩)⟩
        · obtain ⟨D', hD', hl'⟩ := h2 _ hD
          refine ⟨t, setAt ph i (.effected op y), a ++ [(Ev.lin i op y, D')], ht, hG,
            hset (hrefl t) (.same _ _) (.same _ _) (by rw [hlast]; exact hD')
              (hlate (e := (Ev.lin i op y, D'))) hR ?_, ?_, ?_, hrun.append ⟨hl', trivial⟩, by rw [hlast]; exact hD'⟩
          · rw [hx, ht]
            exact ⟨ho, .inr (.inr (.inl ⟨y, rfl, h1⟩))⟩
          · rw [List.map_append, visible_append, hv]; simp [visible]
          · rw [List.map_append]; exact hwf.append (hcalled hp)
        · refine ⟨t, ph, a, ht, hG, hsame hR ?_, hv, hwf, hrun, hD⟩
          rw [hx, ht]
          exact ⟨ho, .inr (.inr (.inr ⟨k, dd, h1, hp, hpass, hj, .inl ⟨v, h2⟩⟩))⟩
      · refine ⟨t, ph, a, ht, hG, hsame hR ?_, hv, hwf, hrun, hD⟩
        rw [hx]
        refine ⟨ho, hp, hpass, fun k dd hop hd => ?_⟩
        -- the value of the slot is now another one
        have hdat : (s.tbl (E.M.remap j)).data = (t (E.M.remap j)).mapped := by rw [ht]; rfl
        rw [hdat] at hd
        by_cases hk : (t (E.M.remap j)).c ≠ .empty ∧ ∀ v, (t (E.M.remap j)).c ≠ .live k v
        · exact .inr hk
        · left
          rw [hop]
          refine Retro.now (nf_legal ?_)
          have hun : (t (E.M.remap j)).c = .empty ∨ ∃ v, (t (E.M.remap j)).c = .live k v := by
            cases hc : (t (E.M.remap j)).c with
            | empty => exact .inl rfl
            | deleted u => exact absurd ⟨(by rw [hc]; intro h; cases h), (by rw [hc]; intro v h; cases h)⟩ hk
            | live k' v =>
              by_cases hkk : k' = k
              · subst hkk; exact .inr ⟨v, rfl⟩
              · exact absurd ⟨(by rw [hc]; intro h; cases h), (by rw [hc]; intro v h; cases h; exact hkk rfl)⟩ hk
          rcases hun with hun | ⟨v, hun⟩
          · have hkk : op.key = k := by rw [hop]; rfl
            intro h
            obtain ⟨q, hq, hqv⟩ := (hD k dd).1 h
            exact hG.inv.absent (hkk ▸ hpass) hun hq hqv
          · rw [(hD k v).2 ⟨_, hj, hun⟩]
            intro h
            apply hd
            rw [← Option.some.inj h]
            simp [Cell.mapped, hun]
    | @cont i op pc pc1 t1 hi hst =>
      have hRi := hR i
      rw [hi] at hRi
      obtain ⟨t', h1, h2, h3, h4, -, h5⟩ := access hb hE hmix hok hG hRi
      rw [ht] at hst
      rw [hst] at h1 h5
      obtain ⟨h6, h7⟩ := h5
      subst h6
      exact ⟨t', ph, a, h1, h2, hsame hR h7, hv, hwf, hrun, hD⟩
  | @vis l s s1 e h hs ih =>
    obtain ⟨t, ph, a, ht, hG, hR, hv, hwf, hrun, hD⟩ := ih
    cases hs with
    | @call i op hi ho =>
      have hRi := hR i
      rw [hi] at hRi
      refine ⟨t, setAt ph i (.called op), a ++ [(Ev.call i op, lastD (seenObj E.m).init a)], ht, hG,
        hset (hrefl t) (.same _ _) (.same _ _) (by rw [hlast]; exact hD)
          (hlate (e := (Ev.call i op, _))) hR ?_, ?_, ?_, hrun.append ⟨rfl, trivial⟩, by rw [hlast]; exact hD⟩
      · exact ⟨ho, rfl, PcInv.start E t op⟩
      · rw [List.map_append, visible_append, visible_append, hv, List.map_append]; rfl
      · rw [List.map_append]
        exact hwf.append (.call hRi (setAt_same ..) (fun j hj => setAt_other hj) (.nil _))
    | @done i op pc t1 r hi hst =>
      have hRi := hR i
      rw [hi] at hRi
      obtain ⟨t', h1, h2, h3, h4, h8, h5⟩ := access hb hE hmix hok hG hRi
      rw [ht] at hst
      rw [hst] at h1 h5
      have hv' : visible (l ++ [Ev.lin i op r]) = visible l := by rw [visible_append]; simp [visible]
      rcases h5 with ⟨h6, h7⟩ | ⟨h6, h7, h9, h10⟩ | ⟨h6, h7⟩
      · subst h6
        exact ⟨t', ph, a, h1, h2, hsame hR h7, by rw [hv', hv], hwf, hrun, hD⟩
      · subst h6
        obtain ⟨a', g1, g2, g3, g4, g5⟩ := Retro.put hrun hwf h7 h9
        refine ⟨t', setAt ph i (.effected op notFound), a', h1, h2,
          hset (hrefl _) (.same _ _) (.same _ _) (by rw [g2]; exact hD) (fun j o hj => g5 j o _ hj) hR ?_,
          by rw [g3, hv', hv], g4, g1, by rw [g2]; exact hD⟩
        show Phase.effected op notFound = .effected op (see E.m b op r)
        rw [h10]
      · obtain ⟨D', hD', hl'⟩ := h7 _ hD
        refine ⟨t', setAt ph i (.effected op (see E.m b op r)), a ++ [(Ev.lin i op (see E.m b op r), D')], h1, h2,
          hset h3 h4 h8 (by rw [hlast]; exact hD') (hlate (e := (Ev.lin i op _, D'))) hR rfl, ?_, ?_, hrun.append ⟨hl', trivial⟩,
          by rw [hlast]; exact hD'⟩
        · rw [List.map_append, visible_append, hv', hv]; simp [visible]
        · rw [List.map_append]; exact hwf.append (hcalled h6)
    | @ret i op r hi =>
      have hRi := hR i
      rw [hi] at hRi
      refine ⟨t, setAt ph i .idle, a ++ [(Ev.ret i op (see E.m b op r), lastD (seenObj E.m).init a)], ht, hG,
        hset (hrefl t) (.same _ _) (.same _ _) (by rw [hlast]; exact hD)
          (hlate (e := (Ev.ret i op _, _))) hR rfl, ?_, ?_, hrun.append ⟨rfl, trivial⟩, by rw [hlast]; exact hD⟩
      · rw [List.map_append, visible_append, visible_append, hv, List.map_append]; rfl
      · rw [List.map_append]
        exact hwf.append (.ret hRi (setAt_same ..) (fun j hj => setAt_other hj) (.nil _))

/-- **Torn loads: everything but the values of `find` and `insert`.** -/
theorem linearizable_torn {whole : Bool} {b : Nat} (hb : 1 ≤ b) {E : Env Nat} (hE : E.OK) {ok : Op Nat V → Prop}
    (hmix : Mix E.m ok) (hok : Legals E.m b ok) {l : List (WEv T V)} {s : WSt T V}
    (h : Exec (WStep whole b E ok) WSt.init l s) :
    Linearizable (seenObj E.m) ((visible l).map (seeEv E.m b)) := by
  obtain ⟨t, ph, a, -, -, -, hv, hwf, hrun, -⟩ := torn_explained hb hE hmix hok h
  exact ⟨a.map (·.1), ph, _, hv, hwf, hrun.legal⟩

/-! ## The values shown -/

/-- Some earlier state, not before the last call of thread `i`. (specification, no code) -/
def During (whole : Bool) (b : Nat) (E : Env Nat) (ok : Op Nat V → Prop) (l : List (WEv T V)) (i : T)
    (P : WSt T V → Prop) : Prop :=
  ∃ (l1 l2 : List (WEv T V)) (s1 : WSt T V), l = l1 ++ l2 ∧ Exec (WStep whole b E ok) WSt.init l1 s1 ∧
    (∀ op, .call i op ∉ l2) ∧ P s1

theorem During.now {whole : Bool} {b : Nat} {E : Env Nat} {ok : Op Nat V → Prop} {l : List (WEv T V)} {i : T}
    {s : WSt T V} {P : WSt T V → Prop} (h : Exec (WStep whole b E ok) WSt.init l s) (hp : P s) :
    During whole b E ok l i P := ⟨l, [], s, by simp, h, by simp, hp⟩

theorem During.later {whole : Bool} {b : Nat} {E : Env Nat} {ok : Op Nat V → Prop} {l : List (WEv T V)} {i : T}
    {P : WSt T V → Prop} (h : During whole b E ok l i P) {e : WEv T V} (he : ∀ op, e ≠ .call i op) :
    During whole b E ok (l ++ [e]) i P := by
  obtain ⟨l1, l2, s1, h1, h2, h3, h4⟩ := h
  refine ⟨l1, l2 ++ [e], s1, by rw [h1, List.append_assoc], h2, fun op hm => ?_, h4⟩
  rcases List.mem_append.1 hm with hm | hm
  · exact h3 op hm
  · simp only [List.mem_singleton] at hm; exact he op hm.symm

theorem During.imp {whole : Bool} {b : Nat} {E : Env Nat} {ok : Op Nat V → Prop} {l : List (WEv T V)} {i : T}
    {P Q : WSt T V → Prop} (h : During whole b E ok l i P) (hpq : ∀ s, P s → Q s) : During whole b E ok l i Q := by
  obtain ⟨l1, l2, s1, h1, h2, h3, h4⟩ := h
  exact ⟨l1, l2, s1, h1, h2, h3, hpq s1 h4⟩

/-- A state whose table has evolved to `t`. (proof, no code) -/
def Before (b : Nat) (E : Env Nat) (t : Tbl Nat V) (P : Tbl Nat V → Prop) (s : WSt T V) : Prop :=
  ∃ t1, s.tbl = encT b t1 ∧ Good b E t1 ∧ Evolves t1 t ∧ P t1

/-- What is known of the halves and results of a thread. (proof, no code) -/
def VRel (whole : Bool) (b : Nat) (E : Env Nat) (ok : Op Nat V → Prop) (l : List (WEv T V)) (t : Tbl Nat V) (i : T) :
    WThr V → Prop
  | .busy _ (.half j _ (.data d)) =>
    During whole b E ok l i (Before b E t fun t1 => (t1 (E.M.remap j)).mapped = d)
  | .busy _ (.half j _ (.key w)) =>
    During whole b E ok l i (Before b E t fun t1 => (encT b t1 (E.M.remap j)).key = w)
  | .fin op r => (∃ k, op = .find k) ∨ (∃ k d, op = .insert k d) ∧ r.ok op = false → ∀ p w, r.it = some (p, w) →
      w.data = default ∨ During whole b E ok l i fun s1 => s1.tbl p = ⟨op.key, w.data⟩
  | _ => True

theorem VRel.evolve {whole : Bool} {b : Nat} {E : Env Nat} {ok : Op Nat V → Prop} {l : List (WEv T V)}
    {t t' : Tbl Nat V} {i : T} {x : WThr V} (h : VRel whole b E ok l t i x) (he : Evolves t t') :
    VRel whole b E ok l t' i x := by
  have hB : ∀ {P : Tbl Nat V → Prop} {s : WSt T V}, Before b E t P s → Before b E t' P s := fun ⟨t1, h1, h2, h3, h4⟩ =>
    ⟨t1, h1, h2, fun p => (h3 p).trans (he p), h4⟩
  cases x with
  | idle => trivial
  | fin => exact h
  | busy op pc =>
    cases pc with
    | load => trivial
    | act => trivial
    | half j a y => cases y <;> exact During.imp h fun s => hB

theorem VRel.later {whole : Bool} {b : Nat} {E : Env Nat} {ok : Op Nat V → Prop} {l : List (WEv T V)}
    {t : Tbl Nat V} {i : T} {x : WThr V} (h : VRel whole b E ok l t i x) {e : WEv T V} (he : ∀ op, e ≠ .call i op) :
    VRel whole b E ok (l ++ [e]) t i x := by
  cases x with
  | idle => trivial
  | fin op r =>
    intro hop p w hi
    rcases h hop p w hi with h | h
    · exact .inl h
    · exact .inr (h.later he)
  | busy op pc =>
    cases pc with
    | load => trivial
    | act => trivial
    | half j a y => cases y <;> exact During.later h he

theorem afterLoadW_shows {b : Nat} {E : Env Nat} {op : Op Nat V} {i att pos : Nat} {w : WSlot V} {r : WRet V}
    (h : afterLoadW b E op i att pos w = .done r) {p : Nat} {w' : WSlot V} (hr : r.it = some (p, w')) :
    p = pos ∧ w' = w ∧ w.compareKey E.m b op.key = true := by
  revert h
  cases op <;> simp only [afterLoadW, retEndW] <;> (repeat' split) <;> intro h <;> cases h <;> cases hr <;>
    exact ⟨rfl, rfl, ‹_›⟩

theorem actW_insert {b : Nat} {E : Env Nat} {op : Op Nat V} {i att pos : Nat} {w : WSlot V} {t t' : WTbl V} {r : WRet V}
    (h : actW b E op i att pos w t = (t', .done r)) :
    ¬ ((∃ k, op = .find k) ∨ (∃ k d, op = .insert k d) ∧ r.ok op = false) := by
  rintro (⟨k, rfl⟩ | ⟨⟨k, d, rfl⟩, hr⟩)
  · cases h
  · simp only [actW, casW] at h
    split at h <;> cases h
    cases hr

/-- A word with the key of a legal cell. -/
theorem key_of_cell {b : Nat} (hb : 1 ≤ b) {E : Env Nat} {t : Tbl Nat V} (hG : Good b E t) {k : Nat}
    (hk : LegalKey E.m b k) {p : Nat} {d : V}
    (h : (⟨(encT b t p).key, d⟩ : WSlot V).compareKey E.m b k = true) : ∃ v, (t p).c = .live k v := by
  have h5 := (layout_faithful hb (hG.legal p)).2.2.2.2.1 k hk
  have : (encode b (t p)).compareKey E.m b k = true := h
  rw [h5] at this
  exact Cell.hasKey_iff.1 this

theorem word_of_live {b : Nat} {E : Env Nat} {t : Tbl Nat V} (hG : Good b E t) {k p : Nat} {v : V}
    (h : (t p).c = .live k v) : encT b t p = ⟨k, v⟩ := by
  simp [encT, encode, hG.nomarks p, h, contentKey, Cell.mapped]

theorem encT_inj {b : Nat} (hb : 1 ≤ b) {E : Env Nat} {t t' : Tbl Nat V} (h : Good b E t) (h' : Good b E t')
    (he : encT b t = encT b t') : t = t' := by
  funext p
  exact encode_injective hb (h.legal p) (h'.legal p) (congrFun he p)

/-- **Values shown by torn loads.** -/
theorem torn_values {whole : Bool} {b : Nat} (hb : 1 ≤ b) {E : Env Nat} (hE : E.OK) {ok : Op Nat V → Prop}
    (hmix : Mix E.m ok) (hok : Legals E.m b ok) {l : List (WEv T V)} {s : WSt T V}
    (h : Exec (WStep whole b E ok) WSt.init l s) :
    ∃ t, s.tbl = encT b t ∧ Good b E t ∧ ∀ i, VRel whole b E ok l t i (s.thr i) := by
  have hrefl : ∀ t : Tbl Nat V, Evolves t t := fun t p => CellLe.refl _
  have hset : ∀ {l : List (WEv T V)} {t : Tbl Nat V} {s : WSt T V} {i : T} {x : WThr V},
      (∀ j, VRel whole b E ok l t j (s.thr j)) → VRel whole b E ok l t i x →
      ∀ j, VRel whole b E ok l t j (setAt s.thr i x j) := by
    intro l t s i x h hx j
    by_cases hj : j = i
    · subst hj; rw [setAt_same]; exact hx
    · rw [setAt_other hj]; exact h j
  have hacc : ∀ {l : List (WEv T V)} {s : WSt T V} {t : Tbl Nat V} {i : T} {op : Op Nat V} {pc : WPC V},
      Exec (WStep whole b E ok) WSt.init l s → s.tbl = encT b t → Good b E t → s.thr i = .busy op pc →
      ok op ∧ ∃ t', (stepW b E op pc s.tbl).1 = encT b t' ∧ Good b E t' ∧ Evolves t t' ∧
        ∀ pc', (stepW b E op pc s.tbl).2 = .cont pc' → ∀ j a y, pc' ≠ .half j a y := by
    intro l s t i op pc hx ht hG hi
    obtain ⟨t0, ph, a, h1, h2, h3, -, -, -, -⟩ := torn_explained hb hE hmix hok hx
    have : t0 = t := encT_inj hb h2 hG (by rw [← h1, ht])
    subst this
    have hRi := h3 i
    rw [hi] at hRi
    obtain ⟨t', h4, h5, h6, -, -, h7⟩ := access hb hE hmix hok h2 hRi
    have ho : ok op := by
      cases pc with
      | load => exact hRi.1
      | act => exact hRi.1
      | half j a y => cases y <;> exact hRi.1
    rw [h1]
    refine ⟨ho, t', h4, h5, h6, ?_⟩
    intro pc' hpc' j a y hy
    subst hy
    clear h7 h4 hRi
    revert hpc'
    have hal : ∀ i att pos w, afterLoadW b E op i att pos w ≠ .cont (.half j a y) := by
      intro i att pos w
      cases op <;> simp only [afterLoadW, retEndW] <;> (repeat' split) <;> intro h <;> cases h
    cases pc with
    | load i att =>
      simp only [stepW]; split
      · exact hal _ _ _ _
      · intro h; cases h
    | half i att y' =>
      simp only [stepW]; split
      · exact hal _ _ _ _
      · intro h; cases h
    | act i att w =>
      simp only [stepW]; split
      · cases op <;> simp only [actW, casW, retEndW] <;> (repeat' split) <;> intro h <;> cases h
      · intro h; cases h
  induction h with
  | init =>
    exact ⟨emptyTbl, rfl, ⟨Inv.emptyTbl E, fun _ => rfl, fun p => ⟨fun h => (by cases h), fun k v h => (by cases h)⟩,
        fun p v h => (by cases h)⟩, fun _ => trivial⟩
  | @silent l s s1 h hs ih =>
    obtain ⟨t, ht, hG, hV⟩ := ih
    cases hs with
    | @first i op j att x hw hi hj hx =>
      refine ⟨t, ht, hG, hset hV ?_⟩
      rcases hx with hx | hx <;> subst hx
      · exact During.now h ⟨t, ht, hG, hrefl t, by rw [ht]⟩
      · exact During.now h ⟨t, ht, hG, hrefl t, by rw [ht]; rfl⟩
    | @cont i op pc pc1 t1 hi hst =>
      obtain ⟨-, t', h1, h2, h3, h4⟩ := hacc h ht hG hi
      rw [hst] at h1 h4
      refine ⟨t', h1, h2, hset (fun j => (hV j).evolve h3) ?_⟩
      cases pc1 with
      | load => trivial
      | act => trivial
      | half j a y => exact absurd rfl (h4 _ rfl j a y)
  | @vis l s s1 e h hs ih =>
    obtain ⟨t, ht, hG, hV⟩ := ih
    cases hs with
    | @call i op hi ho =>
      refine ⟨t, ht, hG, fun j => ?_⟩
      by_cases hj : j = i
      · subst hj
        show VRel _ _ _ _ _ _ _ (setAt s.thr j _ j)
        rw [setAt_same]; trivial
      · show VRel _ _ _ _ _ _ _ (setAt s.thr i _ j)
        rw [setAt_other hj]
        exact (hV j).later fun op' he => hj (by injection he with h1 _; exact h1.symm)
    | @ret i op r hi =>
      refine ⟨t, ht, hG, hset (fun j => (hV j).later fun op' he => by cases he) trivial⟩
    | @done i op pc t1 r hi hst =>
      obtain ⟨ho, t', h1, h2, h3, -⟩ := hacc h ht hG hi
      have hVi := hV i
      rw [hi] at hVi
      rw [hst] at h1
      refine ⟨t', h1, h2, hset (fun j => ((hV j).evolve h3).later fun op' he => by cases he) ?_⟩
      intro hop p w hr
      have hne : ∀ op', (Ev.lin i op r : WEv T V) ≠ .call i op' := fun op' he => by cases he
      have hk := hok op ho
      cases pc with
      | load j a =>
        simp only [stepW] at hst
        split at hst
        · injection hst with _ hst
          obtain ⟨rfl, rfl, hc⟩ := afterLoadW_shows hst hr
          rw [ht] at hc
          obtain ⟨v, hv⟩ := key_of_cell (d := (encT b t (E.M.remap j)).data) hb hG hk hc
          refine .inr (During.later (During.now h ?_) hne)
          rw [ht, word_of_live hG hv]
        · cases hst
      | act j a c =>
        simp only [stepW] at hst
        split at hst
        · exact absurd hop (actW_insert hst)
        · cases hst
      | half j a y =>
        simp only [stepW] at hst
        split at hst
        · injection hst with _ hst
          obtain ⟨rfl, rfl, hc⟩ := afterLoadW_shows hst hr
          cases y with
          | data d =>
            have hVi : During _ _ _ _ _ _ _ := hVi
            rw [ht] at hc
            obtain ⟨v, hv⟩ := key_of_cell hb hG hk hc
            by_cases hd : d = default
            · exact .inl hd
            · refine .inr (During.later (hVi.imp ?_) hne)
              rintro s0 ⟨t0, g1, g2, g3, g4⟩
              rcases (g3 (E.M.remap j)).2 _ _ hv with g5 | ⟨u, g5⟩
              · exfalso; apply hd; rw [← g4]; simp [Cell.mapped, g5]
              · have : u = d := by rw [← g4]; simp [Cell.mapped, g5]
                rw [g1, word_of_live g2 g5, this]; rfl
          | key w =>
            have hVi : During _ _ _ _ _ _ _ := hVi
            have hlive : ∃ v, (t (E.M.remap j)).c = .live op.key v ∨ (t (E.M.remap j)).c = .deleted v := by
              obtain ⟨l1, l2, s1, -, -, -, t0, g1, g2, g3, g4⟩ := hVi
              rw [← g4] at hc
              obtain ⟨u, hu⟩ := key_of_cell hb g2 hk hc
              cases hx : (t (E.M.remap j)).c with
              | empty => exact absurd hx ((g3 (E.M.remap j)).1 (by rw [hu]; intro h; cases h))
              | deleted v => exact ⟨v, .inr rfl⟩
              | live k v =>
                rcases (g3 (E.M.remap j)).2 _ _ hx with g5 | ⟨u', g5⟩
                · rw [hu] at g5; cases g5
                · rw [hu] at g5; cases g5; exact ⟨v, .inl rfl⟩
            obtain ⟨v, hv | hv⟩ := hlive
            · refine .inr (During.later (During.now h ?_) hne)
              have := word_of_live hG hv
              simp only [Half.join]
              rw [ht, this]
            · left
              have := hG.dels _ _ hv
              simp only [Half.join]
              rw [ht]
              simp [encT, encode, Cell.mapped, hv, this]
        · cases hst

end
end Words
end Growt
