import Verif.Conc
import Verif.Props.Slots

/-!
# The bounded table on machine words

`base_linear` instantiated with the inline slots: `simple_slot` (16 bytes, mark bit 63) or `single_word_slot`
(8 bytes, mark bit 31).  A slot is a key word and a mapped value; the operations test and change these words with
the functions of the slot classes.  The 16 bytes of a `simple_slot` are loaded with `_mm_loadu_si128`
(`simple_slot.hpp:313-322`), which is one access only on some processors: with `whole = false` the two halves of
a slot may be loaded one after the other, in any order.
-/

set_option linter.unusedSectionVars false

namespace Growt
namespace Words
section
variable {T V : Type} [DecidableEq T] [DecidableEq V] [Inhabited V]

/-- `_table` (`base_linear.hpp:248`). -/
abbrev WTbl (V : Type) := Nat → WSlot V

/-- Overwrite one slot. (model bookkeeping, no code) -/
def WTbl.set (t : WTbl V) (i : Nat) (x : WSlot V) : WTbl V := fun j => if j = i then x else t j

/-- The half of a slot that has been loaded (`simple_slot.hpp:313-322`). -/
inductive Half (V : Type) where
  | key (k : Nat)
  | data (d : V)

/-- The other half is loaded (`simple_slot.hpp:313-322`). -/
def Half.join : Half V → WSlot V → WSlot V
  | .key k, w => ⟨k, w.data⟩
  | .data d, w => ⟨w.key, d⟩

/-- Program counter, as `PC` (`base_linear.hpp:556-916`); `half`: one half of slot `remap i` has been loaded. -/
inductive WPC (V : Type) where
  | load (i att : Nat)
  | half (i att : Nat) (x : Half V)
  | act (i att : Nat) (curr : WSlot V)

/-- Result: return code and iterator with its copied slot (`insert_return_intern`, `base_linear.hpp:167`). -/
structure WRet (V : Type) where
  code : Option ReturnCode
  it : Option (Nat × WSlot V)

/-- Outcome of a step, as `Out` (`base_linear.hpp:556-916`). -/
inductive WOut (V : Type) where
  | cont (pc : WPC V)
  | done (r : WRet V)
  | oob

/-- `make_insert_ret(end(), code)` (`base_linear.hpp:569`). -/
def retEndW (c : ReturnCode) : WOut V := .done ⟨some c, none⟩

/-- Processing of a loaded slot, as `afterLoad` (`base_linear.hpp:562-600, 611-638, 652-681, 692-719, 734-771,
785-821, 830-848, 858-876, 887-899`), with `is_marked`, `is_empty`, `compare_key`, `get_mapped` of the slot. -/
def afterLoadW (b : Nat) (E : Env Nat) (op : Op Nat V) (i att pos : Nat) (w : WSlot V) : WOut V :=
  match op with
  | .find k =>
    if w.isEmpty b then .done ⟨none, none⟩
    else if w.compareKey E.m b k then .done ⟨none, some (pos, w)⟩
    else .cont (.load (i + 1) att)
  | .insert k _ =>
    if w.isMarked E.m b then retEndW .UNSUCCESS_INVALID
    else if w.isEmpty b then
      if tooFar E pos then retEndW .UNSUCCESS_FULL else .cont (.act i att w)
    else if w.compareKey E.m b k then .done ⟨some .UNSUCCESS_ALREADY_USED, some (pos, w)⟩
    else .cont (.load (i + 1) att)
  | .insertOrUpdate k _ _ | .insertOrUpdateUnsafe k _ _ =>
    if w.isMarked E.m b then retEndW .UNSUCCESS_INVALID
    else if w.isEmpty b then
      if tooFar E pos then retEndW .UNSUCCESS_FULL else .cont (.act i att w)
    else if w.compareKey E.m b k then .cont (.act i att w)
    else .cont (.load (i + 1) att)
  | .update k _ | .updateBackoff k _ _ | .updateUnsafe k _ | .erase k =>
    if w.isMarked E.m b then retEndW .UNSUCCESS_INVALID
    else if w.isEmpty b then retEndW .UNSUCCESS_NOT_FOUND
    else if w.compareKey E.m b k then .cont (.act i att w)
    else .cont (.load (i + 1) att)
  | .eraseIf k d =>
    if w.isMarked E.m b then retEndW .UNSUCCESS_INVALID
    else if w.isEmpty b then retEndW .UNSUCCESS_NOT_FOUND
    else if w.compareKey E.m b k then
      if w.data ≠ d then retEndW .UNSUCCESS_NOT_FOUND else .cont (.act i att w)
    else .cont (.load (i + 1) att)
  | .locate k =>
    if w.isMarked E.m b then retEndW .UNSUCCESS_INVALID
    else if w.isEmpty b then retEndW .UNSUCCESS_NOT_FOUND
    else if w.compareKey E.m b k then .done ⟨some .SUCCESS_UP, some (pos, w)⟩
    else .cont (.load (i + 1) att)

/-- Compare-and-swap of a slot: all its bytes are compared (`simple_slot.hpp:333-344`,
`single_word_slot.hpp:338-344`). -/
def casW (t : WTbl V) (i att pos : Nat) (curr new : WSlot V) (r : WRet V) : WTbl V × WOut V :=
  if t pos = curr then (t.set pos new, .done r) else (t, .cont (.load i att))

/-- `atomic_update(expected, f)` (`simple_slot.hpp:386-450`, `single_word_slot.hpp:389-459`), as `atomicUpdate`: new
content of the slot `w`, returned slot, success. -/
def updateW (m : Bool) (b : Nat) (w expected : WSlot V) (f : UpdFn V) : WSlot V × WSlot V × Bool :=
  if m then
    let temp : WSlot V := ⟨expected.key, f.upd expected.data⟩
    if w = expected then (temp, temp, true) else (w, temp, false)
  else
    match f.atomic with
    | some g => (⟨w.key, (g w.data).1⟩, ⟨expected.getKey m b, (g w.data).2⟩, true)
    | none =>
      if w.data = expected.data then
        (⟨w.key, f.upd expected.data⟩, ⟨expected.getKey m b, f.upd expected.data⟩, true)
      else (w, ⟨expected.getKey m b, w.data⟩, false)

/-- `non_atomic_update(f)` (`simple_slot.hpp:454-466`, `single_word_slot.hpp:463-475`). -/
def unsafeW (m : Bool) (b : Nat) (w : WSlot V) (f : UpdFn V) : WSlot V × WSlot V :=
  (⟨w.key, f.upd w.data⟩, ⟨w.getKey m b, f.ret w.data⟩)

/-- The modifying access, as `actStep` (`base_linear.hpp:578-584, 625-632, 666-675, 706-713, 749-754, 758-765,
800-804, 808-815, 838-842, 866-870`).  A new slot for `(k, d)` has the key word `k` (`simple_slot.hpp:143-149`). -/
def actW (b : Nat) (E : Env Nat) (op : Op Nat V) (i att pos : Nat) (curr : WSlot V) (t : WTbl V) : WTbl V × WOut V :=
  let upd (f : UpdFn V) (fail : WOut V) : WTbl V × WOut V :=
    let (nc, data, succ) := updateW E.m b (t pos) curr f
    (t.set pos nc, if succ then .done ⟨some .SUCCESS_UP, some (pos, data)⟩ else fail)
  let updUnsafe (f : UpdFn V) : WTbl V × WOut V :=
    let (nc, data) := unsafeW E.m b (t pos) f
    (t.set pos nc, .done ⟨some .SUCCESS_UP, some (pos, data)⟩)
  match op with
  | .find _ | .locate _ => (t, .oob) -- no such program point
  | .insert k d => casW t i att pos curr ⟨k, d⟩ ⟨some .SUCCESS_IN, some (pos, curr)⟩
  | .update _ f => upd f (.cont (.load i att))
  | .updateBackoff _ f c => upd f (if c att then .cont (.load i (att + 1)) else retEndW .UNSUCCESS_BACKOFF)
  | .updateUnsafe _ f => updUnsafe f
  | .insertOrUpdate k d f =>
    if curr.isEmpty b then casW t i att pos curr ⟨k, d⟩ ⟨some .SUCCESS_IN, some (pos, ⟨k, d⟩)⟩
    else upd f (.cont (.load i att))
  | .insertOrUpdateUnsafe k d f =>
    if curr.isEmpty b then casW t i att pos curr ⟨k, d⟩ ⟨some .SUCCESS_IN, some (pos, ⟨k, d⟩)⟩
    else updUnsafe f
  | .erase _ | .eraseIf _ _ => casW t i att pos curr (.deleted b) ⟨some .SUCCESS_DEL, none⟩

/-- One access of an operation to the table, as `step` (`base_linear.hpp:556-916`). -/
def stepW (b : Nat) (E : Env Nat) (op : Op Nat V) (pc : WPC V) (t : WTbl V) : WTbl V × WOut V :=
  match pc with
  | .load i att =>
    let pos := E.M.remap i
    if pos < E.M.total then (t, afterLoadW b E op i att pos (t pos)) else (t, .oob)
  | .half i att x =>
    let pos := E.M.remap i
    if pos < E.M.total then (t, afterLoadW b E op i att pos (x.join (t pos))) else (t, .oob)
  | .act i att curr =>
    let pos := E.M.remap i
    if pos < E.M.total then actW b E op i att pos curr t else (t, .oob)

/-- A thread, as `Thr` (calls of `base_linear.hpp:192-243`). -/
inductive WThr (V : Type) where
  | idle
  | busy (op : Op Nat V) (pc : WPC V)
  | fin (op : Op Nat V) (r : WRet V)

/-- The table and the threads (`_table`, `base_linear.hpp:248`). -/
structure WSt (T V : Type) where
  tbl : WTbl V
  thr : T → WThr V

/-- Events. (specification, no code) -/
abbrev WEv (T V : Type) := Ev T (Op Nat V) (WRet V)

/-- One step of the system, as `CStep` (`base_linear.hpp:556-1084`); `first`: a load that is not one access begins
with one of the two halves of the slot (`simple_slot.hpp:313-322`). -/
inductive WStep (whole : Bool) (b : Nat) (E : Env Nat) (ok : Op Nat V → Prop) :
    WSt T V → Option (WEv T V) → WSt T V → Prop where
  | call {s : WSt T V} {i : T} {op : Op Nat V} (h : s.thr i = .idle) (ho : ok op) :
      WStep whole b E ok s (some (.call i op)) ⟨s.tbl, setAt s.thr i (.busy op (.load (E.M.map (E.h op.key)) 0))⟩
  | first {s : WSt T V} {i : T} {op : Op Nat V} {j att : Nat} {x : Half V} (hw : whole = false)
      (h : s.thr i = .busy op (.load j att)) (hj : E.M.remap j < E.M.total)
      (hx : x = .key (s.tbl (E.M.remap j)).key ∨ x = .data (s.tbl (E.M.remap j)).data) :
      WStep whole b E ok s none ⟨s.tbl, setAt s.thr i (.busy op (.half j att x))⟩
  | cont {s : WSt T V} {i : T} {op : Op Nat V} {pc pc' : WPC V} {t' : WTbl V}
      (h : s.thr i = .busy op pc) (hs : stepW b E op pc s.tbl = (t', .cont pc')) :
      WStep whole b E ok s none ⟨t', setAt s.thr i (.busy op pc')⟩
  | done {s : WSt T V} {i : T} {op : Op Nat V} {pc : WPC V} {t' : WTbl V} {r : WRet V}
      (h : s.thr i = .busy op pc) (hs : stepW b E op pc s.tbl = (t', .done r)) :
      WStep whole b E ok s (some (.lin i op r)) ⟨t', setAt s.thr i (.fin op r)⟩
  | ret {s : WSt T V} {i : T} {op : Op Nat V} {r : WRet V} (h : s.thr i = .fin op r) :
      WStep whole b E ok s (some (.ret i op r)) ⟨s.tbl, setAt s.thr i .idle⟩

/-- A new table: all slots are `get_empty()` (`base_linear.hpp:396-411`). -/
def WSt.init : WSt T V := ⟨fun _ => .empty, fun _ => .idle⟩

/-! ## What callers see -/

/-- The boolean result, as `Ret.ok` (`base_linear.hpp:929, 967, 975, 984, 997, 1007, 1026, 1064`). -/
def WRet.ok (op : Op Nat V) (r : WRet V) : Bool :=
  match op with
  | .find _ => r.it.isSome
  | .insertOrUpdate _ _ _ | .insertOrUpdateUnsafe _ _ _ => decide (r.code = some .SUCCESS_IN)
  | _ => match r.code with | some c => c.successful | none => false

/-- The pair seen when the returned iterator is dereferenced (`base_linear_iterator.hpp:252`). -/
def WRet.shown (m : Bool) (b : Nat) (r : WRet V) : Option (Nat × V) :=
  r.it.map fun p => (p.2.getKey m b, p.2.data)

/-- The ideal map on keys and values, for results as words: the boolean result is right, and the iterator shows the
key of the call with its value.  Exempt is the iterator of a successful `insert` (C09).  Calls may be refused
as in `boundedObj`. (specification, no code) -/
def wordObj (m : Bool) (b : Nat) : Obj (Op Nat V) (WRet V) (Dict Nat V) where
  init := fun _ => none
  legal d op r d' :=
    (d' = ((op.toSpec m).sem d).1 ∧ r.ok op = ((op.toSpec m).sem d).2.ok ∧
      ((∃ k v, op = .insert k v) ∧ r.ok op = true ∨
        r.shown m b = ((op.toSpec m).sem d).2.shown.map fun v => (op.key, v))) ∨
    ∃ c, op.mayRefuse c ∧ r = ⟨some c, none⟩ ∧ d' = d ∧ (c = .UNSUCCESS_FULL → d op.key = none)

/-! ## Words and cells -/

/-- The words of a table. (specification, no code) -/
def encT (b : Nat) (t : Tbl Nat V) : WTbl V := fun p => encode b (t p)

/-- Proof, no code. -/
def encPC (b : Nat) : PC Nat V → WPC V
  | .load i att => .load i att
  | .act i att c => .act i att (encode b c)

/-- Proof, no code. -/
def encRet (b : Nat) (r : Ret Nat V) : WRet V := ⟨r.code, r.it.map fun p => (p.1, encode b p.2)⟩

/-- Proof, no code. -/
def encOut (b : Nat) : Out Nat V → WOut V
  | .cont pc => .cont (encPC b pc)
  | .done r => .done (encRet b r)
  | .oob => .oob

/-- Proof, no code. -/
def encThr (b : Nat) : Thr Nat V → WThr V
  | .idle => .idle
  | .busy op pc => .busy op (encPC b pc)
  | .fin op r => .fin op (encRet b r)

/-- Proof, no code. -/
def encEv (b : Nat) : Ev T (Op Nat V) (Ret Nat V) → WEv T V
  | .call i o => .call i o
  | .lin i o r => .lin i o (encRet b r)
  | .ret i o r => .ret i o (encRet b r)

/-- Legal keys only. (specification, no code) -/
def Legals (m : Bool) (b : Nat) (ok : Op Nat V → Prop) : Prop := ∀ op, ok op → LegalKey m b op.key

theorem encT_set (b : Nat) (t : Tbl Nat V) (p : Nat) (c : Cell Nat V) :
    encT b (t.set p c) = (encT b t).set p (encode b c) := by
  funext q
  simp only [encT, Tbl.set, WTbl.set]
  split <;> rfl

theorem encode_setMapped {b : Nat} {x : Cell Nat V} (h : x.c ≠ .empty) (v : V) :
    encode b (x.setMapped v) = ⟨(encode b x).key, v⟩ := by
  obtain ⟨m, c⟩ := x
  cases c with
  | empty => exact absurd rfl h
  | live k w => rfl
  | deleted w => rfl

theorem encode_live (b : Nat) (k : Nat) (d : V) : encode b (Cell.liveCell k d) = ⟨k, d⟩ := rfl

theorem encode_deleted (b : Nat) : encode b (Cell.deletedCell : Cell Nat V) = .deleted b := rfl

theorem encode_empty (b : Nat) : encode b (Cell.emptyCell : Cell Nat V) = .empty := rfl

/-- A loaded slot is processed as the cell it stands for. -/
theorem load_enc {b : Nat} (hb : 1 ≤ b) {E : Env Nat} {op : Op Nat V} (hk : LegalKey E.m b op.key) {c : Cell Nat V}
    (hc : LegalCell E.m b c) (i att pos : Nat) :
    afterLoadW b E op i att pos (encode b c) = encOut b (afterLoad E op i att pos c) := by
  obtain ⟨h1, h2, -, h4, h5, -⟩ := layout_faithful hb hc
  have h5 := h5 op.key hk
  cases op <;> simp only [Op.key] at h5 <;> simp only [afterLoadW, afterLoad, h1, h2, h4, h5, retEnd, retEndW] <;>
    (repeat' split) <;> rfl

/-- A modifying access does to the words what it does to the cells. -/
theorem act_enc {b : Nat} (hb : 1 ≤ b) {E : Env Nat} {op : Op Nat V} (hk : LegalKey E.m b op.key) {t : Tbl Nat V}
    (ht : ∀ p, LegalCell E.m b (t p)) {i att : Nat} {curr : Cell Nat V} (hpc : PcInv E t op (.act i att curr))
    (hs : SafeAct E t op (.act i att curr))
    (hu : (∀ k f, op ≠ .updateUnsafe k f) ∧ ∀ k d f, op ≠ .insertOrUpdateUnsafe k d f) :
    actW b E op i att (E.M.remap i) (encode b curr) (encT b t) =
      (encT b (actStep E op i att (E.M.remap i) curr t).1, encOut b (actStep E op i att (E.M.remap i) curr t).2) := by
  obtain ⟨-, ⟨hm, hact⟩, hle⟩ := hpc
  have hs := hs i att curr rfl
  have hcl : curr.c = .empty ∨ ∃ w, curr.c = .live op.key w := by
    cases op with
    | find | locate => exact hact.elim
    | insert => exact .inl hact.1
    | insertOrUpdate | insertOrUpdateUnsafe => exact hact.imp (·.1) id
    | eraseIf => exact .inr ⟨_, hact⟩
    | _ => exact .inr hact
  have hcurr : LegalCell E.m b curr := by
    refine ⟨fun h => (by rw [hm] at h; cases h), fun k v h => ?_⟩
    rcases hcl with h' | ⟨w, h'⟩ <;> rw [h'] at h <;> cases h
    exact hk
  have hinj : (encT b t (E.M.remap i) = encode b curr) ↔ t (E.M.remap i) = curr :=
    ⟨fun h => encode_injective hb (ht _) hcurr h, fun h => by rw [← h]; rfl⟩
  have hcas : ∀ (new : Cell Nat V) (r : Ret Nat V),
      casW (encT b t) i att (E.M.remap i) (encode b curr) (encode b new) (encRet b r) =
        (encT b (casStep t i att (E.M.remap i) curr new r).1,
          encOut b (casStep t i att (E.M.remap i) curr new r).2) := by
    intro new r
    simp only [casW, casStep, hinj]
    split
    · rw [encT_set]; rfl
    · rfl
  have hemp : (encode b curr).isEmpty b = curr.isEmpty := (layout_faithful hb hcurr).1
  have hself : ∀ c, t (E.M.remap i) = c → encT b t = (encT b t).set (E.M.remap i) (encode b c) := by
    intro c h
    funext q
    simp only [WTbl.set]
    split
    · rename_i e; rw [e, ← h]; rfl
    · rfl
  have hupd : ∀ (k : Nat) (f : UpdFn V) , op.key = k → op.usesCas E.m = E.m → (∃ w, curr.c = .live k w) →
      updateW E.m b (encT b t (E.M.remap i)) (encode b curr) f =
        (encode b (atomicUpdate E.m k (t (E.M.remap i)) curr f).1,
          encode b (atomicUpdate E.m k (t (E.M.remap i)) curr f).2.1,
          (atomicUpdate E.m k (t (E.M.remap i)) curr f).2.2) := by
    intro k f hkk hcs hl
    subst hkk
    have hne : curr.c ≠ .empty := by obtain ⟨w, h⟩ := hl; rw [h]; intro h; cases h
    have hd : (encode b curr).data = curr.mapped := rfl
    unfold updateW atomicUpdate
    cases hmm : E.m with
    | true =>
      simp only [if_true, hinj]
      split <;> simp only [encode_setMapped hne, hd] <;> rfl
    | false =>
      simp only [Bool.false_eq_true, if_false]
      have hlive : ∃ w, (t (E.M.remap i)).c = .live op.key w := by
        rcases hs with h | h | h
        · rw [hcs, hmm] at h; cases h
        · exact absurd h hne
        · exact h
      have hne' : (t (E.M.remap i)).c ≠ .empty := by
        obtain ⟨w, h⟩ := hlive; rw [h]; intro h; cases h
      have hkey : (encode b curr).getKey false b = op.key := by
        obtain ⟨w, h⟩ := hl
        have := (layout_faithful hb hcurr).2.2.2.2.2 _ _ h
        rw [hmm] at this; exact this
      have hdt : (encT b t (E.M.remap i)).data = (t (E.M.remap i)).mapped := rfl
      cases f.atomic with
      | some g => simp only [encode_setMapped hne', hkey, hdt, encode_live]; rfl
      | none =>
        simp only [hdt, hd]
        split
        · simp only [encode_setMapped hne', hkey, encode_live]; rfl
        · simp only [hkey, encode_live]; rfl
  cases op with
  | find | locate => exact hact.elim
  | insert k d => exact hcas (Cell.liveCell k d) ⟨some .SUCCESS_IN, some (E.M.remap i, curr)⟩
  | update k f =>
    simp only [actW, actStep, hupd k f rfl rfl hact, encT_set]
    split <;> rfl
  | updateBackoff k f c =>
    simp only [actW, actStep, hupd k f rfl rfl hact, encT_set]
    (repeat' split) <;> rfl
  | updateUnsafe k f => exact absurd rfl (hu.1 k f)
  | insertOrUpdate k d f =>
    simp only [actW, actStep, hemp]
    split
    · exact hcas (Cell.liveCell k d) ⟨some .SUCCESS_IN, some (E.M.remap i, Cell.liveCell k d)⟩
    · rename_i he
      have hl : ∃ w, curr.c = .live k w := by
        rcases hact with h | h
        · exact absurd (by simp [Cell.isEmpty, h.1]) he
        · exact h
      simp only [hupd k f rfl rfl hl, encT_set]
      split <;> rfl
  | insertOrUpdateUnsafe k d f => exact absurd rfl (hu.2 k d f)
  | erase k => exact hcas Cell.deletedCell ⟨some .SUCCESS_DEL, none⟩
  | eraseIf k d => exact hcas Cell.deletedCell ⟨some .SUCCESS_DEL, none⟩

/-- **One access to the words is one access to the cells.** -/
theorem step_enc {b : Nat} (hb : 1 ≤ b) {E : Env Nat} {op : Op Nat V} (hk : LegalKey E.m b op.key) {t : Tbl Nat V}
    (ht : ∀ p, LegalCell E.m b (t p)) {pc : PC Nat V} (hpc : PcInv E t op pc) (hs : SafeAct E t op pc)
    (hu : (∀ k f, op ≠ .updateUnsafe k f) ∧ ∀ k d f, op ≠ .insertOrUpdateUnsafe k d f) :
    stepW b E op (encPC b pc) (encT b t) = (encT b (step E op pc t).1, encOut b (step E op pc t).2) := by
  cases pc with
  | load i att =>
    simp only [encPC, stepW, step]
    split
    · simp only [Prod.mk.injEq, true_and]; exact load_enc hb hk (ht _) ..
    · rfl
  | act i att curr =>
    simp only [encPC, stepW, step]
    split
    · exact act_enc hb hk ht hpc hs hu
    · rfl

/-- The cells stay representable. -/
theorem step_legal {b : Nat} {E : Env Nat} {op : Op Nat V} (hk : LegalKey E.m b op.key) {t : Tbl Nat V}
    (ht : ∀ p, LegalCell E.m b (t p)) {pc : PC Nat V} (hpc : PcInv E t op pc) (p : Nat) :
    LegalCell E.m b ((step E op pc t).1 p) := by
  have hset : ∀ (q : Nat) (c : Cell Nat V), LegalCell E.m b c → LegalCell E.m b (t.set q c p) := by
    intro q c hc
    simp only [Tbl.set]; split
    · exact hc
    · exact ht p
  have hmap : ∀ (c : Cell Nat V) (v : V), LegalCell E.m b c → LegalCell E.m b (c.setMapped v) := by
    rintro ⟨mk, c⟩ v ⟨h1, h2⟩
    cases c with
    | empty => exact ⟨h1, h2⟩
    | live k w => exact ⟨h1, fun k' v' h => by cases h; exact h2 k w rfl⟩
    | deleted w => exact ⟨h1, fun k' v' h => by cases h⟩
  cases pc with
  | load i att => simp only [step]; split <;> exact ht p
  | act i att curr =>
    obtain ⟨-, ⟨hm, hact⟩, -⟩ := hpc
    have hcl : curr.c = .empty ∨ ∃ w, curr.c = .live op.key w := by
      cases op with
      | find | locate => exact hact.elim
      | insert => exact .inl hact.1
      | insertOrUpdate | insertOrUpdateUnsafe => exact hact.imp (·.1) id
      | eraseIf => exact .inr ⟨_, hact⟩
      | _ => exact .inr hact
    have hcurr : LegalCell E.m b curr := by
      refine ⟨fun h => (by rw [hm] at h; cases h), fun k v h => ?_⟩
      rcases hcl with h' | ⟨w, h'⟩ <;> rw [h'] at h <;> cases h
      exact hk
    have hnew : ∀ d : V, LegalCell E.m b (Cell.liveCell op.key d) := fun d =>
      ⟨fun h => (by cases h), fun k v h => (by cases h; exact hk)⟩
    have hdel : LegalCell E.m b (Cell.deletedCell : Cell Nat V) :=
      ⟨fun h => (by cases h), fun k v h => (by cases h)⟩
    have hcas : ∀ (new : Cell Nat V) (r : Ret Nat V), LegalCell E.m b new →
        LegalCell E.m b ((casStep t i att (E.M.remap i) curr new r).1 p) := by
      intro new r hn
      unfold casStep; split
      · exact hset _ _ hn
      · exact ht p
    have hau : ∀ k f, LegalCell E.m b (atomicUpdate E.m k (t (E.M.remap i)) curr f).1 := by
      intro k f
      unfold atomicUpdate
      repeat' split
      all_goals first
        | exact hmap _ _ hcurr
        | exact hmap _ _ (ht _)
        | exact ht _
    simp only [step]
    split
    · cases op <;> simp only [actStep] <;> (repeat' split) <;> first
        | exact ht p
        | exact hcas _ _ (hnew _)
        | exact hcas _ _ hdel
        | exact hset _ _ (hau _ _)
        | exact hset _ _ (hmap _ _ (ht _))
    · exact ht p

/-! ## Executions -/

/-- **Every execution on words is an execution on cells.** -/
theorem sim {b : Nat} (hb : 1 ≤ b) {E : Env Nat} (hE : E.OK) {ok : Op Nat V → Prop} (hmix : Mix E.m ok)
    (hok : Legals E.m b ok) {l : List (WEv T V)} {s : WSt T V} (h : Exec (WStep true b E ok) WSt.init l s) :
    ∃ (l' : List (TEv T Nat V)) (s' : CSt T Nat V), Exec (CStep E ok) CSt.init l' s' ∧ l = l'.map (encEv b) ∧
      s.tbl = encT b s'.tbl ∧ (∀ i, s.thr i = encThr b (s'.thr i)) ∧ ∀ p, LegalCell E.m b (s'.tbl p) := by
  have hthr : ∀ {s : WSt T V} {s' : CSt T Nat V} {i : T} {x : WThr V} {x' : Thr Nat V}, x = encThr b x' →
      (∀ j, s.thr j = encThr b (s'.thr j)) → ∀ j, setAt s.thr i x j = encThr b (setAt s'.thr i x' j) := by
    intro s s' i x x' hx h j
    by_cases hj : j = i
    · subst hj; rw [setAt_same, setAt_same, hx]
    · rw [setAt_other hj, setAt_other hj, h j]
  have hbusy : ∀ {x : Thr Nat V} {op : Op Nat V} {pc : WPC V}, WThr.busy op pc = encThr b x →
      ∃ pc', x = .busy op pc' ∧ pc = encPC b pc' := by
    intro x op pc h
    cases x with
    | idle => cases h
    | fin => cases h
    | busy op' pc' => cases h; exact ⟨pc', rfl, rfl⟩
  -- one access, seen from both sides
  have hacc : ∀ {s : WSt T V} {l' : List (TEv T Nat V)} {s' : CSt T Nat V} {i : T} {op : Op Nat V} {pc : WPC V},
      Exec (CStep E ok) CSt.init l' s' → s.tbl = encT b s'.tbl → (∀ j, s.thr j = encThr b (s'.thr j)) →
      (∀ p, LegalCell E.m b (s'.tbl p)) → s.thr i = .busy op pc →
      ∃ pc', s'.thr i = .busy op pc' ∧
        stepW b E op pc s.tbl = (encT b (step E op pc' s'.tbl).1, encOut b (step E op pc' s'.tbl).2) ∧
        ∀ p, LegalCell E.m b ((step E op pc' s'.tbl).1 p) := by
    intro s l' s' i op pc hx ht hth hleg hi
    rw [hth i] at hi
    obtain ⟨pc', h1, h2⟩ := hbusy hi.symm
    have hti := (CInv.reach hE hmix hx).thr i
    rw [h1] at hti
    obtain ⟨ho, hpc, hsafe⟩ := hti
    refine ⟨pc', h1, ?_, step_legal (hok op ho) hleg hpc⟩
    rw [h2, ht]
    exact step_enc hb (hok op ho) hleg hpc hsafe (hmix.safe op ho)
  induction h with
  | init =>
    refine ⟨[], CSt.init, .init, rfl, ?_, fun _ => rfl, fun p => ⟨fun h => (by cases h), fun k v h => (by cases h)⟩⟩
    rfl
  | @silent l s s1 h hs ih =>
    obtain ⟨l', s', hx, hl, ht, hth, hleg⟩ := ih
    cases hs with
    | first hw => cases hw
    | @cont i op pc pc1 t1 hi hst =>
      obtain ⟨pc', h1, h2, h3⟩ := hacc hx ht hth hleg hi
      rw [hst] at h2
      injection h2 with h4 h5
      cases ho : (step E op pc' s'.tbl).2 with
      | done r => rw [ho] at h5; cases h5
      | oob => rw [ho] at h5; cases h5
      | cont pc2 =>
        rw [ho] at h5; cases h5
        exact ⟨l', _, .silent hx (.cont h1 (Prod.ext rfl ho)), hl, h4, hthr rfl hth, h3⟩
  | @vis l s s1 e h hs ih =>
    obtain ⟨l', s', hx, hl, ht, hth, hleg⟩ := ih
    cases hs with
    | @call i op hi ho =>
      have h1 : s'.thr i = .idle := by
        have := hth i; rw [hi] at this
        cases hc : s'.thr i with
        | idle => rfl
        | busy => rw [hc] at this; cases this
        | fin => rw [hc] at this; cases this
      exact ⟨l' ++ [.call i op], ⟨s'.tbl, setAt s'.thr i (.busy op (start E op))⟩, .vis hx (.call h1 ho),
        (by simp [hl, encEv]), ht, hthr (x' := .busy op (start E op)) rfl hth, hleg⟩
    | @done i op pc t1 r hi hst =>
      obtain ⟨pc', h1, h2, h3⟩ := hacc hx ht hth hleg hi
      rw [hst] at h2
      injection h2 with h4 h5
      cases ho : (step E op pc' s'.tbl).2 with
      | cont pc2 => rw [ho] at h5; cases h5
      | oob => rw [ho] at h5; cases h5
      | done r' =>
        rw [ho] at h5; cases h5
        exact ⟨l' ++ [.lin i op r'], ⟨_, setAt s'.thr i (.fin op r')⟩, .vis hx (.done h1 (Prod.ext rfl ho)),
          (by simp [hl, encEv]), h4, hthr (x' := .fin op r') rfl hth, h3⟩
    | @ret i op r hi =>
      have h1 : ∃ r', s'.thr i = .fin op r' ∧ r = encRet b r' := by
        have := hth i; rw [hi] at this
        cases hc : s'.thr i with
        | idle => rw [hc] at this; cases this
        | busy => rw [hc] at this; cases this
        | fin op' r' => rw [hc] at this; cases this; exact ⟨r', rfl, rfl⟩
      obtain ⟨r', h1, h2⟩ := h1
      exact ⟨l' ++ [.ret i op r'], ⟨s'.tbl, setAt s'.thr i .idle⟩, .vis hx (.ret h1), (by simp [hl, encEv, h2]), ht,
        hthr (x' := .idle) rfl hth, hleg⟩

/-! ## Results -/

theorem encRet_ok (b : Nat) (op : Op Nat V) (r : Ret Nat V) : (encRet b r).ok op = r.ok op := by
  cases op <;> first | rfl | simp [WRet.ok, Ret.ok, encRet]

/-- A returned iterator refers to an element with the key of the call (but for a successful `insert`). -/
theorem ret_live {K : Type} [DecidableEq K] {E : Env K} {t t' : Tbl K V} (hn : NoMarks t) {op : Op K V} {pc : PC K V}
    {r : Ret K V} (hpc : PcInv E t op pc) (hs : step E op pc t = (t', .done r))
    (hu : (∀ k f, op ≠ .updateUnsafe k f) ∧ ∀ k d f, op ≠ .insertOrUpdateUnsafe k d f) :
    ((∃ k d, op = .insert k d) ∧ r.ok op = true) ∨
      ∀ p c, r.it = some (p, c) → c.marked = false ∧ ∃ v, c.c = .live op.key v := by
  have hr : (step E op pc t).2 = .done r := by rw [hs]
  cases pc with
  | load i att =>
    revert hr
    simp only [step]
    split
    · have hk : ∀ k, (t (E.M.remap i)).hasKey k = true → (t (E.M.remap i)).marked = false ∧
          ∃ v, (t (E.M.remap i)).c = .live k v := fun k h => ⟨hn _, Cell.hasKey_iff.1 h⟩
      cases op <;> simp only [afterLoad, retEnd] <;> (repeat' split) <;> intro hr <;> cases hr <;> right <;>
        intro p c hc <;> cases hc <;> exact hk _ ‹_›
    · intro hr; cases hr
  | act i att curr =>
    obtain ⟨-, ⟨hm, hact⟩, -⟩ := hpc
    have hau : ∀ (k : K) (f : UpdFn V) (w : V), curr.c = .live k w →
        (atomicUpdate E.m k (t (E.M.remap i)) curr f).2.1.marked = false ∧
        ∃ v, (atomicUpdate E.m k (t (E.M.remap i)) curr f).2.1.c = .live k v := by
      intro k f w hw
      unfold atomicUpdate
      (repeat' split) <;> simp [Cell.setMapped, hw, hm, Cell.liveCell]
    revert hr
    simp only [step]
    split
    · cases op with
      | find | locate => exact hact.elim
      | updateUnsafe k f => exact absurd rfl (hu.1 k f)
      | insertOrUpdateUnsafe k d f => exact absurd rfl (hu.2 k d f)
      | insert k d =>
        simp only [actStep, casStep]
        split <;> intro hr <;> cases hr
        exact .inl ⟨⟨k, d, rfl⟩, rfl⟩
      | update k f =>
        obtain ⟨w, hw⟩ := hact
        simp only [actStep]
        split <;> intro hr <;> cases hr
        right; intro p c hc; cases hc; exact hau k f w hw
      | updateBackoff k f cb =>
        obtain ⟨w, hw⟩ := hact
        simp only [actStep, retEnd]
        (repeat' split) <;> intro hr <;> cases hr <;> right <;> intro p c hc <;> cases hc
        exact hau k f w hw
      | insertOrUpdate k d f =>
        simp only [actStep]
        split
        · simp only [casStep]
          split <;> intro hr <;> cases hr
          right; intro p c hc; cases hc; exact ⟨rfl, d, rfl⟩
        · rename_i he
          split <;> intro hr <;> cases hr
          right; intro p c hc; cases hc
          rcases hact with h | ⟨w, h⟩
          · exact absurd (Cell.isEmpty_iff.2 h.1) he
          · exact hau k f w h
      | erase k =>
        simp only [actStep, casStep]
        split <;> intro hr <;> cases hr
        right; intro p c hc; cases hc
      | eraseIf k d =>
        simp only [actStep, casStep]
        split <;> intro hr <;> cases hr
        right; intro p c hc; cases hc
    · intro hr; cases hr

/-- What the words of a returned element show. -/
theorem shown_enc {m : Bool} {b : Nat} (hb : 1 ≤ b) {k : Nat} (hk : LegalKey m b k) {r : Ret Nat V}
    (h : ∀ p c, r.it = some (p, c) → c.marked = false ∧ ∃ v, c.c = .live k v) :
    (encRet b r).shown m b = r.shown.map fun v => (k, v) := by
  cases hi : r.it with
  | none => simp [WRet.shown, encRet, Ret.shown, hi]
  | some pc =>
    obtain ⟨p, c⟩ := pc
    obtain ⟨hm, v, hv⟩ := h p c hi
    have hc : LegalCell m b c :=
      ⟨fun h => (by rw [hm] at h; cases h), fun k' v' h => (by rw [hv] at h; cases h; exact hk)⟩
    have h1 := (layout_faithful hb hc).2.2.2.2.2 k v hv
    have h2 : c.mapped = v := by simp [Cell.mapped, hv]
    simp only [WRet.shown, encRet, hi, Ret.shown, Option.map_some, h1, Option.bind_some]
    simp [Cell.val?, hv, encode, h2]

/-- What is legal for cells is legal for their words. -/
theorem legal_enc {m : Bool} {b : Nat} {op : Op Nat V} {r : Ret Nat V}
    (hl : ((∃ k d, op = .insert k d) ∧ r.ok op = true) ∨
      (encRet b r).shown m b = r.shown.map fun v => (op.key, v)) {d d' : Dict Nat V}
    (h : (boundedObj m).legal d op r d') : (wordObj m b).legal d op (encRet b r) d' := by
  rcases h with ⟨h1, h2, h3⟩ | ⟨c, h1, h2, h3, h4⟩
  · refine .inl ⟨h1, by rw [encRet_ok]; exact h2, ?_⟩
    rw [encRet_ok]
    rcases h3 with h3 | h3
    · exact .inl h3
    · rcases hl with hl | hl
      · exact .inl hl
      · exact .inr (by rw [hl, h3])
  · exact .inr ⟨c, h1, by rw [h2]; rfl, h3, h4⟩

/-- Proof, no code. -/
def encPh (b : Nat) : Phase (Op Nat V) (Ret Nat V) → Phase (Op Nat V) (WRet V)
  | .idle => .idle
  | .called o => .called o
  | .effected o r => .effected o (encRet b r)

theorem wf_enc {b : Nat} {p q : T → Phase (Op Nat V) (Ret Nat V)} {l : List (TEv T Nat V)} (h : WellFormed p l q) :
    WellFormed (fun i => encPh b (p i)) (l.map (encEv b)) (fun i => encPh b (q i)) := by
  induction h with
  | nil => exact .nil _
  | call h hq hf _ ih =>
    exact .call (by rw [h]; rfl) (by rw [hq]; rfl) (fun j hj => by rw [hf j hj]) ih
  | lin h hq hf _ ih =>
    exact .lin (by rw [h]; rfl) (by rw [hq]; rfl) (fun j hj => by rw [hf j hj]) ih
  | ret h hq hf _ ih =>
    exact .ret (by rw [h]; rfl) (by rw [hq]; rfl) (fun j hj => by rw [hf j hj]) ih

/-- The effects of an execution, as words, are legal. -/
theorem effects_enc {b : Nat} (hb : 1 ≤ b) {E : Env Nat} (hE : E.OK) {ok : Op Nat V → Prop} (hmix : Mix E.m ok)
    (hok : Legals E.m b ok) {l : List (TEv T Nat V)} {s : CSt T Nat V} (h : Exec (CStep E ok) CSt.init l s) :
    ∃ d, Legal (wordObj E.m b) (fun _ => none) (effects (l.map (encEv b))) d ∧ Stores E s.tbl d := by
  induction h with
  | init => exact ⟨_, .nil _, Stores.emptyTbl E⟩
  | @silent l s s' h hs ih =>
    obtain ⟨d, hl, hd⟩ := ih
    have hsame := nonlin_same hE (CInv.reach hE hmix h) hs (by simp)
    exact ⟨d, hl, by rw [hsame]; exact hd⟩
  | @vis l s s' e h hs ih =>
    obtain ⟨d, hl, hd⟩ := ih
    have hI := CInv.reach hE hmix h
    rw [List.map_append, effects_append]
    cases e with
    | lin i op r =>
      obtain ⟨d', hd', hleg⟩ := lin_legal hE hI hs hd
      refine ⟨d', hl.append (.cons (legal_enc ?_ hleg) (.nil _)), hd'⟩
      cases hs with
      | @done _ _ pc t' _ hi hst =>
        have hti := hI.thr i
        rw [hi] at hti
        obtain ⟨ho, hpc, -⟩ := hti
        rcases ret_live hI.nomarks hpc hst (hmix.safe op ho) with h' | h'
        · exact .inl h'
        · exact .inr (shown_enc hb (hok op ho) h')
    | call i op =>
      have hsame := nonlin_same hE hI hs (by simp)
      exact ⟨d, by simpa [effects, encEv] using hl, by rw [hsame]; exact hd⟩
    | ret i op r =>
      have hsame := nonlin_same hE hI hs (by simp)
      exact ⟨d, by simpa [effects, encEv] using hl, by rw [hsame]; exact hd⟩

/-- **Every history on words is linearizable.** -/
theorem linearizable_words {b : Nat} (hb : 1 ≤ b) {E : Env Nat} (hE : E.OK) {ok : Op Nat V → Prop}
    (hmix : Mix E.m ok) (hok : Legals E.m b ok) {l : List (WEv T V)} {s : WSt T V}
    (h : Exec (WStep true b E ok) WSt.init l s) : Linearizable (wordObj E.m b) (visible l) := by
  obtain ⟨l', s', hx, hl, -, -, -⟩ := sim hb hE hmix hok h
  obtain ⟨hw, -, -, -⟩ := exec_explained hE hmix hx
  obtain ⟨d, hleg, -⟩ := effects_enc hb hE hmix hok hx
  rw [hl]
  exact ⟨_, _, d, rfl, wf_enc hw, hleg⟩

end
end Words
end Growt
