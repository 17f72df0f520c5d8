import Verif.SyncInv
import Verif.AsyncStep

/-!
# Range iterators of growing tables

`range(rstart, rend)` and `crange` of a handle (`migration_table.hpp:434-448`) call `execute`
(`migration_table.hpp:327-350`): `get_table`, `range` of the base table (`base_linear.hpp:522-534`),
`rls_table`.  The result is an iterator of the base table (`migration_table.hpp:430-431`), i.e. two pointers
into its slots (`base_linear_iterator.hpp:294-297`).  `operator++` (`base_linear_iterator.hpp:232-243`) loads
slots through these pointers, without a call of `get_table`.

The protocols of `estrat_sync.hpp` and `estrat_async.hpp` with the range iterators that the threads keep: the
table object, identified by its address and its version (an address can be used again).
-/

set_option linter.unusedSectionVars false

namespace Growt
namespace Sync
section
variable {T A : Type} [DecidableEq T] [DecidableEq A]

/-- The protocol, and for each thread the table into which its range iterator points.
(`migration_table.hpp:434-448`) -/
structure RSt (T A : Type) where
  s : St T A
  it : T → Option (A × Nat)

/-- Steps: of the protocol; `range` in an operation (`migration_table.hpp:434-440`). -/
inductive RStep : RSt T A → Option (Lbl T A) → RSt T A → Prop where
  | run {x : RSt T A} {l : Lbl T A} {s' : St T A} (hs : Step false x.s l s') : RStep x (some l) ⟨s', x.it⟩
  | range {x : RSt T A} {t : T} {h : Hd} {a : A} {v : Nat} (hp : x.s.pc t = .op h a v) :
      RStep x none ⟨x.s, upd x.it t (some (a, v))⟩

/-- Reachable states, from a new table without iterators (`estrat_sync.hpp:186-192`). -/
inductive RReach (a : A) (n : Nat) : RSt T A → Prop where
  | init : RReach a n ⟨St.init a n, fun _ => none⟩
  | step {x x' : RSt T A} {l : Option (Lbl T A)} (h : RReach a n x) (hs : RStep x l x') : RReach a n x'

theorem RReach.inv {a : A} {n : Nat} {x : RSt T A} (h : RReach a n x) : SInv x.s := by
  have key : Reach false a n x.s := by
    induction h with
    | init => exact Reach.init
    | step _ hs ih =>
      cases hs with
      | run hs => exact ih.step hs
      | range _ => exact ih
  exact key.inv

/-- The end of a growth step: the new table is published (`estrat_sync.hpp:364`). -/
def Lbl.publishes : Lbl T A → Bool
  | .publish _ _ _ => true
  | _ => false

/-- The table of the highest complete version: `_table` without its mark, and the table being replaced while
`_table` is null (`estrat_sync.hpp:352-364`). -/
def St.curTab (s : St T A) : Option A :=
  match s.phase with
  | .quiet | .begun => match s.table with
    | .clear a => some a
    | _ => none
  | p => p.old

/-- Its version is `cap`, and it exists. -/
theorem SInv.curTab {s : St T A} (hI : SInv s) :
    ∃ a o, s.curTab = some a ∧ s.heap a = some o ∧ (o.ver : Int) = s.cap := by
  have hg := hI.glob
  unfold Glob at hg
  unfold St.curTab St.cap
  cases hp : s.phase <;> rw [hp] at hg <;> simp only at hg ⊢
  · obtain ⟨a, o, h1, h2, -, h3⟩ := hg
    exact ⟨a, o, by rw [h1], h2, h3.symm⟩
  · obtain ⟨a, o, h1, h2, -, h3⟩ := hg
    exact ⟨a, o, by rw [h1], h2, h3.symm⟩
  · obtain ⟨-, h1, o, h2, h3, -⟩ := hg
    exact ⟨_, o, rfl, h2, by rw [h1, h3]⟩
  all_goals
    obtain ⟨-, h1, -, ⟨o, h2, h3, -⟩, -⟩ := hg
    exact ⟨_, o, rfl, h2, by rw [h1, h3]⟩

/-- Only the publication of a table changes the current table. -/
theorem curTab_step {s s' : St T A} {l : Lbl T A} (hI : SInv s) (hs : Step false s l s')
    (hl : l.publishes = false) : s'.curTab = s.curTab ∧ s'.cap = s.cap := by
  have core := hI.core
  have glob := hI.glob
  have keep : ∀ {p : Phase A} {s' : St T A}, s.phase = p → (∀ h : s.phase = p, s'.curTab = s.curTab) →
      (∀ h : s.phase = p, s'.cap = s.cap) → s'.curTab = s.curTab ∧ s'.cap = s.cap :=
    fun h h1 h2 => ⟨h1 h, h2 h⟩
  cases hs
  all_goals first
    | exact ⟨rfl, rfl⟩
    | skip
  case grCas t h v e hp hv he =>
    have hc := core t
    rw [hp] at hc
    have hc : (v : Int) ≤ s.cap := hc
    have hq : s.phase = .quiet := by
      cases hq : s.phase <;> first
        | rfl
        | (exfalso; unfold St.cap at hc; rw [hq] at hc; simp only at hc; omega)
    refine ⟨?_, ?_⟩
    · simp only [St.curTab, hq]
      rfl
    · simp only [St.cap, hq] at hc ⊢
      omega
  case grMark t h a v hp ht =>
    have hc := core t
    rw [hp] at hc
    obtain ⟨hq, -, -⟩ : s.phase = .begun ∧ _ := hc
    refine ⟨?_, ?_⟩
    · simp only [St.curTab, hq, ht]
      rfl
    · simp only [St.cap, hq]
      rfl
  case grPublish t h a b v hp => cases hl
  case mgNone t h c hp ht =>
    have hc := core t
    rw [hp] at hc
    cases c with
    | help => exact ⟨rfl, rfl⟩
    | grow a v b =>
      have hq : s.phase = .migrating a v b := hc a v b rfl
      refine ⟨?_, ?_⟩
      · simp only [St.curTab, hq]
        rfl
      · simp only [St.cap, hq]
        rfl
  case mgEnd t h c a b v o hp ho hv =>
    have hc := core t
    rw [hp] at hc
    cases c with
    | help => exact ⟨rfl, rfl⟩
    | grow a' v' b' =>
      have hq : s.phase = .migrating a' v' b' := (hc a' v' b' rfl).1
      refine ⟨?_, ?_⟩
      · simp only [St.curTab, hq]
        rfl
      · simp only [St.cap, hq]
        rfl
  case grMake t h a b v o n hp ho hb =>
    have hc := core t
    rw [hp] at hc
    exact keep (show s.phase = .marked a v from hc)
      (fun h => by simp only [St.curTab, h]; rfl) (fun h => by simp only [St.cap, h]; rfl)
  case grOps t h a b v hp =>
    have hc := core t
    rw [hp] at hc
    exact keep (show s.phase = .made a v b from hc)
      (fun h => by simp only [St.curTab, h]; rfl) (fun h => by simp only [St.cap, h]; rfl)
  case grOpsNext t h a b v n j hp hj ho =>
    have hc := core t
    rw [hp] at hc
    exact keep (show s.phase = .waitOps a v b n j from hc)
      (fun h => by simp only [St.curTab, h]; rfl) (fun h => by simp only [St.cap, h]; rfl)
  case grOpsEnd t h a b v n j hp hj =>
    have hc := core t
    rw [hp] at hc
    exact keep (show s.phase = .waitOps a v b n j from hc)
      (fun h => by simp only [St.curTab, h]; rfl) (fun h => by simp only [St.cap, h]; rfl)
  case grNext t h a b v o hp ho =>
    have hc := core t
    rw [hp] at hc
    exact keep (show s.phase = .ready a v b from hc)
      (fun h => by simp only [St.curTab, h]; rfl) (fun h => by simp only [St.cap, h]; rfl)
  case grNull t h a b v hp =>
    have hc := core t
    rw [hp] at hc
    exact keep (show s.phase = .drained a v b from hc)
      (fun h => by simp only [St.curTab, h]; rfl) (fun h => by simp only [St.cap, h]; rfl)
  case grMig t h a b v hp =>
    have hc := core t
    rw [hp] at hc
    exact keep (show s.phase = .nulled a v b from hc)
      (fun h => by simp only [St.curTab, h]; rfl) (fun h => by simp only [St.cap, h]; rfl)
  case grMigNext t h a b v n j hp hj ho =>
    have hc := core t
    rw [hp] at hc
    exact keep (show s.phase = .waitMig a v b n j from hc)
      (fun h => by simp only [St.curTab, h]; rfl) (fun h => by simp only [St.cap, h]; rfl)
  case grMigEnd t h a b v n j hp hj =>
    have hc := core t
    rw [hp] at hc
    exact keep (show s.phase = .waitMig a v b n j from hc)
      (fun h => by simp only [St.curTab, h]; rfl) (fun h => by simp only [St.cap, h]; rfl)

/-- An operation runs on the current table. -/
theorem SInv.op_curTab {s : St T A} (hI : SInv s) {t : T} {h : Hd} {a : A} {v : Nat}
    (hp : s.pc t = .op h a v) : s.curTab = some a ∧ (v : Int) = s.cap := by
  have hc := hI.core t
  rw [hp] at hc
  obtain ⟨⟨o, ho, hv⟩, hok, -⟩ := hc
  have hg := hI.glob
  have hcur : s.curTab = some a := by
    unfold Glob at hg
    unfold St.opOK at hok
    unfold St.curTab
    cases hq : s.phase <;> rw [hq] at hg hok <;> simp only at hg hok ⊢
    all_goals first
      | (obtain ⟨b, ob, h1, -⟩ := hg
         rcases hok with h2 | h2
         · rw [h2]
         · rw [h1] at h2; cases h2.1)
      | (have h1 := hg.1
         rcases hok with h2 | h2
         · rw [h1] at h2; cases h2
         · have h3 := h1.symm.trans h2.1
           cases h3 <;> rfl)
  obtain ⟨b, ob, h1, h2, h3⟩ := hI.curTab
  rw [hcur] at h1
  cases h1
  rw [ho] at h2
  cases h2
  exact ⟨hcur, by rw [← hv]; exact h3⟩

end
end Sync

namespace Async
section
variable {T A : Type} [DecidableEq T] [DecidableEq A]

/-- The protocol, and for each thread the table into which its range iterator points.
(`migration_table.hpp:434-448`) -/
structure RSt (T A : Type) where
  s : St T A
  it : T → Option (A × Nat)

/-- Steps: of the protocol; `range` in an operation (`migration_table.hpp:434-440`). -/
inductive RStep : RSt T A → RSt T A → Prop where
  | run {x : RSt T A} {l : Lab T A} {s' : St T A} (hs : Step x.s l s') : RStep x ⟨s', x.it⟩
  | range {x : RSt T A} {t : T} {h : Hd A} {o : Obj A} (hp : x.s.pc t = .use h)
      (ho : x.s.heap h.tab = some o) : RStep x ⟨x.s, upd x.it t (some (h.tab, o.ver))⟩

/-- Reachable states, from a new table without iterators (`estrat_async.hpp:109-115`). -/
inductive RReach (a : A) (n : Nat) : RSt T A → Prop where
  | init : RReach a n ⟨St.init a n, fun _ => none⟩
  | step {x x' : RSt T A} (h : RReach a n x) (hs : RStep x x') : RReach a n x'

theorem RReach.inv {a : A} {n : Nat} {x : RSt T A} (h : RReach a n x) : Inv x.s := by
  induction h with
  | init => exact Inv.init a n
  | step _ hs ih =>
    cases hs with
    | run hs => exact ih.step hs
    | range _ _ => exact ih

end
end Async
end Growt
