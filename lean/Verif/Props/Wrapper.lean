import Verif.WrapperInv
import Verif.Props.Geometry
import Verif.Props.AsyncRun

/-!
# C76: the wrappers around other tables

`wrapper/` gives five tables of other libraries the calls of the tables here, so that the benchmarks can use them.
What a wrapper answers should be what an ideal map answers, whatever other threads do meanwhile.
-/

set_option linter.unusedSectionVars false

namespace Growt
namespace Wrap

/-- `Increment` by one (`example/update_fcts.hpp:12-26`). -/
def bump : Nat → Nat × Nat := fun w => (w + 1, w + 1)

/-! ## folly, tbb_um -/

section
variable {T K V : Type} [DecidableEq T] [DecidableEq K] [DecidableEq V]

/-- **C76** (folly, tbb_um): every execution is linearizable, also with updates that hold a reference to an
element while another thread erases it — they count as done before.  The wrapper around
`tbb::concurrent_unordered_map`, whose `erase` is not implemented, must not be asked to erase. -/
theorem C76_references_linearizable_partial {er : Bool} {adm : SOp K V → Prop}
    (her : ∀ k, adm (.erase k) → er = true) {v : V} {h : List (Ev T (SOp K V) Seen)} {s : RSt T K V}
    (hx : Exec (RStep er adm) (RSt.init v) h s) : Linearizable seenObj h :=
  (ref_exec her hx).linearizable

/-- **C76** (folly, tbb_um): when all calls have returned, what the threads can find in the library's table is a map
that the ideal map can hold after the same history. -/
theorem C76_references_content {er : Bool} {adm : SOp K V → Prop} (her : ∀ k, adm (.erase k) → er = true) {v : V}
    {h : List (Ev T (SOp K V) Seen)} {s : RSt T K V} (hx : Exec (RStep er adm) (RSt.init v) h s) :
    ∃ l p, visible l = h ∧ WellFormed (fun _ => .idle) l p ∧
      Legal seenObj seenObj.init (effects l) (fun k => (s.idx k).map s.val) := by
  obtain ⟨l, p, d, h1, h2, h3, h4⟩ := ref_exec her hx
  refine ⟨l, p, h1, h2, ?_⟩
  rwa [← (funext h4.abs : d = fun k => (s.idx k).map s.val)]

/-- **C76 (violated by the code)**: the wrapper around `tbb::concurrent_unordered_map` answers 0 when asked to erase
a key that is there. -/
theorem C76_um_erase_violated (i : T) (k : K) (v w : V) :
    (∃ s : RSt T K V, Exec (RStep false fun _ => True) (RSt.init w)
      [.call i (.insert k v), .ret i (.insert k v) ⟨true, true⟩, .call i (.erase k), .ret i (.erase k) ⟨false, false⟩] s) ∧
    ¬ Linearizable (T := T) seenObj
      [.call i (.insert k v), .ret i (.insert k v) ⟨true, true⟩, .call i (.erase k), .ret i (.erase k) ⟨false, false⟩] := by
  constructor
  · have e0 : Exec (RStep false fun _ => True) (RSt.init w : RSt T K V) [] _ := .init
    have e1 := e0.vis (.call (i := i) (o := .insert k v) rfl trivial rfl)
    have e2 := e1.silent (.insNew (i := i) (k := k) (d := v) (setAt_same _ _ _) rfl)
    have e3 := e2.vis (.ret (i := i) (setAt_same _ _ _))
    have e4 := e3.vis (.call (i := i) (o := .erase k) (setAt_same _ _ _) trivial rfl)
    have e5 := e4.silent (.eraseNot (i := i) (k := k) rfl (setAt_same _ _ _))
    exact ⟨_, e5.vis (.ret (i := i) (setAt_same _ _ _))⟩
  · apply not_linearizable
    refine NoLin.solo (fun _ => rfl) (fun d1 h1 => ?_)
    refine NoLin.solo (fun _ => rfl) (fun d2 h2 => ?_)
    exfalso
    obtain ⟨rfl, -⟩ := h1
    obtain ⟨-, h2⟩ := h2
    simp [seenObj, SOp.sem, Dict.put, seen] at h2

/-- Non-vacuity: thread 0 has a reference to the element of key 1 when thread 1 erases it; the update is done
afterwards, and both calls report success. -/
theorem C76_references_not_vacuous :
    ∃ s : RSt Nat Nat Nat, Exec (RStep true fun _ => True) (RSt.init 0)
      [.call 0 (.insert 1 5), .ret 0 (.insert 1 5) ⟨true, true⟩, .call 0 (.modify 1 bump), .call 1 (.erase 1),
        .ret 1 (.erase 1) ⟨true, false⟩, .ret 0 (.modify 1 bump) ⟨true, true⟩] s ∧ s.idx 1 = none := by
  have e0 : Exec (RStep true fun _ => True) (RSt.init 0 : RSt Nat Nat Nat) [] _ := .init
  have e1 := e0.vis (.call (i := 0) (o := .insert 1 5) rfl trivial rfl)
  have e2 := e1.silent (.insNew (i := 0) (k := 1) (d := 5) rfl rfl)
  have e3 := e2.vis (.ret (i := 0) rfl)
  have e4 := e3.vis (.call (i := 0) (o := .modify 1 bump) rfl trivial rfl)
  have e5 := e4.silent (.updFound (i := 0) (e := 0) rfl rfl)
  have e6 := e5.vis (.call (i := 1) (o := .erase 1) rfl trivial rfl)
  have e7 := e6.silent (.erase (i := 1) (e := 0) rfl rfl rfl)
  have e8 := e7.vis (.ret (i := 1) rfl)
  have e9 := e8.silent (.apply (i := 0) rfl)
  exact ⟨_, e9.vis (.ret (i := 0) rfl), rfl⟩

/-! ## tbb_hm -/

/-- **C76** (tbb_hm): every execution is linearizable, if no call is about the default key `k0`, which stands for
`end()`.  An element made by an insertion is not visible before it has its value, as its lock is held. -/
theorem C76_locked_linearizable_partial {k0 : K} {v0 : V} {adm : SOp K V → Prop} (hadm : ∀ o, adm o → o.key ≠ k0)
    {h : List (Ev T (SOp K V) (SRes V))} {s : HSt T K V} (hx : Exec (HStep k0 v0 adm) HSt.init h s) :
    Linearizable mapObj h :=
  (hm_exec hadm hx).linearizable

/-- **C76 (violated by the code)**: the answer to a successful insertion of the default key is `end()`, and so is
the answer to the search for it. -/
theorem C76_default_key_violated (i : T) (k0 : K) (v v0 : V) :
    (∃ s : HSt T K V, Exec (HStep k0 v0 fun _ => True) HSt.init
      [.call i (.insert k0 v), .ret i (.insert k0 v) ⟨true, none⟩, .call i (.find k0), .ret i (.find k0) ⟨false, none⟩] s) ∧
    ¬ Linearizable (T := T) mapObj
      [.call i (.insert k0 v), .ret i (.insert k0 v) ⟨true, none⟩, .call i (.find k0), .ret i (.find k0) ⟨false, none⟩] := by
  constructor
  · have e0 : Exec (HStep k0 v0 fun _ => True) (HSt.init : HSt T K V) [] _ := .init
    have e1 := e0.vis (.call (i := i) (o := .insert k0 v) rfl trivial rfl)
    have e2 := e1.silent (.made (i := i) (o := .insert k0 v) (setAt_same _ _ _) rfl rfl)
    have e3 := e2.silent (.body (i := i) (v := v0) (setAt_same _ _ _) (setAt_same _ _ _))
    have e4 := e3.vis (.ret (i := i) (setAt_same _ _ _))
    have e5 := e4.vis (.call (i := i) (o := .find k0) (setAt_same _ _ _) trivial rfl)
    have e6 := e5.silent (.found (i := i) (o := .find k0) (v := v) (setAt_same _ _ _) rfl (setAt_same _ _ _)
      (setAt_same _ _ _))
    have e7 := e6.silent (.body (i := i) (v := v) (setAt_same _ _ _) (setAt_same _ _ _))
    have e8 := e7.vis (.ret (i := i) (setAt_same _ _ _))
    have s1 : ∀ x : V, shown k0 k0 x = none := fun x => if_pos rfl
    simp only [hmBody, s1] at e8
    exact ⟨_, e8⟩
  · apply not_linearizable
    refine NoLin.solo (fun _ => rfl) (fun d1 h1 => ?_)
    exfalso
    simp [mapObj, SOp.sem] at h1

/-- Non-vacuity: thread 1 searches for a key while thread 0 has made its element and not yet stored the value; it
waits for the lock and gets the value. -/
theorem C76_locked_not_vacuous :
    ∃ s : HSt Nat Nat Nat, Exec (HStep 0 0 fun o => o.key ≠ 0) HSt.init
      [.call 0 (.insert 1 5), .call 1 (.find 1), .ret 0 (.insert 1 5) ⟨true, some 5⟩, .ret 1 (.find 1) ⟨true, some 5⟩] s := by
  have e0 : Exec (HStep 0 0 fun o => o.key ≠ 0) (HSt.init : HSt Nat Nat Nat) [] _ := .init
  have e1 := e0.vis (.call (i := 0) (o := .insert 1 5) rfl (by decide) rfl)
  have e2 := e1.silent (.made (i := 0) (o := .insert 1 5) rfl rfl rfl)
  have e3 := e2.vis (.call (i := 1) (o := .find 1) rfl (by decide) rfl)
  have e4 := e3.silent (.body (i := 0) (v := 0) rfl rfl)
  have e5 := e4.silent (.found (i := 1) (o := .find 1) (v := 5) rfl rfl rfl rfl)
  have e6 := e5.vis (.ret (i := 0) rfl)
  have e7 := e6.silent (.body (i := 1) (v := 5) rfl rfl)
  exact ⟨_, e7.vis (.ret (i := 1) rfl)⟩

end

/-! ## libcuckoo -/

/-- **C76** (cuckoo): a call changes the map as it should; `insert`, `update` and `erase` tell whether they
have; and `find` is right for keys and values other than 0.  (Every call is one atomic call of the library.) -/
theorem C76_cuckoo_partial (o : SOp Nat Nat) (d : Dict Nat Nat) (ho : offered o = true) :
    (cuckoo o d).1 = (o.sem d).1 ∧
    ((∀ k v, o = .insert k v → (cuckoo o d).2.ok = (o.sem d).2.ok) ∧
     (∀ k g, o = .modify k g → (cuckoo o d).2.ok = (o.sem d).2.ok) ∧
     (∀ k, o = .erase k → (cuckoo o d).2 = (o.sem d).2) ∧
     ∀ k, o = .find k → k ≠ 0 → d k ≠ some 0 → (cuckoo o d).2 = (o.sem d).2) := by
  cases o with
  | find k =>
    refine ⟨rfl, by nofun, by nofun, by nofun, fun k' hk h0 hv => ?_⟩
    cases hk
    cases hd : d k with
    | none => simp [cuckoo, SOp.sem, hd, shown]
    | some w =>
      have : w ≠ 0 := by rintro rfl; exact hv hd
      simp [cuckoo, SOp.sem, hd, shown, this, h0]
  | insert k v =>
    refine ⟨?_, fun _ _ _ => ?_, by nofun, by nofun, by nofun⟩ <;> cases hd : d k <;> simp [cuckoo, SOp.sem, hd]
  | modify k g =>
    refine ⟨?_, by nofun, fun _ _ _ => ?_, by nofun, by nofun⟩ <;> cases hd : d k <;> simp [cuckoo, SOp.sem, hd]
  | insertOrModify k v g =>
    refine ⟨?_, by nofun, by nofun, by nofun, by nofun⟩
    cases hd : d k <;> simp [cuckoo, SOp.sem, hd]
  | erase k =>
    refine ⟨?_, by nofun, by nofun, fun _ _ => ?_, by nofun⟩ <;> cases hd : d k <;> simp [cuckoo, SOp.sem, hd]
  | eraseIf k c => cases ho

/-- **C76 (violated by the code)** (cuckoo): an element with the value 0 is not found; `insert_or_update` says
"inserted" when it has updated; `update` of an absent key shows an element, and of a present one shows 0; a refused
`insert` shows the value that was refused. -/
theorem C76_cuckoo_violated (d : Dict Nat Nat) {k : Nat} (hk : k ≠ 0) :
    (d k = some 0 → (cuckoo (.find k) d).2 ≠ ((SOp.find k).sem d).2) ∧
    (∀ w v g, d k = some w → (cuckoo (.insertOrModify k v g) d).2.ok ≠ ((SOp.insertOrModify k v g).sem d).2.ok) ∧
    (∀ g, d k = none → (cuckoo (.modify k g) d).2.shown = some 0 ∧ ((SOp.modify k g).sem d).2.shown = none) ∧
    (∀ w g, d k = some w → (cuckoo (.modify k g) d).2.shown = some 0 ∧ ((SOp.modify k g).sem d).2.shown = some (g w).2) ∧
    ∀ w v, d k = some w → (cuckoo (.insert k v) d).2.shown = some v ∧ ((SOp.insert k v).sem d).2.shown = some w := by
  refine ⟨fun h => ?_, fun w v g h => ?_, fun g h => ?_, fun w g h => ?_, fun w v h => ?_⟩ <;>
    simp [cuckoo, SOp.sem, h, shown, hk]

example : ∃ (d : Dict Nat Nat) (k : Nat), k ≠ 0 ∧ d k = some 0 := ⟨fun _ => some 0, 1, by decide, rfl⟩
example : ∃ (d : Dict Nat Nat) (k : Nat), k ≠ 0 ∧ d k ≠ some 0 ∧ d k ≠ none := ⟨fun _ => some 7, 1, by decide⟩

/-! ## junction -/

section
variable {T : Type} [DecidableEq T]

/-- **C76** (junction): executions in which no two threads are in changing calls of the same key at a time are
linearizable, for keys and values other than 0 and update functions that are declared compatible, return the new value
and never make it 0. -/
theorem C76_junction_linearizable_partial {comp : (Nat → Nat × Nat) → Bool}
    {h : List (Ev T (SOp Nat Nat) (SRes Nat))} {s : JSt T} (hx : Exec (JStep true comp (jAdm comp)) JSt.init h s) :
    Linearizable mapObj h :=
  (junction_exec hx).linearizable

theorem NoLin.stuck {O R D : Type} {S : Obj O R D} {p : T → Phase O R} {i : T} {o o' : O} {r r' : R} {d : D}
    (hp : p i = .effected o' r') (hne : r' ≠ r) {a b : List (Ev T O R)}
    (ha : ∀ e ∈ a, (∀ o, e ≠ .call i o) ∧ ∀ o r, e ≠ .ret i o r) : NoLin S p d (a ++ .ret i o r :: b) := by
  intro l q d' hw hl0 hv
  clear hl0 d d'
  induction hw generalizing a with
  | nil => cases a <;> simp [visible] at hv
  | @call p q p' j o1 l h hq hf hl ih =>
    cases a with
    | nil => simp [visible] at hv
    | cons e a =>
      simp only [visible, List.cons_append, List.cons.injEq] at hv
      obtain ⟨rfl, hv⟩ := hv
      have hij : i ≠ j := by rintro rfl; exact (ha _ (List.mem_cons_self ..)).1 _ rfl
      exact ih (by rw [hf _ hij]; exact hp) (fun e he => ha e (List.mem_cons_of_mem _ he)) hv
  | @lin p q p' j o1 r1 l h hq hf hl ih =>
    have hij : i ≠ j := by rintro rfl; rw [hp] at h; cases h
    exact ih (by rw [hf _ hij]; exact hp) ha hv
  | @ret p q p' j o1 r1 l h hq hf hl ih =>
    cases a with
    | nil =>
      simp only [visible, List.nil_append, List.cons.injEq, Ev.ret.injEq] at hv
      obtain ⟨⟨rfl, rfl, rfl⟩, -⟩ := hv
      rw [hp] at h; cases h
      exact hne rfl
    | cons e a =>
      simp only [visible, List.cons_append, List.cons.injEq] at hv
      obtain ⟨rfl, hv⟩ := hv
      have hij : i ≠ j := by rintro rfl; exact (ha _ (List.mem_cons_self ..)).2 _ _ rfl
      exact ih (by rw [hf _ hij]; exact hp) (fun e he => ha e (List.mem_cons_of_mem _ he)) hv

/-- Two calls at the same time, neither order of which explains the answers. -/
theorem NoLin.duo {O R D : Type} [DecidableEq R] {S : Obj O R D} {p : T → Phase O R} (hp : ∀ j, p j = .idle) {d : D}
    {i j : T} (hij : i ≠ j) {o o' : O} {r r' : R} (h1 : ∀ d1 d2, S.legal d o r d1 → ¬ S.legal d1 o' r' d2)
    (h2 : ∀ d1 d2, S.legal d o' r' d1 → ¬ S.legal d1 o r d2) :
    NoLin S p d [.call i o, .call j o', .ret i o r, .ret j o' r'] := by
  have evs : ∀ e ∈ ([.ret i o r] : List (Ev T O R)), (∀ o, e ≠ .call j o) ∧ ∀ o r, e ≠ .ret j o r := by
    intro e he
    rw [List.mem_singleton.1 he]
    exact ⟨nofun, fun _ _ h => by cases h; exact hij rfl⟩
  -- both have begun, the first has had its effect
  have A : ∀ d1, S.legal d o r d1 → ∀ q : T → Phase O R, q i = .effected o r → q j = .called o' →
      (∀ k, k ≠ i → k ≠ j → q k = .idle) → NoLin S q d1 [.ret i o r, .ret j o' r'] := by
    intro d1 hl q qi qj qk
    refine NoLin.ret (fun _ => NoLin.ret (fun hh => ?_) fun k o2 r2 d2 hk hl2 => ?_) fun k o2 r2 d2 hk hl2 => ?_
    · rw [setAt_other (Ne.symm hij), qj] at hh; cases hh
    · have : k = j := by
        refine Decidable.byContradiction fun hkj => ?_
        by_cases hki : k = i
        · subst hki; simp at hk
        · rw [setAt_other hki, qk k hki hkj] at hk; cases hk
      subst this
      rw [setAt_other (Ne.symm hij), qj] at hk; cases hk
      by_cases hr : r2 = r'
      · subst hr; exact absurd hl2 (h1 _ _ hl)
      · exact NoLin.stuck (a := []) (setAt_same _ _ _) hr nofun
    · have : k = j := by
        refine Decidable.byContradiction fun hkj => ?_
        by_cases hki : k = i
        · subst hki; rw [qi] at hk; cases hk
        · rw [qk k hki hkj] at hk; cases hk
      subst this
      rw [qj] at hk; cases hk
      by_cases hr : r2 = r'
      · subst hr; exact absurd hl2 (h1 _ _ hl)
      · exact NoLin.stuck (a := [_]) (setAt_same _ _ _) hr evs
  refine NoLin.call (fun _ => ?_) (fun k o2 r2 d2 hk _ => by rw [hp] at hk; cases hk)
  refine NoLin.call (fun _ => ?_) (fun k o2 r2 d2 hk hl => ?_)
  · -- both have begun
    refine NoLin.ret (fun hh => ?_) (fun k o2 r2 d2 hk hl => ?_)
    · rw [setAt_other hij, setAt_same] at hh; cases hh
    · by_cases hki : k = i
      · subst hki
        rw [setAt_other hij, setAt_same] at hk; cases hk
        by_cases hr : r2 = r
        · subst hr
          refine A _ hl _ (setAt_same _ _ _) ?_ fun x hx hy => ?_
          · rw [setAt_other (Ne.symm hij), setAt_same]
          · rw [setAt_other hx, setAt_other hy, setAt_other hx, hp]
        · exact NoLin.stuck (a := []) (setAt_same _ _ _) hr nofun
      · have hkj : k = j := by
          refine Decidable.byContradiction fun hkj => ?_
          rw [setAt_other hkj, setAt_other hki, hp] at hk; cases hk
        subst hkj
        rw [setAt_same] at hk; cases hk
        by_cases hr : r2 = r'
        · subst hr
          refine NoLin.ret (fun hh => ?_) (fun x o3 r3 d3 hx hl3 => ?_)
          · rw [setAt_other hij, setAt_other hij, setAt_same] at hh; cases hh
          · have hxi : x = i := by
              refine Decidable.byContradiction fun hxi => ?_
              by_cases hxk : x = k
              · subst hxk; simp at hx
              · rw [setAt_other hxk, setAt_other hxk, setAt_other hxi, hp] at hx; cases hx
            subst hxi
            rw [setAt_other hij, setAt_other hij, setAt_same] at hx; cases hx
            by_cases hr3 : r3 = r
            · subst hr3; exact absurd hl3 (h2 _ _ hl)
            · exact NoLin.stuck (a := []) (setAt_same _ _ _) hr3 nofun
        · exact NoLin.stuck (a := [_]) (setAt_same _ _ _) hr evs
  · have hki : k = i := by
      refine Decidable.byContradiction fun hki => ?_
      rw [setAt_other hki, hp] at hk; cases hk
    subst hki
    rw [setAt_same] at hk; cases hk
    by_cases hr : r2 = r
    · subst hr
      refine NoLin.call (fun _ => ?_) (fun x o3 r3 d3 hx _ => ?_)
      · refine A _ hl _ ?_ (setAt_same _ _ _) fun x hx hy => ?_
        · rw [setAt_other hij, setAt_same]
        · rw [setAt_other hy, setAt_other hx, setAt_other hx, hp]
      · by_cases hxk : x = k
        · subst hxk; simp at hx
        · rw [setAt_other hxk, setAt_other hxk, hp] at hx; cases hx
    · refine NoLin.stuck (a := [_]) (setAt_same _ _ _) hr fun e he => ?_
      rw [List.mem_singleton.1 he]
      exact ⟨fun _ h => by cases h; exact hij rfl, nofun⟩

/-- **C76 (violated by the code)** (junction): two threads insert the same key at the same time and both are told that
they have inserted it. -/
theorem C76_junction_two_winners {comp : (Nat → Nat × Nat) → Bool} {i j : T} (hij : i ≠ j) {k v w : Nat} (hk : k ≠ 0)
    (hv : v ≠ 0) (hw : w ≠ 0) :
    (∃ s : JSt T, Exec (JStep false comp (jAdm comp)) JSt.init
      [.call i (.insert k v), .call j (.insert k w), .ret i (.insert k v) ⟨true, some v⟩, .ret j (.insert k w) ⟨true, some w⟩] s) ∧
    ¬ Linearizable (T := T) mapObj
      [.call i (.insert k v), .call j (.insert k w), .ret i (.insert k v) ⟨true, some v⟩, .ret j (.insert k w) ⟨true, some w⟩] := by
  constructor
  · have e0 : Exec (JStep false comp (jAdm comp)) (JSt.init : JSt T) [] _ := .init
    have e1 := e0.vis (.call (i := i) (o := .insert k v) rfl ⟨hk, hv⟩ rfl nofun)
    have e2 := e1.vis (.call (i := j) (o := .insert k w) (by show setAt _ i _ j = _; rw [setAt_other (Ne.symm hij)]; rfl) ⟨hk, hw⟩ rfl nofun)
    have e3 := e2.silent (.get (i := i) (o := .insert k v) (by show setAt (setAt _ i _) j _ i = _; rw [setAt_other hij, setAt_same]) rfl nofun)
    have e4 := e3.silent (.get (i := j) (o := .insert k w) (by show setAt (setAt _ j _) i _ j = _; rw [setAt_other (Ne.symm hij), setAt_same]) rfl nofun)
    have e5 := e4.silent (.exch (i := i) (o := .insert k v) (t := 0) (by show setAt (setAt _ i _) j _ i = _; rw [setAt_other hij, setAt_same]; rfl))
    have e6 := e5.silent (.exch (i := j) (o := .insert k w) (t := 0) (by show setAt (setAt _ j _) i _ j = _; rw [setAt_other (Ne.symm hij), setAt_same]; rfl))
    have e7 := e6.vis (.ret (i := i) (by show setAt (setAt _ i _) j _ i = _; rw [setAt_other hij, setAt_same]))
    have e8 := e7.vis (.ret (i := j) (by show setAt (setAt _ j _) i _ j = _; rw [setAt_other (Ne.symm hij), setAt_same]))
    simp only [jWrite, shown, if_neg hk] at e8
    exact ⟨_, e8⟩
  · apply not_linearizable
    refine NoLin.duo (fun _ => rfl) hij (fun d1 d2 h1 h2 => ?_) fun d1 d2 h1 h2 => ?_ <;>
    · simp only [mapObj, SOp.sem, Prod.mk.injEq] at h1
      obtain ⟨rfl, -⟩ := h1
      simp [mapObj, SOp.sem, Dict.put] at h2

/-- **C76 (violated by the code)** (junction): of two increments at the same time, one is lost. -/
theorem C76_junction_lost_update {comp : (Nat → Nat × Nat) → Bool} (hc : comp bump = true) {i j : T} (hij : i ≠ j) {k v : Nat}
    (hk : k ≠ 0) (hv : v ≠ 0) :
    (∃ s : JSt T, Exec (JStep false comp (jAdm comp)) JSt.init
      [.call i (.insert k v), .ret i (.insert k v) ⟨true, some v⟩, .call i (.modify k bump), .call j (.modify k bump),
        .ret i (.modify k bump) ⟨true, some (v + 1)⟩, .ret j (.modify k bump) ⟨true, some (v + 1)⟩] s ∧
      s.map k = v + 1) ∧
    ¬ Linearizable (T := T) mapObj
      [.call i (.insert k v), .ret i (.insert k v) ⟨true, some v⟩, .call i (.modify k bump), .call j (.modify k bump),
        .ret i (.modify k bump) ⟨true, some (v + 1)⟩, .ret j (.modify k bump) ⟨true, some (v + 1)⟩] := by
  have hadm : jAdm comp (.modify k bump) := ⟨hk, hc, fun w hw => ⟨by simp [bump], rfl⟩⟩
  have hsk : jSkip comp (.modify k bump) = false := by simp [jSkip, hc]
  constructor
  · have e0 : Exec (JStep false comp (jAdm comp)) (JSt.init : JSt T) [] _ := .init
    have a1 := e0.vis (.call (i := i) (o := .insert k v) rfl ⟨hk, hv⟩ rfl nofun)
    have a2 := a1.silent (.get (i := i) (o := .insert k v) (setAt_same _ _ _) rfl nofun)
    have a3 := a2.silent (.exch (i := i) (o := .insert k v) (t := 0) (setAt_same _ _ _))
    have a4 := a3.vis (.ret (i := i) (setAt_same _ _ _))
    simp only [jWrite, shown, if_neg hk] at a4
    have e1 := a4.vis (.call (i := i) (o := .modify k bump) (setAt_same _ _ _) hadm rfl nofun)
    have e2 := e1.vis (.call (i := j) (o := .modify k bump) (by
      show setAt (setAt (setAt (setAt (setAt _ i _) i _) i _) i _) i _ j = _
      simp only [setAt_other (Ne.symm hij)]; rfl) hadm rfl nofun)
    have r1 : jRead (.modify k bump) v = .read (.modify k bump) v := by simp [jRead, hv]
    have e3 := e2.silent (.get (i := i) (o := .modify k bump)
      (by show setAt (setAt _ i _) j _ i = _; rw [setAt_other hij, setAt_same]) hsk nofun)
    have e4 := e3.silent (.get (i := j) (o := .modify k bump)
      (by show setAt (setAt _ j _) i _ j = _; rw [setAt_other (Ne.symm hij), setAt_same]) hsk nofun)
    have m0 : ∀ x : Nat, setAt (fun _ => 0) k x k = x := fun x => setAt_same _ _ _
    have e5 := e4.silent (.exch (i := i) (o := .modify k bump) (t := v) (by
      show setAt (setAt _ i (jRead (.modify k bump) (setAt (fun _ => 0) k v k))) j _ i = _
      rw [setAt_other hij, setAt_same, m0, r1]))
    have e6 := e5.silent (.exch (i := j) (o := .modify k bump) (t := v) (by
      show setAt (setAt _ j (jRead (.modify k bump) (setAt (fun _ => 0) k v k))) i _ j = _
      rw [setAt_other (Ne.symm hij), setAt_same, m0, r1]))
    have e7 := e6.vis (.ret (i := i) (by show setAt (setAt _ i _) j _ i = _; rw [setAt_other hij, setAt_same]))
    have e8 := e7.vis (.ret (i := j) (by show setAt (setAt _ j _) i _ j = _; rw [setAt_other (Ne.symm hij), setAt_same]))
    simp only [jWrite, shown, if_neg hk, bump] at e8
    exact ⟨_, e8, setAt_same _ _ _⟩
  · apply not_linearizable
    refine NoLin.solo (fun _ => rfl) (fun d0 h0 => ?_)
    simp only [mapObj, SOp.sem, Prod.mk.injEq] at h0
    obtain ⟨rfl, -⟩ := h0
    refine NoLin.duo (fun _ => rfl) hij (fun d1 d2 h1 h2 => ?_) fun d1 d2 h1 h2 => ?_ <;>
    · simp only [mapObj, SOp.sem, Dict.put, if_true, Prod.mk.injEq] at h1
      obtain ⟨rfl, -⟩ := h1
      simp [mapObj, SOp.sem, Dict.put, bump] at h2

/-- **C76 (violated by the code)** (junction): a key inserted with the value 0 is not found; and an update function
that is not declared compatible is not called at all. -/
theorem C76_junction_ignored_violated (i : T) {comp : (Nat → Nat × Nat) → Bool} {g : Nat → Nat × Nat} (hg : comp g = false)
    {k v : Nat} (hk : k ≠ 0) :
    ((∃ s : JSt T, Exec (JStep true comp fun _ => True) JSt.init
      [.call i (.insert k 0), .ret i (.insert k 0) ⟨true, some 0⟩, .call i (.find k), .ret i (.find k) ⟨false, none⟩] s) ∧
     ¬ Linearizable (T := T) mapObj
      [.call i (.insert k 0), .ret i (.insert k 0) ⟨true, some 0⟩, .call i (.find k), .ret i (.find k) ⟨false, none⟩]) ∧
    (∃ s : JSt T, Exec (JStep true comp fun _ => True) JSt.init
      [.call i (.insertOrModify k v g), .ret i (.insertOrModify k v g) ⟨false, none⟩] s ∧ s.map = fun _ => 0) ∧
     ¬ Linearizable (T := T) mapObj
      [.call i (.insertOrModify k v g), .ret i (.insertOrModify k v g) ⟨false, none⟩] := by
  refine ⟨⟨?_, ?_⟩, ?_, ?_⟩
  · have e0 : Exec (JStep true comp fun _ => True) (JSt.init : JSt T) [] _ := .init
    have a1 := e0.vis (.call (i := i) (o := .insert k 0) rfl trivial rfl (by rintro - - j o' (h | ⟨t, h⟩) <;> cases h))
    have a2 := a1.silent (.get (i := i) (o := .insert k 0) (setAt_same _ _ _) rfl nofun)
    have a3 := a2.silent (.exch (i := i) (o := .insert k 0) (t := 0) (setAt_same _ _ _))
    have a4 := a3.vis (.ret (i := i) (setAt_same _ _ _))
    have a5 := a4.vis (.call (i := i) (o := .find k) (setAt_same _ _ _) trivial rfl nofun)
    have a6 := a5.silent (.get (i := i) (o := .find k) (setAt_same _ _ _) rfl nofun)
    have a7 := a6.vis (.ret (i := i) (o := .find k) (r := ⟨false, none⟩) (by
      show setAt _ i (jRead (.find k) (setAt (fun _ => 0) k 0 k)) i = _
      rw [setAt_same, setAt_same]; rfl))
    simp only [jWrite, shown, if_neg hk] at a7
    exact ⟨_, a7⟩
  · apply not_linearizable
    refine NoLin.solo (fun _ => rfl) (fun d1 h1 => ?_)
    refine NoLin.solo (fun _ => rfl) (fun d2 h2 => ?_)
    exfalso
    simp only [mapObj, SOp.sem, Prod.mk.injEq] at h1
    obtain ⟨rfl, -⟩ := h1
    simp [mapObj, SOp.sem, Dict.put] at h2
  · have e0 : Exec (JStep true comp fun _ => True) (JSt.init : JSt T) [] _ := .init
    have a1 := e0.vis (.call (i := i) (o := .insertOrModify k v g) rfl trivial rfl
      (by rintro - - j o' (h | ⟨t, h⟩) <;> cases h))
    have a2 := a1.silent (.skip (i := i) (o := .insertOrModify k v g) (setAt_same _ _ _) (by simp [jSkip, hg]))
    exact ⟨_, a2.vis (.ret (i := i) (setAt_same _ _ _)), rfl⟩
  · apply not_linearizable
    refine NoLin.solo (fun _ => rfl) (fun d1 h1 => ?_)
    exfalso
    simp [mapObj, SOp.sem] at h1

/-- Non-vacuity: two threads insert different keys at the same time, and one of them finds the key of the other. -/
theorem C76_junction_not_vacuous {comp : (Nat → Nat × Nat) → Bool} :
    ∃ s : JSt Nat, Exec (JStep true comp (jAdm comp)) JSt.init
      [.call 0 (.insert 1 5), .call 1 (.insert 2 6), .ret 0 (.insert 1 5) ⟨true, some 5⟩,
        .ret 1 (.insert 2 6) ⟨true, some 6⟩, .call 0 (.find 2), .ret 0 (.find 2) ⟨true, some 6⟩] s := by
  have e0 : Exec (JStep true comp (jAdm comp)) (JSt.init : JSt Nat) [] _ := .init
  have e1 := e0.vis (.call (i := 0) (o := .insert 1 5) rfl (by simp [jAdm]) rfl (by rintro - - j o' (h | ⟨t, h⟩) <;> cases h))
  have e2 := e1.vis (.call (i := 1) (o := .insert 2 6) rfl (by simp [jAdm]) rfl (by
    intro _ _ j o' h _
    by_cases hj : j = 0
    · subst hj
      rcases h with h | ⟨t, h⟩ <;> cases h
      decide
    · change setAt _ 0 _ j = _ ∨ ∃ t, setAt _ 0 _ j = _ at h
      rw [setAt_other hj] at h
      rcases h with h | ⟨t, h⟩ <;> cases h))
  have e3 := e2.silent (.get (i := 0) (o := .insert 1 5) rfl rfl nofun)
  have e4 := e3.silent (.get (i := 1) (o := .insert 2 6) rfl rfl nofun)
  have e5 := e4.silent (.exch (i := 0) (o := .insert 1 5) (t := 0) rfl)
  have e6 := e5.silent (.exch (i := 1) (o := .insert 2 6) (t := 0) rfl)
  have e7 := e6.vis (.ret (i := 0) rfl)
  have e8 := e7.vis (.ret (i := 1) rfl)
  have e9 := e8.vis (.call (i := 0) (o := .find 2) rfl (by simp [jAdm]) rfl nofun)
  have e10 := e9.silent (.get (i := 0) (o := .find 2) rfl rfl nofun)
  exact ⟨_, e10.vis (.ret (i := 0) (o := .find 2) (r := ⟨true, some 6⟩) rfl)⟩

end

/-! ## Sizes -/

theorem least_shift {d : Nat} (j m : Nat) (h : d ≤ 2 ^ (j + m)) :
    ∃ n, n ≤ m ∧ d ≤ 2 ^ (j + n) ∧ ∀ i, i < n → 2 ^ (j + i) < d := by
  induction m with
  | zero => exact ⟨0, by omega, h, by omega⟩
  | succ m ih =>
    by_cases hm : d ≤ 2 ^ (j + m)
    · obtain ⟨n, h1, h2, h3⟩ := ih hm
      exact ⟨n, by omega, h2, h3⟩
    · refine ⟨m + 1, Nat.le_refl _, h, fun i hi => ?_⟩
      have : 2 ^ (j + i) ≤ 2 ^ (j + m) := Nat.pow_le_pow_right (by omega) (by omega)
      omega

/-- **C76**: `nextPowerOf2` is the least power of two that is large enough, up to `2^31`. -/
theorem C76_next_power_partial {n : Nat} (hn : n ≤ 2 ^ 31) :
    ∃ fuel k, nextPowerOf2 fuel n = some (2 ^ k) ∧ n ≤ 2 ^ k ∧ ∀ j, j < k → 2 ^ j < n := by
  obtain ⟨s, h1, h2, h3⟩ := least_shift 0 31 (by simpa using hn)
  refine ⟨s + 1, s, ?_, by simpa using h2, fun j hj => by simpa using h3 j hj⟩
  have := capLoop_shift s 0 (by omega) h2 h3
  simpa [nextPowerOf2] using this

/-- **C76 (violated by the code)**: for more than `2^31` elements `nextPowerOf2` never returns. -/
theorem C76_next_power_diverges {n : Nat} (h : 2 ^ 31 < n) (fuel : Nat) : nextPowerOf2 fuel n = none := by
  have key : ∀ fuel t, (t = 0 ∨ ∃ j, j ≤ 31 ∧ t = 2 ^ j) → capLoop n fuel t = none := by
    intro fuel
    induction fuel with
    | zero => intro t _; rfl
    | succ f ih =>
      intro t ht
      have hlt : t < n := by
        rcases ht with rfl | ⟨j, hj, rfl⟩
        · omega
        · have : 2 ^ j ≤ 2 ^ 31 := Nat.pow_le_pow_right (by omega) hj
          omega
      rw [capLoop, if_pos hlt]
      apply ih
      rcases ht with rfl | ⟨j, hj, rfl⟩
      · left; rfl
      · rw [Nat.shiftLeft_eq, ← Nat.pow_succ]
        by_cases h31 : j = 31
        · left; subst h31; rfl
        · right
          exact ⟨j + 1, by omega, Nat.mod_eq_of_lt (Nat.pow_lt_pow_right (by omega) (by omega))⟩
  exact key fuel 1 (.inr ⟨0, by omega, rfl⟩)

theorem nextCapLoop_shift {d : Nat} : ∀ (n j : Nat), j + n ≤ 63 → d ≤ 2 ^ (j + n) →
    (∀ i, i < n → 2 ^ (j + i) < d) → nextCapLoop d (n + 1) (2 ^ j) = some (2 ^ (j + n)) := by
  intro n
  induction n with
  | zero =>
    intro j _ hd _
    have : ¬ 2 ^ j < d := by simpa using hd
    simp [nextCapLoop, this]
  | succ n ih =>
    intro j hj hd hlt
    have h0 : 2 ^ j < d := by simpa using hlt 0 (by omega)
    rw [nextCapLoop, if_pos h0]
    have e : (2 ^ j) <<< 1 % 2 ^ 64 = 2 ^ (j + 1) := by
      rw [Nat.shiftLeft_eq, ← Nat.pow_succ, Nat.mod_eq_of_lt (Nat.pow_lt_pow_right (by omega) (by omega))]
    have e' : j + (n + 1) = j + 1 + n := by omega
    rw [e, e']
    refine ih (j + 1) (by omega) (by rw [← e']; exact hd) fun i hi => ?_
    have := hlt (i + 1) (by omega)
    rwa [show j + (i + 1) = j + 1 + i from by omega] at this

/-- **C76**: the table of folly is made with a power of two of cells, at least twice the expected number of elements,
up to `2^62` elements. -/
theorem C76_next_cap_partial {n : Nat} (hn : n ≤ 2 ^ 62) :
    ∃ fuel k, nextCap fuel n = some (2 ^ k) ∧ 13 ≤ k ∧ k ≤ 63 ∧ 2 * n ≤ 2 ^ k ∧ (k = 13 ∨ 2 ^ k < 4 * n) := by
  obtain ⟨s, h1, h2, h3⟩ := least_shift 12 50 (by simpa using hn)
  have h4 := nextCapLoop_shift s 12 (by omega) h2 h3
  refine ⟨s + 1, 13 + s, ?_, by omega, by omega, ?_, ?_⟩
  · unfold nextCap
    rw [show (4096 : Nat) = 2 ^ 12 from rfl, h4]
    simp only [Option.map_some]
    rw [Nat.shiftLeft_eq, ← Nat.pow_succ, Nat.mod_eq_of_lt (Nat.pow_lt_pow_right (by omega) (by omega)),
      show (12 + s).succ = 13 + s from by omega]
  · rw [show 13 + s = 12 + s + 1 from by omega, Nat.pow_succ]; omega
  · cases s with
    | zero => exact .inl rfl
    | succ s =>
      right
      have := h3 s (by omega)
      rw [show 13 + (s + 1) = 12 + s + 1 + 1 from by omega, Nat.pow_succ, Nat.pow_succ]
      omega

/-- **C76 (violated by the code)**: between `2^62` and `2^63` the result is 0, above that there is none. -/
theorem C76_next_cap_violated {n : Nat} (h : 2 ^ 62 < n) :
    (n ≤ 2 ^ 63 → ∃ fuel, nextCap fuel n = some 0) ∧ (2 ^ 63 < n → ∀ fuel, nextCap fuel n = none) := by
  constructor
  · intro h2
    refine ⟨52, ?_⟩
    have := nextCapLoop_shift (d := n) 51 12 (by omega) (by simpa using h2) (fun i hi => by
      have : 2 ^ (12 + i) ≤ 2 ^ 62 := Nat.pow_le_pow_right (by omega) (by omega)
      omega)
    unfold nextCap
    rw [show (4096 : Nat) = 2 ^ 12 from rfl, this]
    rfl
  · intro h2 fuel
    have key : ∀ fuel t, (t = 0 ∨ ∃ j, j ≤ 63 ∧ t = 2 ^ j) → nextCapLoop n fuel t = none := by
      intro fuel
      induction fuel with
      | zero => intro t _; rfl
      | succ f ih =>
        intro t ht
        have hlt : t < n := by
          rcases ht with rfl | ⟨j, hj, rfl⟩
          · omega
          · have : 2 ^ j ≤ 2 ^ 63 := Nat.pow_le_pow_right (by omega) hj
            omega
        rw [nextCapLoop, if_pos hlt]
        apply ih
        rcases ht with rfl | ⟨j, hj, rfl⟩
        · left; rfl
        · rw [Nat.shiftLeft_eq, ← Nat.pow_succ]
          by_cases h63 : j = 63
          · left; subst h63; rfl
          · right
            exact ⟨j + 1, by omega, Nat.mod_eq_of_lt (Nat.pow_lt_pow_right (by omega) (by omega))⟩
    unfold nextCap
    rw [key fuel 4096 (.inr ⟨12, by omega, rfl⟩)]
    rfl

example : nextPowerOf2 40 1000 = some 1024 := by decide
example : nextCap 40 5000 = some 16384 := by decide
example : (2 ^ 31 : Nat) < 3000000000 := by decide

/-- **C76 (violated by the code)**: moving a wrapper around folly or libcuckoo loses every element. -/
theorem C76_move_violated {K V : Type} (d : Dict K V) {k : K} {v : V} (h : d k = some v) : moved d k ≠ d k := by
  rw [h]; nofun

example : ∃ (d : Dict Nat Nat) (k v : Nat), d k = some v := ⟨fun _ => some 7, 1, 7, rfl⟩

end Wrap
end Growt
