import Verif.Wrapper

/-! # The wrappers: simulations -/

set_option linter.unusedSectionVars false

namespace Growt
namespace Wrap

section
variable {T O R D : Type} [DecidableEq T]

/-- A history can be completed with instants of effect such that `P` holds of the phases of the threads and of
the abstract state at its end. (proof, no code) -/
def Upto (S : Obj O R D) (h : List (Ev T O R)) (P : (T → Phase O R) → D → Prop) : Prop :=
  ∃ l p d, visible l = h ∧ WellFormed (fun _ => .idle) l p ∧ Legal S S.init (effects l) d ∧ P p d

theorem Upto.init {S : Obj O R D} {P : (T → Phase O R) → D → Prop} (h : P (fun _ => .idle) S.init) :
    Upto S [] P := ⟨[], _, _, rfl, .nil _, .nil _, h⟩

theorem Upto.linearizable {S : Obj O R D} {h : List (Ev T O R)} {P : (T → Phase O R) → D → Prop}
    (hu : Upto S h P) : Linearizable S h := by
  obtain ⟨l, p, d, h1, h2, h3, -⟩ := hu
  exact ⟨l, p, d, h1, h2, h3⟩

theorem Upto.mono {S : Obj O R D} {h : List (Ev T O R)} {P Q : (T → Phase O R) → D → Prop}
    (hu : Upto S h P) (hPQ : ∀ p d, P p d → Q p d) : Upto S h Q := by
  obtain ⟨l, p, d, h1, h2, h3, h4⟩ := hu
  exact ⟨l, p, d, h1, h2, h3, hPQ p d h4⟩

theorem Upto.call {S : Obj O R D} {h : List (Ev T O R)} {P Q : (T → Phase O R) → D → Prop} {i : T} {o : O}
    (hu : Upto S h P) (hPQ : ∀ p d, P p d → p i = .idle ∧ Q (setAt p i (.called o)) d) :
    Upto S (h ++ [.call i o]) Q := by
  obtain ⟨l, p, d, h1, h2, h3, h4⟩ := hu
  obtain ⟨h5, h6⟩ := hPQ p d h4
  refine ⟨l ++ [.call i o], _, d, by rw [visible_append, h1]; rfl, h2.append (.call h5 (setAt_same _ _ _)
    (fun j hj => setAt_other hj) (.nil _)), ?_, h6⟩
  rw [effects_append]
  exact h3.append (.nil _)

theorem Upto.ret {S : Obj O R D} {h : List (Ev T O R)} {P Q : (T → Phase O R) → D → Prop} {i : T} {o : O} {r : R}
    (hu : Upto S h P) (hPQ : ∀ p d, P p d → p i = .effected o r ∧ Q (setAt p i .idle) d) :
    Upto S (h ++ [.ret i o r]) Q := by
  obtain ⟨l, p, d, h1, h2, h3, h4⟩ := hu
  obtain ⟨h5, h6⟩ := hPQ p d h4
  refine ⟨l ++ [.ret i o r], _, d, by rw [visible_append, h1]; rfl, h2.append (.ret h5 (setAt_same _ _ _)
    (fun j hj => setAt_other hj) (.nil _)), ?_, h6⟩
  rw [effects_append]
  exact h3.append (.nil _)

/-- Some effects, and no visible event. (proof, no code) -/
def Effs (S : Obj O R D) (p : T → Phase O R) (d : D) (p' : T → Phase O R) (d' : D) : Prop :=
  ∃ l, visible l = [] ∧ WellFormed p l p' ∧ Legal S d (effects l) d'

theorem Effs.refl (S : Obj O R D) (p : T → Phase O R) (d : D) : Effs S p d p d := ⟨[], rfl, .nil _, .nil _⟩

theorem Effs.trans {S : Obj O R D} {p p1 p2 : T → Phase O R} {d d1 d2 : D} (h : Effs S p d p1 d1)
    (h' : Effs S p1 d1 p2 d2) : Effs S p d p2 d2 := by
  obtain ⟨l, a1, a2, a3⟩ := h
  obtain ⟨l', b1, b2, b3⟩ := h'
  exact ⟨l ++ l', by rw [visible_append, a1, b1]; rfl, a2.append b2, by rw [effects_append]; exact a3.append b3⟩

theorem Effs.one {S : Obj O R D} {p : T → Phase O R} {d d' : D} {i : T} {o : O} {r : R} (hp : p i = .called o)
    (hl : S.legal d o r d') : Effs S p d (setAt p i (.effected o r)) d' :=
  ⟨[.lin i o r], rfl, .lin hp (setAt_same _ _ _) (fun _ hj => setAt_other hj) (.nil _), .cons hl (.nil _)⟩

theorem Upto.effs {S : Obj O R D} {h : List (Ev T O R)} {P Q : (T → Phase O R) → D → Prop} (hu : Upto S h P)
    (hPQ : ∀ p d, P p d → ∃ p' d', Effs S p d p' d' ∧ Q p' d') : Upto S h Q := by
  obtain ⟨l, p, d, h1, h2, h3, h4⟩ := hu
  obtain ⟨p', d', ⟨l', b1, b2, b3⟩, h6⟩ := hPQ p d h4
  exact ⟨l ++ l', p', d', by rw [visible_append, h1, b1]; simp, h2.append b2,
    by rw [effects_append]; exact h3.append b3, h6⟩

end

/-! ## References to elements -/

section
variable {T K V : Type} [DecidableEq T] [DecidableEq K] [DecidableEq V]

/-- The ideal map, for callers who see the boolean and whether the iterator is `end()`.
(specification, no code) -/
def seenObj : Obj (SOp K V) Seen (Dict K V) where
  init := fun _ => none
  legal := fun d o r d' => d' = (o.sem d).1 ∧ r = seen (o.sem d).2

/-- The call is about to update an element. (proof, no code) -/
def Upd (o : SOp K V) (ok : Bool) (g : V → V × V) : Prop :=
  (∃ k, o = .modify k g ∧ ok = true) ∨ ∃ k d, o = .insertOrModify k d g ∧ ok = false

theorem Upd.sem {o : SOp K V} {ok : Bool} {g : V → V × V} (h : Upd o ok g) {d : Dict K V} {w : V}
    (hd : d o.key = some w) : seenObj.legal d o ⟨ok, true⟩ (d.put o.key (g w).1) := by
  rcases h with ⟨k, rfl, rfl⟩ | ⟨k, x, rfl, rfl⟩ <;>
    simp only [SOp.key] at hd <;> simp [seenObj, SOp.sem, SOp.key, hd, seen]

/-- One thread. (proof, no code) -/
def RThr (s : RSt T K V) : RPC K V → Phase (SOp K V) Seen → Prop
  | .idle, ph => ph = .idle
  | .begun o, ph => ph = .called o
  | .done o r, ph => ph = .effected o r
  | .refd o e ok g, ph => e < s.size ∧ Upd o ok g ∧ (∀ k, s.idx k = some e → k = o.key) ∧
      ((s.idx o.key = some e ∧ ph = .called o) ∨ (s.idx o.key ≠ some e ∧ ph = .effected o ⟨ok, true⟩))

/-- The simulation. (proof, no code) -/
structure RRel (s : RSt T K V) (p : T → Phase (SOp K V) Seen) (d : Dict K V) : Prop where
  abs : ∀ k, d k = (s.idx k).map s.val
  inj : ∀ k k' e, s.idx k = some e → s.idx k' = some e → k = k'
  lt : ∀ k e, s.idx k = some e → e < s.size
  thr : ∀ i, RThr s (s.pc i) (p i)
  fin : ∃ L : List T, ∀ i, i ∉ L → s.pc i = .idle

theorem fin_at {pc : T → RPC K V} (h : ∃ L : List T, ∀ i, i ∉ L → pc i = .idle) (j : T) (q : RPC K V) :
    ∃ L : List T, ∀ i, i ∉ L → setAt pc j q i = .idle := by
  obtain ⟨L, hL⟩ := h
  refine ⟨j :: L, fun i hi => ?_⟩
  rw [setAt_other (by rintro rfl; exact hi (List.mem_cons_self ..))]
  exact hL i fun h => hi (List.mem_cons_of_mem _ h)

/-- A step of one thread that does not change the table. -/
theorem RRel.at {s : RSt T K V} {p : T → Phase (SOp K V) Seen} {d : Dict K V} (h : RRel s p d) (i : T)
    {q : RPC K V} {ph : Phase (SOp K V) Seen} (hq : RThr s q ph) : RRel (s.at i q) (setAt p i ph) d := by
  refine ⟨h.abs, h.inj, h.lt, fun j => ?_, fin_at h.fin i q⟩
  show RThr _ (setAt s.pc i q j) (setAt p i ph j)
  by_cases hj : j = i
  · subst hj; rw [setAt_same, setAt_same]; cases q <;> exact hq
  · rw [setAt_other hj, setAt_other hj]
    have := h.thr j
    cases hp : s.pc j <;> rw [hp] at this <;> exact this

theorem RRel.same {s : RSt T K V} {p : T → Phase (SOp K V) Seen} {d : Dict K V} (h : RRel s p d) (i : T)
    {q : RPC K V} (hq : RThr s q (p i)) : RRel (s.at i q) p d := by
  have := h.at i hq
  have e : setAt p i (p i) = p := by
    funext j
    by_cases hj : j = i
    · subst hj; rw [setAt_same]
    · rw [setAt_other hj]
  rwa [e] at this

/-- A new element. -/
theorem RRel.make {s : RSt T K V} {p : T → Phase (SOp K V) Seen} {d : Dict K V} (h : RRel s p d) {k : K}
    (hk : s.idx k = none) (v : V) : RRel (s.make k v) p (d.put k v) := by
  refine ⟨fun x => ?_, fun x y e hx hy => ?_, fun x e hx => ?_, fun j => ?_, h.fin⟩
  · show (d.put k v) x = (setAt s.idx k (some s.size) x).map (setAt s.val s.size v)
    by_cases hx : x = k
    · subst hx; rw [setAt_same]; simp [Dict.put]
    · rw [setAt_other hx]
      simp only [Dict.put, if_neg hx, h.abs x]
      cases he : s.idx x with
      | none => rfl
      | some e =>
        have := h.lt x e he
        simp only [Option.map_some]
        rw [setAt_other (by omega)]
  · change setAt s.idx k (some s.size) x = some e at hx
    change setAt s.idx k (some s.size) y = some e at hy
    by_cases h1 : x = k
    · by_cases h2 : y = k
      · rw [h1, h2]
      · subst h1
        rw [setAt_same] at hx; cases hx
        rw [setAt_other h2] at hy
        exact absurd (h.lt y _ hy) (Nat.lt_irrefl _)
    · rw [setAt_other h1] at hx
      by_cases h2 : y = k
      · subst h2
        rw [setAt_same] at hy; cases hy
        exact absurd (h.lt x _ hx) (Nat.lt_irrefl _)
      · rw [setAt_other h2] at hy; exact h.inj x y e hx hy
  · change setAt s.idx k (some s.size) x = some e at hx
    show e < s.size + 1
    by_cases h1 : x = k
    · subst h1; rw [setAt_same] at hx; cases hx; omega
    · rw [setAt_other h1] at hx; have := h.lt x e hx; omega
  · show RThr _ (s.pc j) (p j)
    have := h.thr j
    cases hp : s.pc j <;> rw [hp] at this <;> try exact this
    rename_i o e ok g
    obtain ⟨h1, h2, h3, h4⟩ := this
    have key : ∀ x, setAt s.idx k (some s.size) x = some e ↔ s.idx x = some e := by
      intro x
      by_cases hx : x = k
      · subst hx; rw [setAt_same, hk]
        constructor
        · intro h; cases h; omega
        · nofun
      · rw [setAt_other hx]
    refine ⟨Nat.lt_succ_of_lt h1, h2, fun x hx => h3 x ((key x).1 hx), ?_⟩
    exact h4.imp (fun h => ⟨(key _).2 h.1, h.2⟩) (fun h => ⟨fun h' => h.1 ((key _).1 h'), h.2⟩)

/-- Before an element goes, the calls that hold a reference to it take effect. -/
theorem pending {s : RSt T K V} {k : K} {e : Nat} (L : List T) : ∀ (p : T → Phase (SOp K V) Seen) (d : Dict K V) (w : V),
    d k = some w → (∀ j, RThr s (s.pc j) (p j)) → s.idx k = some e → L.Nodup →
    ∃ p' d' w', Effs seenObj p d p' d' ∧ d' k = some w' ∧ (∀ x, x ≠ k → d' x = d x) ∧
      (∀ j, j ∉ L → p' j = p j) ∧
      ∀ j ∈ L, p' j = match s.pc j with
        | .refd o e' ok _ => if e' = e then .effected o ⟨ok, true⟩ else p j
        | _ => p j := by
  induction L with
  | nil => intro p d w hd _ _ _; exact ⟨p, d, w, .refl _ _ _, hd, fun _ _ => rfl, fun _ _ => rfl, nofun⟩
  | cons i L ih =>
    intro p d w hd ht hk hn
    obtain ⟨hi, hn⟩ := List.nodup_cons.1 hn
    obtain ⟨p', d', w', e1, e2, e3, e4, e5⟩ := ih p d w hd ht hk hn
    have hpi := e4 i hi
    have ti := ht i
    have stay : (∀ o e' ok g, s.pc i = .refd o e' ok g → e' ≠ e) →
        ∃ p' d' w', Effs seenObj p d p' d' ∧ d' k = some w' ∧ (∀ x, x ≠ k → d' x = d x) ∧
        (∀ j, j ∉ i :: L → p' j = p j) ∧
        ∀ j ∈ i :: L, p' j = match s.pc j with
          | .refd o e' ok _ => if e' = e then .effected o ⟨ok, true⟩ else p j
          | _ => p j := by
      intro hne
      refine ⟨p', d', w', e1, e2, e3, fun j hj => e4 j fun h => hj (List.mem_cons_of_mem _ h), fun j hj => ?_⟩
      rcases List.mem_cons.1 hj with rfl | hj
      · rw [hpi]
        cases hp : s.pc j <;> simp only
        rename_i o e' ok g
        rw [if_neg (hne o e' ok g hp)]
      · exact e5 j hj
    cases hp : s.pc i with
    | refd o e' ok g =>
      by_cases he : e' = e
      · subst he
        rw [hp] at ti
        obtain ⟨h1, h2, h3, h4⟩ := ti
        have hko := h3 k hk
        subst hko
        have hc : p i = .called o := by
          rcases h4 with h | h
          · exact h.2
          · exact absurd hk h.1
        refine ⟨_, _, _, e1.trans (.one (by rw [hpi]; exact hc) (h2.sem e2)), by simp [Dict.put]; rfl, fun x hx => ?_,
          fun j hj => ?_, fun j hj => ?_⟩
        · simp only [Dict.put, if_neg hx]; exact e3 x hx
        · rw [setAt_other (by rintro rfl; exact hj (List.mem_cons_self ..))]
          exact e4 j fun h => hj (List.mem_cons_of_mem _ h)
        · by_cases hj' : j = i
          · subst hj'; rw [setAt_same, hp]; simp
          · rw [setAt_other hj']
            rcases List.mem_cons.1 hj with h | h
            · exact absurd h hj'
            · exact e5 j h
      · exact stay (by intro o1 e1 ok1 g1 h; rw [hp] at h; cases h; exact he)
    | idle => exact stay (by intro o1 e1 ok1 g1 h; rw [hp] at h; cases h)
    | begun o => exact stay (by intro o1 e1 ok1 g1 h; rw [hp] at h; cases h)
    | done o r => exact stay (by intro o1 e1 ok1 g1 h; rw [hp] at h; cases h)

/-- The element goes. -/
theorem RRel.gone {s : RSt T K V} {p p' : T → Phase (SOp K V) Seen} {d d' : Dict K V} (h : RRel s p d) {k : K} {e : Nat}
    (hk : s.idx k = some e) (hd : d' k = none) (hx : ∀ x, x ≠ k → d' x = d x)
    (hp : ∀ j, p' j = match s.pc j with
        | .refd o e' ok _ => if e' = e then .effected o ⟨ok, true⟩ else p j
        | _ => p j) : RRel { s with idx := setAt s.idx k none } p' d' := by
  have sub : ∀ x y, setAt s.idx k none x = some y → x ≠ k ∧ s.idx x = some y := by
    intro x y hxy
    by_cases hxk : x = k
    · subst hxk; rw [setAt_same] at hxy; cases hxy
    · rw [setAt_other hxk] at hxy; exact ⟨hxk, hxy⟩
  refine ⟨fun x => ?_, fun x y e hx hy => h.inj x y e (sub _ _ hx).2 (sub _ _ hy).2,
    fun x e hx => h.lt x e (sub _ _ hx).2, fun j => ?_, h.fin⟩
  · show d' x = (setAt s.idx k none x).map s.val
    by_cases hxk : x = k
    · subst hxk; rw [setAt_same]; exact hd
    · rw [setAt_other hxk, hx x hxk]; exact h.abs x
  · show RThr _ (s.pc j) (p' j)
    have := h.thr j
    rw [hp j]
    cases hpj : s.pc j <;> rw [hpj] at this <;> try exact this
    rename_i o e' ok g
    obtain ⟨h1, h2, h3, h4⟩ := this
    refine ⟨h1, h2, fun x hx => h3 x (sub _ _ hx).2, ?_⟩
    simp only
    by_cases he : e' = e
    · subst he
      rw [if_pos rfl]
      have := h3 k hk
      exact .inr ⟨by show setAt s.idx k none _ ≠ _; rw [← this, setAt_same]; nofun, rfl⟩
    · rw [if_neg he]
      by_cases hko : o.key = k
      · refine .inr ⟨by show setAt s.idx k none _ ≠ _; rw [hko, setAt_same]; nofun, ?_⟩
        rcases h4 with h4 | h4
        · rw [hko, hk] at h4; cases h4.1; exact absurd rfl he
        · exact h4.2
      · exact h4.imp (fun h => ⟨by show setAt s.idx k none _ = _; rw [setAt_other hko]; exact h.1, h.2⟩)
          (fun h => ⟨by show setAt s.idx k none _ ≠ _; rw [setAt_other hko]; exact h.1, h.2⟩)

/-- `f.atomic` on an element that is in the table. -/
theorem RRel.apply {s : RSt T K V} {p : T → Phase (SOp K V) Seen} {d : Dict K V} (h : RRel s p d) {k : K} {e : Nat}
    (hk : s.idx k = some e) (v : V) : RRel { s with val := setAt s.val e v } p (d.put k v) := by
  refine ⟨fun x => ?_, h.inj, h.lt, fun j => ?_, h.fin⟩
  · show (d.put k v) x = (s.idx x).map (setAt s.val e v)
    by_cases hx : x = k
    · subst hx; rw [hk]; simp [Dict.put]
    · simp only [Dict.put, if_neg hx, h.abs x]
      cases he : s.idx x with
      | none => rfl
      | some y =>
        simp only [Option.map_some]
        rw [setAt_other]
        rintro rfl
        exact hx (h.inj _ _ _ he hk)
  · have := h.thr j
    show RThr _ (s.pc j) (p j)
    cases hp : s.pc j <;> rw [hp] at this <;> exact this

/-- … or has gone. -/
theorem RRel.applyGone {s : RSt T K V} {p : T → Phase (SOp K V) Seen} {d : Dict K V} (h : RRel s p d) {e : Nat}
    (hk : ∀ k, s.idx k ≠ some e) (v : V) : RRel { s with val := setAt s.val e v } p d := by
  refine ⟨fun x => ?_, h.inj, h.lt, fun j => ?_, h.fin⟩
  · show d x = (s.idx x).map (setAt s.val e v)
    rw [h.abs x]
    cases he : s.idx x with
    | none => rfl
    | some y =>
      simp only [Option.map_some]
      rw [setAt_other]
      rintro rfl
      exact hk x he
  · have := h.thr j
    show RThr _ (s.pc j) (p j)
    cases hp : s.pc j <;> rw [hp] at this <;> exact this

theorem seen_find (d : Dict K V) (k : K) :
    (seenObj (K := K) (V := V)).legal d (.find k) ⟨(d k).isSome, (d k).isSome⟩ d := by
  simp [seenObj, SOp.sem, seen]

theorem nodup_list (L : List T) : ∃ M : List T, M.Nodup ∧ ∀ x, x ∈ L → x ∈ M := by
  induction L with
  | nil => exact ⟨[], List.nodup_nil, fun _ h => h⟩
  | cons a L ih =>
    obtain ⟨M, h1, h2⟩ := ih
    by_cases ha : a ∈ M
    · exact ⟨M, h1, fun x hx => by 
        rcases List.mem_cons.1 hx with rfl | h
        · exact ha
        · exact h2 x h⟩
    · exact ⟨a :: M, List.nodup_cons.2 ⟨ha, h1⟩, fun x hx => by
        rcases List.mem_cons.1 hx with rfl | h
        · exact List.mem_cons_self ..
        · exact List.mem_cons_of_mem _ (h2 x h)⟩

/-- A call takes effect and is done. -/
theorem RRel.done {s : RSt T K V} {p : T → Phase (SOp K V) Seen} {d d' : Dict K V} (h : RRel s p d') {i : T}
    {o : SOp K V} {r : Seen} (hp : p i = .called o) (hl : seenObj.legal d o r d') :
    ∃ p' d', Effs seenObj p d p' d' ∧ RRel (s.at i (.done o r)) p' d' :=
  ⟨_, _, .one hp hl, h.at i rfl⟩

/-- Every step is simulated. -/
theorem ref_step {er : Bool} {adm : SOp K V → Prop} (her : ∀ k, adm (.erase k) → er = true)
    {s s' : RSt T K V} {e : Option (Ev T (SOp K V) Seen)} (hs : RStep er adm s e s')
    (hb : ∀ i o, s.pc i = .begun o → adm o) {h : List (Ev T (SOp K V) Seen)} (hu : Upto seenObj h (RRel s)) :
    Upto seenObj (h ++ e.toList) (RRel s') := by
  cases hs with
  | @call i o hp ho hf =>
    exact hu.call fun p d hr => ⟨by have := hr.thr i; rw [hp] at this; exact this, hr.at i rfl⟩
  | @ret i o r hp =>
    exact hu.ret fun p d hr => ⟨by have := hr.thr i; rw [hp] at this; exact this, hr.at i rfl⟩
  | @find i k hp =>
    simp only [Option.toList_none, List.append_nil]
    refine hu.effs fun p d hr => ?_
    have ht := hr.thr i
    rw [hp] at ht
    have hd : (s.idx k).isSome = (d k).isSome := by rw [hr.abs k]; cases s.idx k <;> rfl
    rw [hd]
    exact ⟨_, _, .one ht (seen_find d k), hr.at i rfl⟩
  | @insNew i k v hp hk =>
    simp only [Option.toList_none, List.append_nil]
    refine hu.effs fun p d hr => ?_
    have ht := hr.thr i
    rw [hp] at ht
    have hd : d k = none := by rw [hr.abs k, hk]; rfl
    exact (hr.make hk v).done ht (by simp [seenObj, SOp.sem, hd, seen])
  | @insOld i k v x hp hk =>
    simp only [Option.toList_none, List.append_nil]
    refine hu.effs fun p d hr => ?_
    have ht := hr.thr i
    rw [hp] at ht
    have hd : d k = some (s.val x) := by rw [hr.abs k, hk]; rfl
    exact hr.done ht (by simp [seenObj, SOp.sem, hd, seen])
  | @updFound i k g x hp hk =>
    simp only [Option.toList_none, List.append_nil]
    refine hu.mono fun p d hr => hr.same i ?_
    have ht := hr.thr i
    rw [hp] at ht
    exact ⟨hr.lt k x hk, .inl ⟨k, rfl, rfl⟩, fun y hy => hr.inj y k x hy hk, .inl ⟨hk, ht⟩⟩
  | @updMiss i k g hp hk =>
    simp only [Option.toList_none, List.append_nil]
    refine hu.effs fun p d hr => ?_
    have ht := hr.thr i
    rw [hp] at ht
    have hd : d k = none := by rw [hr.abs k, hk]; rfl
    exact hr.done ht (by simp [seenObj, SOp.sem, hd, seen])
  | @iouNew i k v g hp hk =>
    simp only [Option.toList_none, List.append_nil]
    refine hu.effs fun p d hr => ?_
    have ht := hr.thr i
    rw [hp] at ht
    have hd : d k = none := by rw [hr.abs k, hk]; rfl
    exact (hr.make hk v).done ht (by simp [seenObj, SOp.sem, hd, seen])
  | @iouFound i k v g x hp hk =>
    simp only [Option.toList_none, List.append_nil]
    refine hu.mono fun p d hr => hr.same i ?_
    have ht := hr.thr i
    rw [hp] at ht
    exact ⟨hr.lt k x hk, .inr ⟨k, v, rfl, rfl⟩, fun y hy => hr.inj y k x hy hk, .inl ⟨hk, ht⟩⟩
  | @apply i o x ok g hp =>
    simp only [Option.toList_none, List.append_nil]
    refine hu.effs fun p d hr => ?_
    have ht := hr.thr i
    rw [hp] at ht
    obtain ⟨h1, h2, h3, h4⟩ := ht
    rcases h4 with h4 | h4
    · have hd : d o.key = some (s.val x) := by rw [hr.abs, h4.1]; rfl
      exact ⟨_, _, .one h4.2 (h2.sem hd), (hr.apply h4.1 _).at i rfl⟩
    · refine ⟨_, _, .refl _ _ _, (hr.applyGone (fun k hk => ?_) _).same i h4.2⟩
      rw [h3 k hk] at hk
      exact h4.1 hk
  | @erase i k x her' hp hk =>
    simp only [Option.toList_none, List.append_nil]
    refine hu.effs fun p d hr => ?_
    have ht := hr.thr i
    rw [hp] at ht
    have hd : d k = some (s.val x) := by rw [hr.abs k, hk]; rfl
    obtain ⟨L, hL⟩ := hr.fin
    obtain ⟨M, hM, hLM⟩ := nodup_list L
    obtain ⟨p', d', w', e1, e2, e3, e4, e5⟩ := pending M p d _ hd hr.thr hk hM
    have hp' : ∀ j, p' j = match s.pc j with
        | .refd o e' ok _ => if e' = x then .effected o ⟨ok, true⟩ else p j
        | _ => p j := by
      intro j
      by_cases hj : j ∈ M
      · exact e5 j hj
      · rw [e4 j hj, hL j fun h => hj (hLM j h)]
    have hpi : p' i = .called (.erase k) := by rw [hp' i, hp]; exact ht
    refine ⟨_, d'.del k, e1.trans (.one (r := ⟨true, false⟩) hpi (by simp [seenObj, SOp.sem, e2, seen])), ?_⟩
    have hg : RRel { s with idx := setAt s.idx k none } p' (d'.del k) :=
      hr.gone hk (by simp [Dict.del]) (fun y hy => by simp only [Dict.del, if_neg hy]; exact e3 y hy) hp'
    exact hg.at i rfl
  | @eraseMiss i k her' hp hk =>
    simp only [Option.toList_none, List.append_nil]
    refine hu.effs fun p d hr => ?_
    have ht := hr.thr i
    rw [hp] at ht
    have hd : d k = none := by rw [hr.abs k, hk]; rfl
    exact hr.done ht (by simp [seenObj, SOp.sem, hd, seen])
  | @eraseNot i k her' hp =>
    have := her k (hb i _ hp)
    rw [her'] at this; cases this

theorem ref_exec {er : Bool} {adm : SOp K V → Prop} (her : ∀ k, adm (.erase k) → er = true) {v : V}
    {h : List (Ev T (SOp K V) Seen)} {s : RSt T K V} (hx : Exec (RStep er adm) (RSt.init v) h s) :
    Upto seenObj h (RRel s) := by
  have keep : ∀ (a : RSt T K V) e b, (∀ i o, a.pc i = .begun o → adm o) → RStep er adm a e b →
      ∀ i o, b.pc i = .begun o → adm o := by
    intro a e b ha hs i o
    have key : ∀ (j : T) (q : RPC K V), (∀ o, q = .begun o → adm o) →
        setAt a.pc j q i = .begun o → adm o := by
      intro j q hq hi
      by_cases hij : i = j
      · subst hij; rw [setAt_same] at hi; exact hq o hi
      · rw [setAt_other hij] at hi; exact ha i o hi
    cases hs with
    | call hp ho hf => exact key _ _ (by intro o h; cases h; exact ho)
    | _ => exact key _ _ (by nofun)
  have both : Upto seenObj h (RRel s) ∧ ∀ i o, s.pc i = .begun o → adm o := by
    induction hx with
    | init => exact ⟨.init ⟨fun _ => rfl, nofun, nofun, fun _ => rfl, ⟨[], fun _ _ => rfl⟩⟩, nofun⟩
    | silent hx hs ih =>
      refine ⟨?_, keep _ _ _ ih.2 hs⟩
      have := ref_step her hs ih.2 ih.1
      simpa using this
    | vis hx hs ih => exact ⟨ref_step her hs ih.2 ih.1, keep _ _ _ ih.2 hs⟩
  exact both.1

/-! ## Locked elements -/

/-- The ideal map. (specification, no code) -/
def mapObj : Obj (SOp K V) (SRes V) (Dict K V) where
  init := fun _ => none
  legal := fun d o r d' => o.sem d = (d', r)

/-- One thread. (proof, no code) -/
def HThr (adm : SOp K V → Prop) (s : HSt T K V) (i : T) : HPC K V → Phase (SOp K V) (SRes V) → Prop
  | .idle, ph => ph = .idle
  | .begun o, ph => ph = .called o ∧ adm o
  | .done o r, ph => ph = .effected o r
  | .held o _, ph => ph = .called o ∧ adm o ∧ s.lock o.key = some i

/-- The simulation. (proof, no code) -/
structure HRel (adm : SOp K V → Prop) (s : HSt T K V) (p : T → Phase (SOp K V) (SRes V)) (d : Dict K V) : Prop where
  free : ∀ k, s.lock k = none → d k = s.map k
  held : ∀ k i, s.lock k = some i → ∃ o m v, s.pc i = .held o m ∧ o.key = k ∧ s.map k = some v ∧
    d k = (if m then none else some v) ∧ accesses o = true ∧ (m = true → o.inserts = true)
  thr : ∀ i, HThr adm s i (s.pc i) (p i)

/-- What a call does to the ideal map while it holds the element. -/
theorem hmBody_sem {k0 : K} {o : SOp K V} {m : Bool} {v : V} {d : Dict K V} (hk : o.key ≠ k0)
    (hd : d o.key = if m then none else some v) (ha : accesses o = true) (hm : m = true → o.inserts = true) :
    ∃ d', o.sem d = (d', (hmBody k0 o m v).2) ∧ d' o.key = some (hmBody k0 o m v).1 ∧
      ∀ x, x ≠ o.key → d' x = d x := by
  cases o <;> cases m <;> simp [accesses, SOp.inserts] at ha hm <;>
    simp only [SOp.key, Bool.false_eq_true, if_false, if_true] at hk hd <;>
    refine ⟨_, by simp [SOp.sem, hd, hmBody, shown, hk]; rfl, ?_⟩ <;>
    simp_all [SOp.key, Dict.put, hmBody]

/-- A step that changes nothing but one thread that holds no lock. -/
theorem HRel.at {adm : SOp K V → Prop} {s : HSt T K V} {p : T → Phase (SOp K V) (SRes V)} {d : Dict K V}
    (h : HRel adm s p d) {i : T} (hi : ∀ k, s.lock k ≠ some i) {q : HPC K V} {ph : Phase (SOp K V) (SRes V)}
    (hq : HThr adm s i q ph) : HRel adm (s.at i q) (setAt p i ph) d := by
  refine ⟨h.free, fun k j hj => ?_, fun j => ?_⟩
  · have hji : j ≠ i := by rintro rfl; exact hi k hj
    obtain ⟨o, m, v, h1, h2⟩ := h.held k j hj
    exact ⟨o, m, v, by show setAt s.pc i q j = _; rw [setAt_other hji]; exact h1, h2⟩
  · show HThr adm _ j (setAt s.pc i q j) (setAt p i ph j)
    by_cases hj : j = i
    · subst hj; rw [setAt_same, setAt_same]; cases q <;> exact hq
    · rw [setAt_other hj, setAt_other hj]
      have := h.thr j
      cases hp : s.pc j <;> rw [hp] at this <;> exact this

theorem HRel.unlocked {adm : SOp K V → Prop} {s : HSt T K V} {p : T → Phase (SOp K V) (SRes V)} {d : Dict K V}
    (h : HRel adm s p d) {i : T} (hi : ∀ o m, s.pc i ≠ .held o m) (k : K) : s.lock k ≠ some i := by
  intro hl
  obtain ⟨o, m, v, h1, -⟩ := h.held k i hl
  exact hi o m h1

theorem HRel.absent {adm : SOp K V → Prop} {s : HSt T K V} {p : T → Phase (SOp K V) (SRes V)} {d : Dict K V}
    (h : HRel adm s p d) {k : K} (hk : s.map k = none) : s.lock k = none ∧ d k = none := by
  cases hl : s.lock k with
  | none => exact ⟨rfl, by rw [h.free k hl, hk]⟩
  | some i =>
    obtain ⟨o, m, v, -, -, h3, -⟩ := h.held k i hl
    rw [hk] at h3; cases h3

/-- Every step is simulated. -/
theorem hm_step {k0 : K} {v0 : V} {adm : SOp K V → Prop} (hadm : ∀ o, adm o → o.key ≠ k0)
    {s s' : HSt T K V} {e : Option (Ev T (SOp K V) (SRes V))} (hs : HStep k0 v0 adm s e s')
    {h : List (Ev T (SOp K V) (SRes V))} (hu : Upto mapObj h (HRel adm s)) :
    Upto mapObj (h ++ e.toList) (HRel adm s') := by
  cases hs with
  | @call i o hp ho hf =>
    refine hu.call fun p d hr => ⟨by have := hr.thr i; rw [hp] at this; exact this, hr.at ?_ ⟨rfl, ho⟩⟩
    exact hr.unlocked (by rw [hp]; nofun)
  | @ret i o r hp =>
    refine hu.ret fun p d hr => ⟨by have := hr.thr i; rw [hp] at this; exact this, hr.at ?_ rfl⟩
    exact hr.unlocked (by rw [hp]; nofun)
  | @found i o v hp ha hk hl =>
    simp only [Option.toList_none, List.append_nil]
    refine hu.mono fun p d hr => ?_
    have ht := hr.thr i
    rw [hp] at ht
    have hun := hr.unlocked (i := i) (by rw [hp]; nofun)
    refine ⟨fun x hx => ?_, fun x j hx => ?_, fun j => ?_⟩
    · change setAt s.lock o.key (some i) x = none at hx
      by_cases hxk : x = o.key
      · subst hxk; rw [setAt_same] at hx; cases hx
      · rw [setAt_other hxk] at hx; exact hr.free x hx
    · change setAt s.lock o.key (some i) x = some j at hx
      by_cases hxk : x = o.key
      · subst hxk; rw [setAt_same] at hx; cases hx
        refine ⟨o, false, v, setAt_same _ _ _, rfl, hk, by rw [hr.free _ hl]; exact hk, ha, nofun⟩
      · rw [setAt_other hxk] at hx
        obtain ⟨o', m, w, h1, h2⟩ := hr.held x j hx
        refine ⟨o', m, w, ?_, h2⟩
        show setAt s.pc i _ j = _
        rw [setAt_other (by rintro rfl; exact hun x hx)]
        exact h1
    · show HThr adm _ j (setAt s.pc i (.held o false) j) (p j)
      by_cases hj : j = i
      · subst hj; rw [setAt_same]; exact ⟨ht.1, ht.2, setAt_same _ _ _⟩
      · rw [setAt_other hj]
        have hth := hr.thr j
        cases hp' : s.pc j <;> rw [hp'] at hth <;> try exact hth
        rename_i o' m'
        refine ⟨hth.1, hth.2.1, ?_⟩
        show setAt s.lock o.key (some i) o'.key = _
        rw [setAt_other (by intro e; have hx := hth.2.2; rw [e, hl] at hx; cases hx)]
        exact hth.2.2
  | @made i o hp ha hk =>
    simp only [Option.toList_none, List.append_nil]
    refine hu.mono fun p d hr => ?_
    have ht := hr.thr i
    rw [hp] at ht
    obtain ⟨hl, hd⟩ := hr.absent hk
    have hun := hr.unlocked (i := i) (by rw [hp]; nofun)
    refine ⟨fun x hx => ?_, fun x j hx => ?_, fun j => ?_⟩
    · change setAt s.lock o.key (some i) x = none at hx
      by_cases hxk : x = o.key
      · subst hxk; rw [setAt_same] at hx; cases hx
      · rw [setAt_other hxk] at hx
        show d x = setAt s.map o.key (some v0) x
        rw [setAt_other hxk]; exact hr.free x hx
    · change setAt s.lock o.key (some i) x = some j at hx
      by_cases hxk : x = o.key
      · subst hxk; rw [setAt_same] at hx; cases hx
        exact ⟨o, true, v0, setAt_same _ _ _, rfl, setAt_same _ _ _, hd,
          by cases o <;> simp_all [SOp.inserts, accesses], fun _ => ha⟩
      · rw [setAt_other hxk] at hx
        obtain ⟨o', m, w, h1, h2, h3, h4⟩ := hr.held x j hx
        refine ⟨o', m, w, ?_, h2, ?_, h4⟩
        · show setAt s.pc i _ j = _
          rw [setAt_other (by rintro rfl; exact hun x hx)]
          exact h1
        · show setAt s.map o.key (some v0) x = _
          rw [setAt_other hxk]; exact h3
    · show HThr adm _ j (setAt s.pc i (.held o true) j) (p j)
      by_cases hj : j = i
      · subst hj; rw [setAt_same]; exact ⟨ht.1, ht.2, setAt_same _ _ _⟩
      · rw [setAt_other hj]
        have hth := hr.thr j
        cases hp' : s.pc j <;> rw [hp'] at hth <;> try exact hth
        rename_i o' m'
        refine ⟨hth.1, hth.2.1, ?_⟩
        show setAt s.lock o.key (some i) o'.key = _
        rw [setAt_other (by intro e; have hx := hth.2.2; rw [e, hl] at hx; cases hx)]
        exact hth.2.2
  | @missed i o hp ha hn hk =>
    simp only [Option.toList_none, List.append_nil]
    refine hu.effs fun p d hr => ?_
    have ht := hr.thr i
    rw [hp] at ht
    obtain ⟨-, hd⟩ := hr.absent hk
    have hun := hr.unlocked (i := i) (by rw [hp]; nofun)
    have hl : mapObj.legal d o ⟨false, none⟩ d := by
      cases o <;> simp_all [mapObj, SOp.sem, SOp.key, SOp.inserts, accesses]
    exact ⟨_, _, .one ht.1 hl, hr.at hun rfl⟩
  | @body i o m v hp hk =>
    simp only [Option.toList_none, List.append_nil]
    refine hu.effs fun p d hr => ?_
    have ht := hr.thr i
    rw [hp] at ht
    obtain ⟨hc, hadm', hl⟩ := ht
    obtain ⟨o', m', v', h1, -, h3, h4, h5, h6⟩ := hr.held _ _ hl
    rw [hp] at h1; cases h1
    rw [hk] at h3; cases h3
    obtain ⟨d', e1, e2, e3⟩ := hmBody_sem (hadm o hadm') h4 h5 h6
    refine ⟨_, d', .one hc e1, fun x hx => ?_, fun x j hx => ?_, fun j => ?_⟩
    · change setAt s.lock o.key none x = none at hx
      show d' x = setAt s.map o.key _ x
      by_cases hxk : x = o.key
      · subst hxk; rw [setAt_same]; exact e2
      · rw [setAt_other hxk] at hx ⊢
        rw [e3 x hxk]; exact hr.free x hx
    · change setAt s.lock o.key none x = some j at hx
      by_cases hxk : x = o.key
      · subst hxk; rw [setAt_same] at hx; cases hx
      · rw [setAt_other hxk] at hx
        obtain ⟨o', m', w, g1, g2, g3, g4⟩ := hr.held x j hx
        have hji : j ≠ i := by
          rintro rfl
          rw [hp] at g1; cases g1
          exact hxk g2.symm
        refine ⟨o', m', w, ?_, g2, ?_, ?_⟩
        · show setAt s.pc i _ j = _
          rw [setAt_other hji]; exact g1
        · show setAt s.map o.key _ x = _
          rw [setAt_other hxk]; exact g3
        · rw [e3 x hxk]; exact g4
    · show HThr adm _ j (setAt s.pc i _ j) (setAt p i _ j)
      by_cases hj : j = i
      · subst hj; rw [setAt_same, setAt_same]; rfl
      · rw [setAt_other hj, setAt_other hj]
        have hth := hr.thr j
        cases hp' : s.pc j <;> rw [hp'] at hth <;> try exact hth
        rename_i o' m'
        refine ⟨hth.1, hth.2.1, ?_⟩
        show setAt s.lock o.key none o'.key = _
        rw [setAt_other (by intro e; have hx := hth.2.2; rw [e, hl] at hx; cases hx; exact hj rfl)]
        exact hth.2.2
  | @erase i k v hp hk hl =>
    simp only [Option.toList_none, List.append_nil]
    refine hu.effs fun p d hr => ?_
    have ht := hr.thr i
    rw [hp] at ht
    have hun := hr.unlocked (i := i) (by rw [hp]; nofun)
    have hd : d k = some v := by rw [hr.free k hl, hk]
    have hleg : mapObj.legal d (.erase k) ⟨true, none⟩ (d.del k) := by simp [mapObj, SOp.sem, hd]
    have hr' : HRel adm { s with map := setAt s.map k none } p (d.del k) := by
      refine ⟨fun x hx => ?_, fun x j hx => ?_, fun j => ?_⟩
      · show d.del k x = setAt s.map k none x
        by_cases hxk : x = k
        · subst hxk; rw [setAt_same]; simp [Dict.del]
        · rw [setAt_other hxk]; simp only [Dict.del, if_neg hxk]; exact hr.free x hx
      · have hxk : x ≠ k := by rintro rfl; change s.lock x = some j at hx; rw [hl] at hx; cases hx
        obtain ⟨o', m', w, g1, g2, g3, g4⟩ := hr.held x j hx
        refine ⟨o', m', w, g1, g2, ?_, ?_⟩
        · show setAt s.map k none x = _
          rw [setAt_other hxk]; exact g3
        · simp only [Dict.del, if_neg hxk]; exact g4
      · have hth := hr.thr j
        show HThr adm _ j (s.pc j) (p j)
        cases hp' : s.pc j <;> rw [hp'] at hth <;> exact hth
    exact ⟨_, _, .one ht.1 hleg, hr'.at hun rfl⟩
  | @eraseMiss i k hp hk =>
    simp only [Option.toList_none, List.append_nil]
    refine hu.effs fun p d hr => ?_
    have ht := hr.thr i
    rw [hp] at ht
    obtain ⟨-, hd⟩ := hr.absent hk
    have hun := hr.unlocked (i := i) (by rw [hp]; nofun)
    have hleg : mapObj.legal d (.erase k) ⟨false, none⟩ d := by simp [mapObj, SOp.sem, hd]
    exact ⟨_, _, .one ht.1 hleg, hr.at hun rfl⟩

theorem hm_exec {k0 : K} {v0 : V} {adm : SOp K V → Prop} (hadm : ∀ o, adm o → o.key ≠ k0)
    {h : List (Ev T (SOp K V) (SRes V))} {s : HSt T K V} (hx : Exec (HStep k0 v0 adm) HSt.init h s) :
    Upto mapObj h (HRel adm s) := by
  induction hx with
  | init => exact .init ⟨fun _ _ => rfl, nofun, fun _ => rfl⟩
  | silent hx hs ih => simpa using hm_step hadm hs ih
  | vis hx hs ih => exact hm_step hadm hs ih

end

/-! ## Mutators -/

section
variable {T : Type} [DecidableEq T]

/-- Which calls the wrapper around junction can serve: no key 0, no mapped value 0, and update functions that are
compatible, return the new value and never make it 0. (specification, no code) -/
def jAdm (comp : (Nat → Nat × Nat) → Bool) : SOp Nat Nat → Prop
  | .find k => k ≠ 0
  | .insert k d => k ≠ 0 ∧ d ≠ 0
  | .modify k g => k ≠ 0 ∧ comp g = true ∧ ∀ w, w ≠ 0 → (g w).1 ≠ 0 ∧ (g w).2 = (g w).1
  | .insertOrModify k d g =>
    k ≠ 0 ∧ d ≠ 0 ∧ comp g = true ∧ ∀ w, w ≠ 0 → (g w).1 ≠ 0 ∧ (g w).2 = (g w).1
  | .erase k => k ≠ 0
  | .eraseIf _ _ => False

/-- The value read allows the call to go on to `exchangeValue`. (proof, no code) -/
def jGoes : SOp Nat Nat → Nat → Prop
  | .insert _ _, t => t = 0
  | .modify _ _, t => t ≠ 0
  | .insertOrModify _ _ _, _ => True
  | _, _ => False

/-- One thread. (proof, no code) -/
def JThr (comp : (Nat → Nat × Nat) → Bool) (s : JSt T) : JPC → Phase (SOp Nat Nat) (SRes Nat) → Prop
  | .idle, ph => ph = .idle
  | .begun o, ph => ph = .called o ∧ jAdm comp o
  | .done o r, ph => ph = .effected o r
  | .read o t, ph => ph = .called o ∧ jAdm comp o ∧ s.map o.key = t ∧ jGoes o t

/-- The thread is in a call. (proof, no code) -/
def JPC.in (o : SOp Nat Nat) : JPC → Prop
  | .begun o' => o' = o
  | .read o' _ => o' = o
  | _ => False

/-- What the values in junction's table mean. (proof, no code) -/
def jAbs (m : Nat → Nat) : Dict Nat Nat := fun k => if m k = 0 then none else some (m k)

/-- The simulation. (proof, no code) -/
structure JRel (comp : (Nat → Nat × Nat) → Bool) (s : JSt T) (p : T → Phase (SOp Nat Nat) (SRes Nat))
    (d : Dict Nat Nat) : Prop where
  abs : d = jAbs s.map
  thr : ∀ i, JThr comp s (s.pc i) (p i)
  solo : ∀ i j o o', i ≠ j → (s.pc i).in o → (s.pc j).in o' → writes o = true → writes o' = true → o.key ≠ o'.key

theorem JRel.at {comp : (Nat → Nat × Nat) → Bool} {s : JSt T} {p : T → Phase (SOp Nat Nat) (SRes Nat)}
    {d : Dict Nat Nat} (h : JRel comp s p d) {i : T} {q : JPC} {ph : Phase (SOp Nat Nat) (SRes Nat)}
    (hq : JThr comp s q ph) (hin : ∀ o, q.in o → (s.pc i).in o) : JRel comp (s.at i q) (setAt p i ph) d := by
  have hin' : ∀ j o, ((s.at i q).pc j).in o → (s.pc j).in o := by
    intro j o hj
    change (setAt s.pc i q j).in o at hj
    by_cases hji : j = i
    · subst hji; rw [setAt_same] at hj; exact hin o hj
    · rw [setAt_other hji] at hj; exact hj
  refine ⟨h.abs, fun j => ?_, fun a b o o' hab ha hb => h.solo a b o o' hab (hin' a o ha) (hin' b o' hb)⟩
  show JThr comp _ (setAt s.pc i q j) (setAt p i ph j)
  by_cases hj : j = i
  · subst hj; rw [setAt_same, setAt_same]; cases q <;> exact hq
  · rw [setAt_other hj, setAt_other hj]
    have := h.thr j
    cases hp : s.pc j <;> rw [hp] at this <;> exact this

/-- A write to the key of a call that may change it. -/
theorem JRel.write {comp : (Nat → Nat × Nat) → Bool} {s : JSt T} {p : T → Phase (SOp Nat Nat) (SRes Nat)}
    {d : Dict Nat Nat} (h : JRel comp s p d) {i : T} {o : SOp Nat Nat} (hi : (s.pc i).in o) (hw : writes o = true)
    (v : Nat) {d' : Dict Nat Nat} (hd : d' = jAbs (setAt s.map o.key v)) (r : SRes Nat) :
    JRel comp ({ s with map := setAt s.map o.key v }.at i (.done o r)) (setAt p i (.effected o r)) d' := by
  have hin' : ∀ j o', (setAt s.pc i (.done o r) j).in o' → j ≠ i ∧ (s.pc j).in o' := by
    intro j o' hj
    by_cases hji : j = i
    · subst hji; rw [setAt_same] at hj; exact hj.elim
    · rw [setAt_other hji] at hj; exact ⟨hji, hj⟩
  refine ⟨hd, fun j => ?_, fun a b o1 o2 hab ha hb => h.solo a b o1 o2 hab (hin' a o1 ha).2 (hin' b o2 hb).2⟩
  show JThr comp _ (setAt s.pc i _ j) (setAt p i _ j)
  by_cases hj : j = i
  · subst hj; rw [setAt_same, setAt_same]; rfl
  · rw [setAt_other hj, setAt_other hj]
    have hth := h.thr j
    cases hp : s.pc j <;> rw [hp] at hth <;> try exact hth
    rename_i o' t
    obtain ⟨h1, h2, h3, h4⟩ := hth
    refine ⟨h1, h2, ?_, h4⟩
    show setAt s.map o.key v o'.key = t
    rw [setAt_other]
    · exact h3
    · refine h.solo j i o' o hj (by rw [hp]; rfl) hi ?_ hw
      cases o' <;> simp_all [jGoes, writes]

theorem jWrite_sem {comp : (Nat → Nat × Nat) → Bool} {m : Nat → Nat} {o : SOp Nat Nat} (ha : jAdm comp o)
    (hg : jGoes o (m o.key)) :
    mapObj.legal (jAbs m) o (jWrite o (m o.key)).2 (jAbs (setAt m o.key (jWrite o (m o.key)).1)) := by
  have put : ∀ k v, v ≠ 0 → jAbs (setAt m k v) = (jAbs m).put k v := by
    intro k v hv
    funext x
    by_cases hx : x = k
    · subst hx; simp [jAbs, Dict.put, hv]
    · simp [jAbs, Dict.put, hx, setAt_other hx]
  cases o with
  | find k => exact hg.elim
  | erase k => exact hg.elim
  | eraseIf k c => exact hg.elim
  | insert k v =>
    simp only [jGoes, SOp.key] at hg
    simp only [jAdm] at ha
    simp only [mapObj, SOp.sem, jWrite, SOp.key, put k v ha.2]
    simp [jAbs, hg, shown, ha.1]
  | modify k g =>
    simp only [jGoes, SOp.key] at hg
    simp only [jAdm] at ha
    have := ha.2.2 _ hg
    simp only [mapObj, SOp.sem, jWrite, SOp.key, put k _ this.1]
    simp [jAbs, hg, shown, ha.1, this.2]
  | insertOrModify k v g =>
    simp only [jAdm] at ha
    simp only [mapObj, SOp.sem, jWrite, SOp.key]
    by_cases hm : m k = 0
    · simp only [hm, ne_eq, not_true_eq_false, if_false]
      rw [put k v ha.2.1]
      simp [jAbs, hm, shown, ha.1]
    · have := ha.2.2.2 _ hm
      simp only [hm, ne_eq, not_false_eq_true, if_true]
      rw [put k _ this.1]
      simp [jAbs, hm, shown, ha.1, this.2]

/-- Every step is simulated. -/
theorem junction_step {comp : (Nat → Nat × Nat) → Bool} {s s' : JSt T}
    {e : Option (Ev T (SOp Nat Nat) (SRes Nat))} (hs : JStep true comp (jAdm comp) s e s')
    {h : List (Ev T (SOp Nat Nat) (SRes Nat))} (hu : Upto mapObj h (JRel comp s)) :
    Upto mapObj (h ++ e.toList) (JRel comp s') := by
  cases hs with
  | @call i o hp ho hf hsolo =>
    refine hu.call fun p d hr => ⟨by have := hr.thr i; rw [hp] at this; exact this, ?_⟩
    have hin : ∀ j o', j ≠ i → (setAt s.pc i (.begun o) j).in o' → writes o = true → writes o' = true → o'.key ≠ o.key := by
      intro j o' hji hj hw hw'
      rw [setAt_other hji] at hj
      refine hsolo rfl hw j o' ?_ hw'
      cases hq : s.pc j <;> rw [hq] at hj <;> simp only [JPC.in] at hj <;> subst hj
      · exact .inl rfl
      · exact .inr ⟨_, rfl⟩
    refine ⟨hr.abs, fun j => ?_, fun a b o1 o2 hab ha hb h1 h2 => ?_⟩
    · show JThr comp _ (setAt s.pc i _ j) (setAt p i _ j)
      by_cases hj : j = i
      · subst hj; rw [setAt_same, setAt_same]; exact ⟨rfl, ho⟩
      · rw [setAt_other hj, setAt_other hj]
        have := hr.thr j
        cases hp : s.pc j <;> rw [hp] at this <;> exact this
    · change (setAt s.pc i (.begun o) a).in o1 at ha
      change (setAt s.pc i (.begun o) b).in o2 at hb
      by_cases hai : a = i
      · subst hai
        rw [setAt_same] at ha; cases ha
        exact fun e => hin b o2 (Ne.symm hab) hb h1 h2 e.symm
      · by_cases hbi : b = i
        · subst hbi
          rw [setAt_same] at hb; cases hb
          exact hin a o1 hab ha h2 h1
        · rw [setAt_other hai] at ha
          rw [setAt_other hbi] at hb
          exact hr.solo a b o1 o2 hab ha hb h1 h2
  | @ret i o r hp =>
    exact hu.ret fun p d hr => ⟨by have := hr.thr i; rw [hp] at this; exact this, hr.at rfl nofun⟩
  | @skip i o hp hc =>
    simp only [Option.toList_none, List.append_nil]
    refine hu.effs fun p d hr => ?_
    have ht := hr.thr i
    rw [hp] at ht
    exfalso
    cases o <;> simp_all [jSkip, JThr, jAdm]
  | @get i o hp hc hk =>
    simp only [Option.toList_none, List.append_nil]
    refine hu.effs fun p d hr => ?_
    have ht := hr.thr i
    rw [hp] at ht
    have habs := hr.abs
    have dn : ∀ r, jRead o (s.map o.key) = .done o r → mapObj.legal d o r d →
        ∃ p' d', Effs mapObj p d p' d' ∧ JRel comp (s.at i (jRead o (s.map o.key))) p' d' := by
      intro r h1 h2
      rw [h1]
      exact ⟨_, _, .one ht.1 h2, hr.at rfl nofun⟩
    have rd : jRead o (s.map o.key) = .read o (s.map o.key) → jGoes o (s.map o.key) →
        ∃ p' d', Effs mapObj p d p' d' ∧ JRel comp (s.at i (jRead o (s.map o.key))) p' d' := by
      intro h1 h2
      rw [h1]
      have := hr.at (i := i) (q := .read o (s.map o.key)) (ph := p i) ⟨ht.1, ht.2, rfl, h2⟩
        (by rw [hp]; exact fun _ h => h)
      rw [← setAt_eq (p := p) (q := p) rfl fun _ _ => rfl] at this
      exact ⟨_, _, .refl _ _ _, this⟩
    cases o with
    | find k =>
      have ha := ht.2
      simp only [jAdm] at ha
      refine dn _ rfl ?_
      subst habs
      simp only [mapObj, SOp.sem, SOp.key, jAbs, shown, if_neg ha]
      by_cases hm : s.map k = 0 <;> simp [hm]
    | insert k v =>
      have ha := ht.2
      simp only [jAdm] at ha
      by_cases hm : s.map k = 0
      · exact rd (by simp [jRead, SOp.key, hm]) hm
      · refine dn _ (by simp [jRead, SOp.key, hm]; rfl) ?_
        subst habs
        simp [mapObj, SOp.sem, jAbs, shown, ha.1, hm]
    | modify k g =>
      have ha := ht.2
      simp only [jAdm] at ha
      by_cases hm : s.map k = 0
      · refine dn _ (by simp [jRead, SOp.key, hm]; rfl) ?_
        subst habs
        simp [mapObj, SOp.sem, jAbs, shown, hm]
      · exact rd (by simp [jRead, SOp.key, hm]) hm
    | insertOrModify k v g => exact rd rfl trivial
    | erase k => exact absurd rfl (hk k)
    | eraseIf k c => exact ht.2.elim
  | @exch i o t hp =>
    simp only [Option.toList_none, List.append_nil]
    refine hu.effs fun p d hr => ?_
    have ht := hr.thr i
    rw [hp] at ht
    obtain ⟨h1, h2, rfl, h4⟩ := ht
    have hl := jWrite_sem h2 h4
    rw [← hr.abs] at hl
    refine ⟨_, _, .one h1 hl, hr.write (by rw [hp]; rfl) ?_ _ rfl _⟩
    cases o <;> simp_all [jGoes, writes]
  | @erase i k hp =>
    simp only [Option.toList_none, List.append_nil]
    refine hu.effs fun p d hr => ?_
    have ht := hr.thr i
    rw [hp] at ht
    have hl : mapObj.legal d (.erase k) ⟨s.map k ≠ 0, none⟩ (jAbs (setAt s.map k 0)) := by
      rw [hr.abs]
      have hdel : jAbs (setAt s.map k 0) = (jAbs s.map).del k := by
        funext x
        by_cases hx : x = k
        · subst hx; simp [jAbs, Dict.del]
        · simp [jAbs, Dict.del, hx, setAt_other hx]
      rw [hdel]
      by_cases hm : s.map k = 0
      · have : (jAbs s.map).del k = jAbs s.map := by
          funext x
          by_cases hx : x = k
          · subst hx; simp [jAbs, Dict.del, hm]
          · simp [Dict.del, hx]
        rw [this]
        simp [mapObj, SOp.sem, jAbs, hm]
      · simp [mapObj, SOp.sem, jAbs, hm]
    exact ⟨_, _, .one ht.1 hl, hr.write (o := .erase k) (by rw [hp]; rfl) rfl 0 rfl _⟩

theorem junction_exec {comp : (Nat → Nat × Nat) → Bool} {h : List (Ev T (SOp Nat Nat) (SRes Nat))} {s : JSt T}
    (hx : Exec (JStep true comp (jAdm comp)) JSt.init h s) : Upto mapObj h (JRel comp s) := by
  induction hx with
  | init => exact .init ⟨rfl, fun _ => rfl, nofun⟩
  | silent hx hs ih => simpa using junction_step hs ih
  | vis hx hs ih => exact junction_step hs ih

end
end Wrap
end Growt
