import Verif.GrowInv

/-!
# Growing table, one handle: when calls complete
-/

set_option linter.unusedSectionVars false

namespace Growt
section
variable {K V : Type} [DecidableEq K] [DecidableEq V] [Inhabited V]

/-- A refused insertion passed over all slots from the home of its key to `addressable + 300`. -/
theorem step_full_path {E : Env K} {t t' : Tbl K V} {op : Op K V} {pc : PC K V} {r : Ret K V}
    (hE : E.OK) (hpc : PcInv E t op pc)
    (hs : step E op pc t = (t', .done r)) (hr : r.code = some .UNSUCCESS_FULL) :
    ∀ p, E.M.map (E.h op.key) ≤ p → p ≤ E.M.addr + 300 → (t p).c ≠ .empty := by
  obtain ⟨n, hw⟩ := hE.wf
  have hh := hw.map_lt (hE.hash op.key)
  cases pc with
  | load i att =>
    have htf : tooFar E (E.M.remap i) = true := by
      revert hs
      simp only [step]
      split
      · intro hs
        have ho := congrArg Prod.snd hs
        revert ho
        cases op <;> simp only [afterLoad, retEnd] <;> (repeat' split) <;> intro ho <;> cases ho <;>
          first | assumption | simp at hr
      · intro hs; cases congrArg Prod.snd hs
    simp only [tooFar, Bool.and_eq_true, Bool.not_eq_true', decide_eq_true_eq] at htf
    intro p h1 h2
    have := htf.2
    rw [Mapper.remap_lin htf.1] at this
    have := (hpc.2 p (by omega) (by omega)).1
    rwa [Mapper.remap_lin htf.1] at this
  | act i att curr =>
    exfalso
    revert hs
    simp only [step]
    split
    · intro hs
      have ho := congrArg Prod.snd hs
      revert ho
      cases op <;> simp only [actStep, casStep] <;> (repeat' split) <;> intro ho <;>
        first | (cases ho; simp at hr; done)
              | (simp only at ho; split at ho <;> cases ho <;> simp at hr)
              | (cases ho)
    · intro hs; cases congrArg Prod.snd hs

/-- The beginning of a run of occupied slots. -/
theorem run_begin {t : Tbl K V} {q : Nat} : ∀ n, n ≤ q + 1 → (∀ p, n ≤ p → p ≤ q → (t p).c ≠ .empty) →
    ∃ b, b ≤ n ∧ (∀ p, b ≤ p → p ≤ q → (t p).c ≠ .empty) ∧ (b = 0 ∨ (t (b - 1)).c = .empty) := by
  intro n
  induction n with
  | zero => intro _ h; exact ⟨0, Nat.le_refl _, h, .inl rfl⟩
  | succ n ih =>
    intro hn h
    by_cases he : (t n).c = .empty
    · exact ⟨n + 1, Nat.le_refl _, h, .inr he⟩
    · obtain ⟨b, hb, h1, h2⟩ := ih (by omega) (fun p h1 h2 => by
        by_cases hp : p = n
        · subst hp; exact he
        · exact h p (by omega) h2)
      exact ⟨b, by omega, h1, h2⟩

/-- The key in a slot. (proof, no code) -/
def keyAt (t : Tbl K V) (dflt : K) (p : Nat) : K :=
  match (t p).c with
  | .live k _ => k
  | _ => dflt

/-- In a table without tombstones an insertion is refused only if too many keys (those in the table
and the new one) have their home in the last part of the table. -/
theorem full_crowded {E : Env K} (hE : E.OK) {t t' : Tbl K V} (hI : Inv E t) (hcp : E.M.cp = false)
    (hnd : ∀ q v, (t q).c ≠ .deleted v) {d : Dict K V} (hst : Stores E t d) {op : Op K V}
    {n : Nat} {r : Ret K V} (hrun : run E op n (start E op) t = .done t' r)
    (hr : r.code = some .UNSUCCESS_FULL) (habs : d op.key = none) :
    ∃ (p : Nat) (l : List K), p < E.M.addr ∧ l.Nodup ∧ (∀ x ∈ l, (x = op.key ∨ d x ≠ none) ∧ p ≤ E.M.map (E.h x)) ∧
      l.length = E.M.addr - p + 302 := by
  obtain ⟨pc, hpc, -, hs⟩ := run_step hE hI hrun
  have hpath := step_full_path hE hpc hs hr
  obtain ⟨k, hw⟩ := hE.wf
  have hh := hw.map_lt (hE.hash op.key)
  have htot : E.M.total = E.M.addr + 1024 := by
    have := hw.total_eq; have := hw.addr_eq; simp [hcp] at *; omega
  obtain ⟨b, hb, hocc, hbeg⟩ := run_begin (q := E.M.addr + 300) (E.M.map (E.h op.key)) (by omega) hpath
  have hlive : ∀ p, b ≤ p → p ≤ E.M.addr + 300 → ∃ v, (t p).c = .live (keyAt t op.key p) v := by
    intro p h1 h2
    unfold keyAt
    cases hc : (t p).c with
    | empty => exact absurd hc (hocc p h1 h2)
    | deleted v => exact absurd hc (hnd p v)
    | live k v => exact ⟨v, rfl⟩
  have hkey : ∀ p, b ≤ p → p ≤ E.M.addr + 300 → d (keyAt t op.key p) ≠ none := by
    intro p h1 h2
    obtain ⟨v, hv⟩ := hlive p h1 h2
    have := (hst (keyAt t op.key p) v).2 ⟨p, by omega, hv⟩
    rw [this]; simp
  refine ⟨b, op.key :: (List.range (E.M.addr + 301 - b)).map (fun i => keyAt t op.key (b + i)),
    by omega, ?_, ?_, ?_⟩
  · rw [List.nodup_cons]
    constructor
    · intro hm
      obtain ⟨i, hi, he⟩ := List.mem_map.1 hm
      have := hkey (b + i) (by omega) (by have := List.mem_range.1 hi; omega)
      rw [he] at this
      exact this habs
    · unfold List.Nodup
      rw [List.pairwise_map]
      refine List.Pairwise.imp_of_mem ?_ List.pairwise_lt_range
      intro i j hi hj hlt heq
      have hi := List.mem_range.1 hi
      have hj := List.mem_range.1 hj
      obtain ⟨v, hv⟩ := hlive (b + i) (by omega) (by omega)
      obtain ⟨w, hw'⟩ := hlive (b + j) (by omega) (by omega)
      rw [← heq] at hw'
      have := hI.unique (show b + i < E.M.total by omega) (by omega) hv hw'
      omega
  · intro x hx
    rcases List.mem_cons.1 hx with rfl | hx
    · exact ⟨.inl rfl, hb⟩
    · obtain ⟨i, hi, rfl⟩ := List.mem_map.1 hx
      have hi := List.mem_range.1 hi
      refine ⟨.inr (hkey _ (by omega) (by omega)), ?_⟩
      obtain ⟨v, hv⟩ := hlive (b + i) (by omega) (by omega)
      obtain ⟨j, hj, hp⟩ := hI.reach _ _ _ (by omega) hv
      rw [Mapper.remap_lin hcp] at hj
      subst hj
      apply Classical.byContradiction
      intro hlt
      rcases hbeg with h0 | h0
      · omega
      · have := (hp.2 (b - 1) (by omega) (by omega)).1
        rw [Mapper.remap_lin hcp] at this
        exact this h0
  · simp; omega

/-- The hash values of the keys in `S` are spread: in every size that the table can have, at most
`n + 301` of them have their home in the last `n` slots. (assumption on the hash function, no code) -/
def Spread (h : K → Nat) (S : K → Prop) : Prop :=
  ∀ k p, 16 ≤ k → k < 32 → p < 2 ^ k → ∀ l : List K, l.Nodup →
    (∀ x ∈ l, S x ∧ p ≤ h x / 2 ^ (64 - k)) → l.length ≤ (2 ^ k - p) + 301

theorem SOp.sem_keys (o : SOp K V) (d : Dict K V) (x : K) (h : (o.sem d).1 x ≠ none) :
    d x ≠ none ∨ (o.inserts = true ∧ x = o.key) := by
  cases o <;> simp only [SOp.sem] at h <;> simp only [SOp.inserts, SOp.key]
  case find => exact .inl h
  all_goals
    split at h
    all_goals
      first
        | exact .inl h
        | (simp only [Dict.put, Dict.del] at h
           split at h
           · rename_i hx; subst hx; simp_all
           · exact .inl h)

theorem toSpec_key (m : Bool) (op : Op K V) : (op.toSpec m).key = op.key := by cases op <;> rfl

theorem toSpec_inserts (m : Bool) (op : Op K V) : (op.toSpec m).inserts = (op.toSpec true).inserts := by
  cases op <;> rfl

/-- After the base operation took effect the rest of the call completes. -/
theorem finish_call {upd : Bool} {A0 n : Nat} {op : Op K V} {s : GSt K V} {d : Dict K V}
    (hG : GInv A0 n s d) (hA : A0 < 2 ^ 32) (hn : 7 * (n + addsOf op) < 2 ^ 32) {f : Nat}
    {t' : Tbl K V} {r : Ret K V} (hrun : run s.E op f (start s.E op) s.t = .done t' r)
    (hnf : r.code ≠ some .UNSUCCESS_FULL) : ∃ x s', Call upd op s x s' := by
  obtain ⟨h1, h2, h3, h4, h5⟩ := run_done hG.tab.ok hG.tab.inv hG.tab.marks hG.tab.stores hrun
  obtain ⟨a1, a2, a3, a4, a5, a6, a7⟩ := react_cases h3 h4
  obtain ⟨pc, hpc, hsafe, hst⟩ := run_step hG.tab.ok hG.tab.inv hrun
  have hch := (step_change hpc hsafe hst).counts
  have hlive := hG.live; have hocc := hG.occ; have hfew := hG.few; have hup := hG.upd
  have hcap := hG.cap; have hff := hG.flushedFew; have hi := hG.ins; have hd := hG.del
  have hfl := hG.flushes
  rcases h5 with ⟨hfull, -⟩ | ⟨-, hni, hst', -⟩
  · exact absurd hfull hnf
  cases ha : react op r with
  | ret b => exact ⟨_, _, .ret hrun ha⟩
  | grow => exact absurd (a1.1 ha) hnf
  | help => exact absurd (a2.1 ha) hni
  | countInserted =>
    have hin := a3.1 ha
    have hadd := addsOf_success h3 hin
    obtain ⟨c1, c2⟩ := hch.1 hin
    rw [hadd] at hn
    by_cases hq : s.c.updates + 1 ≤ 64
    · exact ⟨_, _, .inserted hrun ha (.quiet hq)⟩
    · have hF : FInv A0 (n + 1) { s with t := t', c := ⟨s.c.updates + 1, s.c.inserted + 1, s.c.deleted⟩ }
          ((op.toSpec s.E.m).sem d).1 := by
        refine ⟨⟨hG.tab.ok, hG.tab.combo, h1, h2, hst', hG.tab.big⟩, ?_, ?_, ?_, ?_, ?_, ?_⟩
        all_goals simp only []
        all_goals omega
      obtain ⟨s', hf⟩ := Flush.exists (upd := upd) hF hA hn
      exact ⟨_, _, .inserted hrun ha (.flush (by simp only []; omega) hf)⟩
  | countDeleted =>
    have hin := a4.1 ha
    obtain ⟨c1, c2⟩ := hch.2.1 hin
    by_cases hq : s.c.updates + 1 ≤ 64
    · exact ⟨_, _, .deleted hrun ha (.quiet hq)⟩
    · have hF : FInv A0 (n + addsOf op) { s with t := t', c := ⟨s.c.updates + 1, s.c.inserted, s.c.deleted + 1⟩ }
          ((op.toSpec s.E.m).sem d).1 := by
        refine ⟨⟨hG.tab.ok, hG.tab.combo, h1, h2, hst', hG.tab.big⟩, ?_, ?_, ?_, ?_, ?_, ?_⟩
        all_goals simp only []
        all_goals omega
      obtain ⟨s', hf⟩ := Flush.exists (upd := upd) hF hA hn
      exact ⟨_, _, .deleted hrun ha (.flush (by simp only []; omega) hf)⟩

/-- Linear probing: if the hash values are spread, every call completes, after at most one growth
step because of a refused insertion. -/
theorem Call.exists_lin {upd : Bool} {A0 n : Nat} {op : Op K V} {s : GSt K V} {d : Dict K V}
    {S : K → Prop} (hG : GInv A0 n s d) (hcp : s.E.M.cp = false) (hS : Spread s.E.h S)
    (hd : ∀ x, d x ≠ none → S x) (hop : (op.toSpec true).inserts = true → S op.key)
    (hA : A0 < 2 ^ 32) (hn : 7 * (n + addsOf op) < 2 ^ 32) : ∃ x s', Call upd op s x s' := by
  have hroom : HasRoom s.E s.t := fun h => by rw [hcp] at h; cases h
  obtain ⟨t', r, hrun, -⟩ := runStart_good (op := op) hG.tab.ok hG.tab.inv hroom
  by_cases hfull : r.code = some .UNSUCCESS_FULL
  · obtain ⟨h1, h2, h3, h4, h5⟩ := run_done hG.tab.ok hG.tab.inv hG.tab.marks hG.tab.stores hrun
    obtain ⟨a1, -⟩ := react_cases h3 h4
    rcases h5 with ⟨-, ht, hk, hi, -⟩ | ⟨h, -⟩
    · subst ht
      have hcap := hG.cap; have hff := hG.flushedFew
      obtain ⟨s1, hg⟩ := Grow.exists (upd := upd) hG.tab hG.nonneg (by omega) (by omega)
      obtain ⟨g1, g2, g3, -⟩ := hg.keeps hG hA (by omega) hroom
      have hcp1 : s1.E.M.cp = false := by rw [g2.2.2.2]; exact hcp
      have hcm1 : s1.E.M.cm = false := by
        cases hc : s1.E.M.cm
        · rfl
        · have := g1.tab.combo hc; rw [hcp1] at this; cases this
      have hroom1 : HasRoom s1.E s1.t := fun h => by rw [hcp1] at h; cases h
      obtain ⟨t2, r2, hrun2, -⟩ := runStart_good (op := op) g1.tab.ok g1.tab.inv hroom1
      have hnf2 : r2.code ≠ some .UNSUCCESS_FULL := by
        intro hf2
        obtain ⟨p, l, hp, hnd, hall, hlen⟩ := full_crowded g1.tab.ok g1.tab.inv hcp1 g3 g1.tab.stores
          hrun2 hf2 hk
        obtain ⟨k, hw⟩ := g1.tab.ok.wf
        have hcap1 := g1.cap
        have hk32 : k < 32 := by
          rw [hw.addr_eq] at hcap1
          apply (Nat.pow_lt_pow_iff_right (by omega : 1 < 2)).1
          omega
        rw [toSpec_inserts] at hi
        rw [hw.addr_eq] at hp hlen
        have := hS k p (g1.tab.big k hw) hk32 hp l hnd (fun x hx => by
          obtain ⟨e1, e2⟩ := hall x hx
          rw [hw.map_lin hcm1, g2.1] at e2
          refine ⟨?_, e2⟩
          rcases e1 with rfl | e1
          · exact hop hi
          · exact hd x e1)
        omega
      obtain ⟨x, s2, hc⟩ := finish_call (upd := upd) g1 hA hn hrun2 hnf2
      exact ⟨x, s2, .grow hrun (a1.2 hfull) hg hc⟩
    · exact absurd hfull h
  · exact finish_call hG hA hn hrun hfull

/-- Linear probing: every sequence of calls completes. -/
theorem Calls.exists_lin {upd : Bool} {A0 : Nat} {S : K → Prop} (hA : A0 < 2 ^ 32)
    (ops : List (HOp K V)) : ∀ {n : Nat} {s : GSt K V} {d : Dict K V}, GInv A0 n s d →
    s.E.M.cp = false → Spread s.E.h S → (∀ x, d x ≠ none → S x) →
    (∀ op ∈ opsOf ops, (op.toSpec true).inserts = true → S op.key) →
    7 * (n + insertCalls (opsOf ops)) < 2 ^ 32 → ∃ l s', Calls upd s ops l s' := by
  induction ops with
  | nil => intro n s d _ _ _ _ _ _; exact ⟨_, _, .nil s⟩
  | cons o ops ih =>
    intro n s d hG hcp hS hd hops hn
    cases o with
    | op op =>
      have hc := insertCalls_cons op (opsOf ops)
      simp only [opsOf, hc] at hn hops
      obtain ⟨x, s1, h1⟩ := Call.exists_lin (upd := upd) hG hcp hS hd (hops op (by simp)) hA (by omega)
      obtain ⟨g1, g2, -⟩ := h1.good hG hA (by omega)
      obtain ⟨l, s2, h2⟩ := ih g1 (by rw [g2.2.2.2]; exact hcp) (by rw [g2.1]; exact hS)
        (fun x hx => by
          rcases SOp.sem_keys _ _ _ hx with h | ⟨h, rfl⟩
          · exact hd x h
          · rw [toSpec_key]
            rw [toSpec_inserts] at h
            exact hops op (by simp) h)
        (fun op' h' => hops op' (by simp [h'])) (by omega)
      exact ⟨_, _, .op h1 h2⟩
    | flush =>
      simp only [opsOf] at hn hops
      obtain ⟨s1, h1⟩ := Flush.exists (upd := upd) hG.toF hA (by omega)
      obtain ⟨g1, g2, -⟩ := h1.good hG.toF hA (by omega)
      obtain ⟨l, s2, h2⟩ := ih g1 (by rw [g2.2.2.2]; exact hcp) (by rw [g2.1]; exact hS) hd hops hn
      exact ⟨_, _, .flush h1 h2⟩

/-- Circular probing: a call completes while the element counter is at most the threshold. -/
theorem Call.exists_cyc {upd : Bool} {A0 n : Nat} {op : Op K V} {s : GSt K V} {d : Dict K V}
    (hG : GInv A0 n s d) (hcp : s.E.M.cp = true) (hlt : s.elements ≤ Cnt.thresh s.E.M.total)
    (hA : A0 < 2 ^ 32) (hn : 7 * (n + addsOf op) < 2 ^ 32) : ∃ x s', Call upd op s x s' := by
  have hroom : HasRoom s.E s.t := fun _ => by
    apply occupied_lt
    obtain ⟨h1, h2, h3⟩ := hG.tab.total_ge
    have := thresh_room (show 65536 ≤ s.E.M.total by omega)
    have := hG.occ; have := hG.upd; have := hG.flushes; have := hG.del
    omega
  obtain ⟨t', r, hrun, -⟩ := runStart_good (op := op) hG.tab.ok hG.tab.inv hroom
  have hnf : r.code ≠ some .UNSUCCESS_FULL := by
    intro hfull
    obtain ⟨h1, h2, h3, h4, h5⟩ := run_done hG.tab.ok hG.tab.inv hG.tab.marks hG.tab.stores hrun
    rcases h5 with ⟨-, -, -, -, h, -⟩ | ⟨h, -⟩
    · rw [hcp] at h; cases h
    · exact h hfull
  exact finish_call hG hA hn hrun hnf

/-- Circular probing: a call started below the threshold leaves the counter at most at it. -/
theorem Call.atMost {upd : Bool} {A0 n : Nat} {op : Op K V} {s s' : GSt K V} {x : SRes V}
    {d : Dict K V} (hc : Call upd op s x s') (hG : GInv A0 n s d) (hcp : s.E.M.cp = true)
    (hlt : s.elements < Cnt.thresh s.E.M.total)
    (hA : A0 < 2 ^ 32) (hn : 7 * (n + addsOf op) < 2 ^ 32) :
    s'.elements ≤ Cnt.thresh s'.E.M.total := by
  cases hc with
  | ret hrun ha => exact Int.le_of_lt hlt
  | @inserted _ _ _ t' r hrun ha hinc =>
    obtain ⟨h1, h2, h3, h4, h5⟩ := run_done hG.tab.ok hG.tab.inv hG.tab.marks hG.tab.stores hrun
    obtain ⟨a1, a2, a3, a4, a5, a6, a7⟩ := react_cases h3 h4
    obtain ⟨pc, hpc, hsafe, hst⟩ := run_step hG.tab.ok hG.tab.inv hrun
    have hch := (step_change hpc hsafe hst).counts
    have hin := a3.1 ha
    have hadd := addsOf_success h3 hin
    rcases h5 with ⟨hfull, -⟩ | ⟨hnf, hni, hst', hag⟩
    · rw [hfull] at hin; cases hin
    · obtain ⟨c1, c2⟩ := hch.1 hin
      have hlive := hG.live; have hocc := hG.occ; have hfew := hG.few; have hup := hG.upd
      have hcap := hG.cap; have hff := hG.flushedFew; have hi := hG.ins; have hd := hG.del
      have hfl := hG.flushes
      rw [hadd] at hn
      cases hinc with
      | quiet hq => exact Int.le_of_lt hlt
      | flush hq hf =>
        have hF : FInv A0 (n + 1) { s with t := t', c := ⟨s.c.updates + 1, s.c.inserted + 1, s.c.deleted⟩ }
            ((op.toSpec s.E.m).sem d).1 := by
          refine ⟨⟨hG.tab.ok, hG.tab.combo, h1, h2, hst', hG.tab.big⟩, ?_, ?_, ?_, ?_, ?_, ?_⟩
          all_goals simp only []
          all_goals omega
        exact (hf.good hF hA hn).2.2 hlt
  | @deleted _ _ _ t' r hrun ha hinc =>
    obtain ⟨h1, h2, h3, h4, h5⟩ := run_done hG.tab.ok hG.tab.inv hG.tab.marks hG.tab.stores hrun
    obtain ⟨a1, a2, a3, a4, a5, a6, a7⟩ := react_cases h3 h4
    obtain ⟨pc, hpc, hsafe, hst⟩ := run_step hG.tab.ok hG.tab.inv hrun
    have hch := (step_change hpc hsafe hst).counts
    have hin := a4.1 ha
    rcases h5 with ⟨hfull, -⟩ | ⟨hnf, hni, hst', hag⟩
    · rw [hfull] at hin; cases hin
    · obtain ⟨c1, c2⟩ := hch.2.1 hin
      have hlive := hG.live; have hocc := hG.occ; have hfew := hG.few; have hup := hG.upd
      have hcap := hG.cap; have hff := hG.flushedFew; have hi := hG.ins; have hd := hG.del
      have hfl := hG.flushes
      cases hinc with
      | quiet hq => exact Int.le_of_lt hlt
      | flush hq hf =>
        have hF : FInv A0 (n + addsOf op) { s with t := t', c := ⟨s.c.updates + 1, s.c.inserted, s.c.deleted + 1⟩ }
            ((op.toSpec s.E.m).sem d).1 := by
          refine ⟨⟨hG.tab.ok, hG.tab.combo, h1, h2, hst', hG.tab.big⟩, ?_, ?_, ?_, ?_, ?_, ?_⟩
          all_goals simp only []
          all_goals omega
        exact (hf.good hF hA hn).2.2 hlt
  | grow hrun ha hg _ =>
    obtain ⟨h1, h2, h3, h4, h5⟩ := run_done hG.tab.ok hG.tab.inv hG.tab.marks hG.tab.stores hrun
    obtain ⟨a1, -⟩ := react_cases h3 h4
    rcases h5 with ⟨-, -, -, -, h, -⟩ | ⟨hnf, -⟩
    · rw [hcp] at h; cases h
    · exact absurd (a1.1 ha) hnf
  | help hrun ha _ =>
    obtain ⟨h1, h2, h3, h4, h5⟩ := run_done hG.tab.ok hG.tab.inv hG.tab.marks hG.tab.stores hrun
    obtain ⟨-, a2, -⟩ := react_cases h3 h4
    have hinv := a2.1 ha
    rcases h5 with ⟨hfull, -⟩ | ⟨_, hni, -⟩
    · rw [hfull] at hinv; cases hinv
    · exact absurd hinv hni

/-- Circular probing: a sequence of calls completes, unless the counter hits the threshold
exactly. -/
theorem Calls.exists_cyc {upd : Bool} {A0 : Nat} (hA : A0 < 2 ^ 32)
    (ops : List (HOp K V)) : ∀ {n : Nat} {s : GSt K V} {d : Dict K V}, GInv A0 n s d →
    s.E.M.cp = true → s.elements ≤ Cnt.thresh s.E.M.total →
    7 * (n + insertCalls (opsOf ops)) < 2 ^ 32 →
    (∃ l s', Calls upd s ops l s') ∨
      ∃ pre post l s', ops = pre ++ post ∧ Calls upd s pre l s' ∧
        s'.elements = Cnt.thresh s'.E.M.total := by
  induction ops with
  | nil => intro n s d _ _ _ _; exact .inl ⟨_, _, .nil s⟩
  | cons o ops ih =>
    intro n s d hG hcp hle hn
    by_cases hlt : s.elements < Cnt.thresh s.E.M.total
    · cases o with
      | op op =>
        have hc := insertCalls_cons op (opsOf ops)
        simp only [opsOf, hc] at hn
        obtain ⟨x, s1, h1⟩ := Call.exists_cyc (upd := upd) (op := op) hG hcp hle hA (by omega)
        obtain ⟨g1, g2, -⟩ := h1.good hG hA (by omega)
        rcases ih g1 (by rw [g2.2.2.2]; exact hcp) (h1.atMost hG hcp hlt hA (by omega)) (by omega) with
          ⟨l, s2, h2⟩ | ⟨pre, post, l, s2, e, h2, h3⟩
        · exact .inl ⟨_, _, .op h1 h2⟩
        · exact .inr ⟨.op op :: pre, post, _, _, by rw [e]; rfl, .op h1 h2, h3⟩
      | flush =>
        simp only [opsOf] at hn
        obtain ⟨s1, h1⟩ := Flush.exists (upd := upd) hG.toF hA (by omega)
        obtain ⟨g1, g2, g3⟩ := h1.good hG.toF hA (by omega)
        rcases ih g1 (by rw [g2.2.2.2]; exact hcp) (g3 hlt) hn with
          ⟨l, s2, h2⟩ | ⟨pre, post, l, s2, e, h2, h3⟩
        · exact .inl ⟨_, _, .flush h1 h2⟩
        · exact .inr ⟨.flush :: pre, post, _, _, by rw [e]; rfl, .flush h1 h2, h3⟩
    · exact .inr ⟨[], o :: ops, [], s, rfl, .nil s, by omega⟩

end
end Growt
