import Verif.AsyncHb

/-!
# C68: asynchronous growth, the plain writes of a migration happen before the uses of the new table
-/

set_option linter.unusedSectionVars false

namespace Growt
namespace Async
section
variable {T A : Type} [DecidableEq T] [DecidableEq A]

/-- No data race on the tables: a thread in an operation knows all plain writes to its table and to earlier ones;
so does a thread that reads the version of the table it has just protected; a thread that migrates knows the
writes to the table that it reads, and the construction of the table to which it writes.
(specification, no code) -/
def HSt.Safe (x : HSt T A) : Prop :=
  (∀ t h, x.s.pc t = .use h → ∀ k, x.b.done k = true → k.ver ≤ h.ep → x.b.know t k = true) ∧
  (∀ t y v c, x.s.pc t = .ldW y v c → ∀ o, x.s.heap c = some o →
    ∀ k, x.b.done k = true → k.ver ≤ o.ver → x.b.know t k = true) ∧
  ∀ t u c n, (x.s.pc t = .mg4 u c n ∨ ∃ i, x.s.pc t = .mg5 u c n i) → ∀ o, x.s.heap c = some o →
    ∀ k, x.b.done k = true → k.ver ≤ o.ver ∨ k = .made (o.ver + 1) → x.b.know t k = true

/-- **C68**: in every execution, whatever the other orders are. -/
theorem C68_async_writes_seen {o : Orders} (h1 : o.sub = true) (h2 : o.zero = true) (h3 : o.pub = true)
    (h4 : o.prot = true) (h5 : o.att = true) (h6 : o.next = true) {a : A} {n : Nat} {l : List (Lab T A)}
    {x : HSt T A} (h : HReach o a n l x) : x.Safe := by
  have hi := HInv.reach ⟨h1, h2, h3, h4, h5, h6⟩ h
  refine ⟨fun t hd hp k hk hv => hi.need t k hk (by rw [hp]; exact hv),
    fun t y v c hp o ho k hk hv => hi.need t k hk (by rw [hp]; exact ⟨o, ho, hv⟩), ?_⟩
  rintro t u c n (hp | ⟨i, hp⟩) o ho k hk hv
  · exact hi.need t k hk (by rw [hp]; exact .inr ⟨o, ho, hv⟩)
  · exact hi.need t k hk (by rw [hp]; exact .inr ⟨o, ho, hv⟩)

/-- **C68**: no write to a table that a thread uses is still to come: a thread that migrates a block writes to
a table with a later version. -/
theorem C68_async_no_writes_left {a : A} {n : Nat} {l : List (Lab T A)} {s : St T A} (h : Reach a n l s)
    {t t' : T} {hd : Hd A} {u : Option (Hd A)} {c b : A} {k : Nat} {o : Obj A} (hp : s.pc t = .use hd)
    (hq : s.pc t' = .mg5 u c b k) (ho : s.heap c = some o) :
    hd.ep < (Tok.blk o.ver k).ver ∧ hd.tab ≠ b := by
  have i := Inv.reach h
  have ht := i.t t
  have hq' := i.t t'
  rw [hp] at ht
  rw [hq] at hq'
  obtain ⟨e, o', h1, h2, -⟩ := mg5_glob i.g hq'
  have := h1.1.symm.trans ho
  cases this
  have hle := Hold.vle ht
  refine ⟨by simp only [Tok.ver]; omega, ?_⟩
  rintro rfl
  obtain ⟨-, ⟨o2, p1, -, -, p2, -⟩, -⟩ := hq'
  have := p1.1.symm.trans ho
  cases this
  rw [e] at ho
  obtain ⟨ob, q1, q2⟩ := i.g.succ o _ ho p2
  obtain ⟨o3, r1, r2, -⟩ := ht
  have := q1.1.symm.trans r1.1
  cases this
  omega

/-- Two threads. (specification, no code) -/
theorem two {p q : Bool → PC Nat} {t : Bool} (h : p (!t) = q (!t)) : ∀ t', t' ≠ t → p t' = q t' := by
  intro t' ht
  cases t <;> cases t' <;> first
    | exact absurd rfl ht
    | exact h

/-- An execution in which thread `false`, of the pool, migrates the only block and thread `true` replaces the table
and uses the new one. -/
theorem ex_help (o : Orders) : ∃ l, ∃ x : HSt Bool Nat, HReach o 0 1 l x ∧ x.s.pc true = .use ⟨1, 1⟩ ∧
    x.b.done (.blk 0 0) = true ∧ x.b.done (.made 1) = true ∧
    (o = { codeOrders with sub := false } ∨ o = { codeOrders with zero := false } →
      x.b.know true (.blk 0 0) = false) ∧
    (o = codeOrders → x.b.know true (.blk 0 0) = true) := by
  have r0 : HReach (T := Bool) o (0 : Nat) 1 _ _ := HReach.init
  have r1 := r0.step (.mk true (Step.create (t := true) rfl) (two rfl))
  have r2 := r1.step (.mk true (Step.prot (t := true) rfl rfl) (two rfl))
  have r3 := r2.step (.mk true (Step.ldDone (t := true) rfl rfl rfl (by decide)) (two rfl))
  have r4 := r3.step (.mk true (Step.gtOk (t := true) rfl (Nat.le_refl 0)) (two rfl))
  have r5 := r4.step (.mk true (Step.exitGrow (t := true) rfl) (two rfl))
  have r6 := r5.step (.mk true (Step.grMake (t := true) (b := 1) 1 rfl rfl rfl) (two rfl))
  have r7 := r6.step (.mk true (Step.grCas (t := true) rfl rfl rfl rfl) (two rfl))
  have r8 := r7.step (.mk false (Step.pool (t := false) rfl) (two rfl))
  have r9 := r8.step (.mk false (Step.poolGo (t := false) rfl) (two rfl))
  have r10 := r9.step (.mk false (Step.mgIn (t := false) rfl) (two rfl))
  have r11 := r10.step (.mk false (Step.mgProt (t := false) rfl rfl) (two rfl))
  have r12 := r11.step (.mk false (Step.mgSome (t := false) rfl rfl (by intro h; cases h)) (two rfl))
  have r13 := r12.step (.mk false (Step.mgNext (t := false) rfl rfl rfl rfl) (two rfl))
  have r14 := r13.step (.mk false (Step.claim (t := false) rfl rfl (Nat.lt_succ_self 0)) (two rfl))
  have r15 := r14.step (.mk true (Step.mgIn (t := true) rfl) (two rfl))
  have r16 := r15.step (.mk true (Step.mgProt (t := true) rfl rfl) (two rfl))
  have r17 := r16.step (.mk true (Step.mgSome (t := true) rfl rfl (by intro h; cases h)) (two rfl))
  have r18 := r17.step (.mk true (Step.mgNext (t := true) rfl rfl rfl rfl) (two rfl))
  have r19 := r18.step (.mk true (Step.leave (t := true) rfl rfl (Nat.le_refl 1)) (two rfl))
  have r20 := r19.step (.mk true (Step.mgOut (t := true) rfl) (two rfl))
  have r21 := r20.step (.mk true (Step.mgUn (t := true) rfl rfl) (two rfl))
  have r22 := r21.step (.mk true (Step.mgUn2 (t := true) rfl) (two rfl))
  have r23 := r22.step (.mk false (Step.done (t := false) rfl rfl) (two rfl))
  have r24 := r23.step (.mk false (Step.leave (t := false) rfl rfl (by decide)) (two rfl))
  have r25 := r24.step (.mk false (Step.mgOut (t := false) rfl) (two rfl))
  have r26 := r25.step (.mk true (Step.egGo (t := true) rfl rfl) (two rfl))
  have r27 := r26.step (.mk true (Step.egNext (t := true) rfl rfl) (two rfl))
  have r28 := r27.step (.mk true (Step.egCas (t := true) rfl rfl) (two rfl))
  have r29 := r28.step (.mk true (Step.egEpoch (t := true) rfl rfl) (two rfl))
  have r30 := r29.step (.mk true (Step.egRetire (t := true) rfl rfl) (two rfl))
  have r31 := r30.step (.mk true (Step.unprot (t := true) rfl) (two rfl))
  have r32 := r31.step (.mk true (Step.prot (t := true) rfl rfl) (two rfl))
  have r33 := r32.step (.mk true (Step.ldDone (t := true) rfl rfl rfl (by decide)) (two rfl))
  have r34 := r33.step (.mk true (Step.gtOk (t := true) rfl (Nat.le_refl 1)) (two rfl))
  refine ⟨_, _, r34, rfl, rfl, rfl, ?_, ?_⟩
  · rintro (rfl | rfl) <;> rfl
  · rintro rfl; rfl

/-- An execution in which thread `true` grows the table alone, and thread `false` then protects the new one. -/
theorem ex_new (o : Orders) : ∃ l, ∃ x : HSt Bool Nat, HReach o 0 1 l x ∧ x.s.pc false = .ldW .init 0 1 ∧
    (∃ o1, x.s.heap 1 = some o1 ∧ o1.ver = 1) ∧ x.b.done (.made 1) = true ∧
    (o = { codeOrders with pub := false } ∨ o = { codeOrders with prot := false } →
      x.b.know false (.made 1) = false) := by
  have r0 : HReach (T := Bool) o (0 : Nat) 1 _ _ := HReach.init
  have r1 := r0.step (.mk true (Step.create (t := true) rfl) (two rfl))
  have r2 := r1.step (.mk true (Step.prot (t := true) rfl rfl) (two rfl))
  have r3 := r2.step (.mk true (Step.ldDone (t := true) rfl rfl rfl (by decide)) (two rfl))
  have r4 := r3.step (.mk true (Step.gtOk (t := true) rfl (Nat.le_refl 0)) (two rfl))
  have r5 := r4.step (.mk true (Step.exitGrow (t := true) rfl) (two rfl))
  have r6 := r5.step (.mk true (Step.grMake (t := true) (b := 1) 1 rfl rfl rfl) (two rfl))
  have r7 := r6.step (.mk true (Step.grCas (t := true) rfl rfl rfl rfl) (two rfl))
  have r8 := r7.step (.mk true (Step.mgIn (t := true) rfl) (two rfl))
  have r9 := r8.step (.mk true (Step.mgProt (t := true) rfl rfl) (two rfl))
  have r10 := r9.step (.mk true (Step.mgSome (t := true) rfl rfl (by intro h; cases h)) (two rfl))
  have r11 := r10.step (.mk true (Step.mgNext (t := true) rfl rfl rfl rfl) (two rfl))
  have r12 := r11.step (.mk true (Step.claim (t := true) rfl rfl (Nat.lt_succ_self 0)) (two rfl))
  have r13 := r12.step (.mk true (Step.done (t := true) rfl rfl) (two rfl))
  have r14 := r13.step (.mk true (Step.leave (t := true) rfl rfl (Nat.le_refl 1)) (two rfl))
  have r15 := r14.step (.mk true (Step.mgOut (t := true) rfl) (two rfl))
  have r16 := r15.step (.mk true (Step.mgUn (t := true) rfl rfl) (two rfl))
  have r17 := r16.step (.mk true (Step.mgUn2 (t := true) rfl) (two rfl))
  have r18 := r17.step (.mk true (Step.egGo (t := true) rfl rfl) (two rfl))
  have r19 := r18.step (.mk true (Step.egNext (t := true) rfl rfl) (two rfl))
  have r20 := r19.step (.mk true (Step.egCas (t := true) rfl rfl) (two rfl))
  have r21 := r20.step (.mk false (Step.create (t := false) rfl) (two rfl))
  have r22 := r21.step (.mk false (Step.prot (t := false) rfl rfl) (two rfl))
  refine ⟨_, _, r22, rfl, ⟨_, rfl, rfl⟩, rfl, ?_⟩
  rintro (rfl | rfl) <;> rfl

/-- An execution in which thread `false`, of the pool, meets the successor that thread `true` has attached. -/
theorem ex_next (o : Orders) : ∃ l, ∃ x : HSt Bool Nat, HReach o 0 1 l x ∧ x.s.pc false = .mg4 none 0 1 ∧
    (∃ o0, x.s.heap 0 = some o0 ∧ o0.ver = 0) ∧ x.b.done (.made 1) = true ∧
    (o = { codeOrders with att := false } ∨ o = { codeOrders with next := false } →
      x.b.know false (.made 1) = false) := by
  have r0 : HReach (T := Bool) o (0 : Nat) 1 _ _ := HReach.init
  have r1 := r0.step (.mk true (Step.create (t := true) rfl) (two rfl))
  have r2 := r1.step (.mk true (Step.prot (t := true) rfl rfl) (two rfl))
  have r3 := r2.step (.mk true (Step.ldDone (t := true) rfl rfl rfl (by decide)) (two rfl))
  have r4 := r3.step (.mk true (Step.gtOk (t := true) rfl (Nat.le_refl 0)) (two rfl))
  have r5 := r4.step (.mk true (Step.exitGrow (t := true) rfl) (two rfl))
  have r6 := r5.step (.mk true (Step.grMake (t := true) (b := 1) 1 rfl rfl rfl) (two rfl))
  have r7 := r6.step (.mk false (Step.pool (t := false) rfl) (two rfl))
  have r8 := r7.step (.mk false (Step.poolGo (t := false) rfl) (two rfl))
  have r9 := r8.step (.mk false (Step.mgIn (t := false) rfl) (two rfl))
  have r10 := r9.step (.mk false (Step.mgProt (t := false) rfl rfl) (two rfl))
  have r11 := r10.step (.mk true (Step.grCas (t := true) rfl rfl rfl rfl) (two rfl))
  have r12 := r11.step (.mk false (Step.mgSome (t := false) rfl rfl (by intro h; cases h)) (two rfl))
  have r13 := r12.step (.mk false (Step.mgNext (t := false) rfl rfl rfl rfl) (two rfl))
  refine ⟨_, _, r13, rfl, ⟨_, rfl, rfl⟩, rfl, ?_⟩
  rintro (rfl | rfl) <;> rfl

/-- **C68, these orders and no others are needed**: whatever the orders are, all executions are free of these data
races exactly if the decrements of `_n_helper` release, the load of `_n_helper` in `end_grow` acquires, the
exchange of `_table` releases, `protect` acquires, the exchange of `next_table` releases and its loads
acquire. -/
theorem C68_async_orders_needed (o : Orders) :
    (∀ l (x : HSt Bool Nat), HReach o 0 1 l x → x.Safe) ↔
      o.sub = true ∧ o.zero = true ∧ o.pub = true ∧ o.prot = true ∧ o.att = true ∧ o.next = true := by
  refine ⟨fun h => ?_, fun ⟨h1, h2, h3, h4, h5, h6⟩ l x h => C68_async_writes_seen h1 h2 h3 h4 h5 h6 h⟩
  refine ⟨?_, ?_, ?_, ?_, ?_, ?_⟩
  · cases e : o.sub with
    | true => rfl
    | false =>
      obtain ⟨l, x, hr, hp, hd, -, hk, -⟩ := ex_help { codeOrders with sub := false }
      obtain ⟨b, hr', hb⟩ := hr.weaken (o := o)
        ⟨fun _ => rfl, fun h => (by rw [e] at h; cases h), fun _ => rfl, fun _ => rfl, fun _ => rfl, fun _ => rfl, fun _ => rfl,
          fun _ => rfl, fun _ => rfl, fun _ => rfl⟩
      have := hb.know _ _ ((h _ _ hr').1 true _ hp (.blk 0 0) (by rw [← hd]; exact congrFun hb.done _) (Nat.le_refl 1))
      rw [hk (.inl rfl)] at this; cases this
  · cases e : o.zero with
    | true => rfl
    | false =>
      obtain ⟨l, x, hr, hp, hd, -, hk, -⟩ := ex_help { codeOrders with zero := false }
      obtain ⟨b, hr', hb⟩ := hr.weaken (o := o)
        ⟨fun _ => rfl, fun _ => rfl, fun h => (by rw [e] at h; cases h), fun _ => rfl, fun _ => rfl, fun _ => rfl, fun _ => rfl,
          fun _ => rfl, fun _ => rfl, fun _ => rfl⟩
      have := hb.know _ _ ((h _ _ hr').1 true _ hp (.blk 0 0) (by rw [← hd]; exact congrFun hb.done _) (Nat.le_refl 1))
      rw [hk (.inr rfl)] at this; cases this
  · cases e : o.pub with
    | true => rfl
    | false =>
      obtain ⟨l, x, hr, hp, ⟨o1, h1, h2⟩, hd, hk⟩ := ex_new { codeOrders with pub := false }
      obtain ⟨b, hr', hb⟩ := hr.weaken (o := o)
        ⟨fun _ => rfl, fun _ => rfl, fun _ => rfl, fun h => (by rw [e] at h; cases h), fun _ => rfl, fun _ => rfl, fun _ => rfl,
          fun _ => rfl, fun _ => rfl, fun _ => rfl⟩
      have := hb.know _ _ ((h _ _ hr').2.1 false _ _ _ hp o1 h1 (.made 1) (by rw [← hd]; exact congrFun hb.done _)
        (by rw [h2]; exact Nat.le_refl 1))
      rw [hk (.inl rfl)] at this; cases this
  · cases e : o.prot with
    | true => rfl
    | false =>
      obtain ⟨l, x, hr, hp, ⟨o1, h1, h2⟩, hd, hk⟩ := ex_new { codeOrders with prot := false }
      obtain ⟨b, hr', hb⟩ := hr.weaken (o := o)
        ⟨fun _ => rfl, fun _ => rfl, fun _ => rfl, fun _ => rfl, fun h => (by rw [e] at h; cases h), fun _ => rfl, fun _ => rfl,
          fun _ => rfl, fun _ => rfl, fun _ => rfl⟩
      have := hb.know _ _ ((h _ _ hr').2.1 false _ _ _ hp o1 h1 (.made 1) (by rw [← hd]; exact congrFun hb.done _)
        (by rw [h2]; exact Nat.le_refl 1))
      rw [hk (.inr rfl)] at this; cases this
  · cases e : o.att with
    | true => rfl
    | false =>
      obtain ⟨l, x, hr, hp, ⟨o1, h1, h2⟩, hd, hk⟩ := ex_next { codeOrders with att := false }
      obtain ⟨b, hr', hb⟩ := hr.weaken (o := o)
        ⟨fun _ => rfl, fun _ => rfl, fun _ => rfl, fun _ => rfl, fun _ => rfl, fun h => (by rw [e] at h; cases h), fun _ => rfl,
          fun _ => rfl, fun _ => rfl, fun _ => rfl⟩
      have := hb.know _ _ ((h _ _ hr').2.2 false _ _ _ (.inl hp) o1 h1 (.made 1) (by rw [← hd]; exact congrFun hb.done _)
        (.inr (by rw [h2])))
      rw [hk (.inl rfl)] at this; cases this
  · cases e : o.next with
    | true => rfl
    | false =>
      obtain ⟨l, x, hr, hp, ⟨o1, h1, h2⟩, hd, hk⟩ := ex_next { codeOrders with next := false }
      obtain ⟨b, hr', hb⟩ := hr.weaken (o := o)
        ⟨fun _ => rfl, fun _ => rfl, fun _ => rfl, fun _ => rfl, fun _ => rfl, fun _ => rfl, fun h => (by rw [e] at h; cases h),
          fun _ => rfl, fun _ => rfl, fun _ => rfl⟩
      have := hb.know _ _ ((h _ _ hr').2.2 false _ _ _ (.inl hp) o1 h1 (.made 1) (by rw [← hd]; exact congrFun hb.done _)
        (.inr (by rw [h2])))
      rw [hk (.inr rfl)] at this; cases this

/-- **C68 for the orders in the code**: every execution of the protocol carries a happens-before relation, and in
none of them is there a data race of this kind. -/
theorem C68_async_code [Inhabited T] {a : A} {n : Nat} {l : List (Lab T A)} {s : St T A} (h : Reach a n l s) :
    (∃ b, HReach codeOrders a n l ⟨s, b⟩) ∧ ∀ b, HReach codeOrders a n l ⟨s, b⟩ → HSt.Safe ⟨s, b⟩ :=
  ⟨HReach.lift codeOrders h, fun _ h => C68_async_writes_seen rfl rfl rfl rfl rfl rfl h⟩

/-- **C68, not vacuous**: with the orders in the code there is an execution in which one thread writes a block of
the new table and another thread uses this table, and knows the write. -/
theorem C68_async_not_vacuous : ∃ l, ∃ x : HSt Bool Nat, HReach codeOrders 0 1 l x ∧
    x.s.pc true = .use ⟨1, 1⟩ ∧ x.b.done (.blk 0 0) = true ∧ x.b.done (.made 1) = true ∧
    x.b.know true (.blk 0 0) = true := by
  obtain ⟨l, x, h1, h2, h3, h4, -, h5⟩ := ex_help codeOrders
  exact ⟨l, x, h1, h2, h3, h4, h5 rfl⟩

end
end Async
end Growt
