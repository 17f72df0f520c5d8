import Verif.Count

/-
Properties of the element counters of growing tables: C32, C33, C51.
The executions range over any number of handles and every interleaving of successful
operations, flushes, moves, destructions and growth steps.
-/

namespace Growt
open Cnt

/-! ### C32 -/

/-- All handles are outside `update_numbers` and have nothing to flush. (specification, no code) -/
def AllFlushed (s : Cnt.St) : Prop :=
  ∀ h ∈ s.hs, (h.st = .ready ∨ h.st = .gone) ∧ h.c.inserted = 0 ∧ h.c.deleted = 0

/-- No growing thread is between its two accesses to the counters. (specification, no code) -/
def NoGrowthInside (s : Cnt.St) : Prop := s.exchanged = [] ∧ s.subtracted = []

theorem pending_flushed {s : Cnt.St} (h : AllFlushed s) : pending s = 0 := by
  unfold pending
  have : ∀ l : List Handle,
      (∀ h ∈ l, (h.st = .ready ∨ h.st = .gone) ∧ h.c.inserted = 0 ∧ h.c.deleted = 0) →
      isum (l.map Handle.unflushed) = 0 := by
    intro l
    induction l with
    | nil => intro _; rfl
    | cons a l ih =>
      intro hl
      have h1 := hl a (by simp)
      have h2 := ih (fun h hm => hl h (by simp [hm]))
      have h3 : a.unflushed = 0 := by
        unfold Handle.unflushed
        rcases h1 with ⟨h1 | h1, h4, h5⟩ <;> simp [h1, h4, h5]
      simp [isum, h2, h3]
  exact this _ h

/-- C32, at every moment: the shared difference plus everything the handles have not
flushed yet plus what growing threads have in their hands is the number of successful
insertions minus successful erasures. -/
theorem C32_counts_add_up {tr : List Ev} {s : Cnt.St} (h : Exec {} tr s) :
    s.elements - s.dummies + pending s - isum s.exchanged + isum s.subtracted = net tr := by
  have := exec_total h
  have h0 : total {} = 0 := by decide
  unfold total at this h0
  omega

/-- C32 at every moment at which no growing thread is between its two accesses.  (The
full statement has no such restriction; `C32_off_during_growth` refutes it.) -/
theorem C32_counts_add_up_partial {tr : List Ev} {s : Cnt.St} (h : Exec {} tr s)
    (hg : NoGrowthInside s) : s.elements - s.dummies + pending s = net tr := by
  have := C32_counts_add_up h
  rw [hg.1, hg.2] at this
  simp only [isum] at this
  omega

/-- C32, once all handles are flushed `element_count_approx` is exact. -/
theorem C32_exact_when_flushed {tr : List Ev} {s : Cnt.St} (h : Exec {} tr s)
    (hg : NoGrowthInside s) (hf : AllFlushed s) (h0 : 0 ≤ net tr) (h1 : net tr < 2 ^ 64) :
    (approx s : Int) = net tr := by
  have := C32_counts_add_up_partial h hg
  rw [pending_flushed hf] at this
  unfold approx
  rw [show s.elements - s.dummies = net tr by omega]
  omega

/-- A handle never holds back more than 65 operations (it flushes after the 65th). -/
theorem C32_unflushed_bounded {tr : List Ev} {s : Cnt.St} (h : Exec {} tr s) :
    ∀ g ∈ s.hs, -65 ≤ g.unflushed ∧ g.unflushed ≤ 65 := by
  intro g hg
  have hI := exec_hinv h (by simp) g hg
  have h1 := hI.insNonneg; have h2 := hI.delNonneg; have h3 := hI.bound'
  unfold Handle.unflushed
  cases g.st <;> dsimp only <;> omega

/-- An execution of one handle that inserts and erases one element, flushes, after which
a growing thread empties `_dummies`. -/
theorem exGrowth : Exec {} [.grew, .tau, .flushed 1000 0 1 false, .tau, .tau, .erased 0,
      .inserted 0, .tau]
    { elements := 1, dummies := 0, hs := [{}], exchanged := [1] } :=
  ((((((((Exec.refl {}).snoc (.create _)).snoc (.insertOk _ 0 {} rfl rfl)).snoc
    (.eraseOk _ 0 _ rfl rfl)).snoc (.flush _ 0 _ rfl rfl)).snoc
    (.addDummies _ 0 _ rfl rfl)).snoc (.addElements _ 0 _ 1000 rfl rfl)).snoc
    (.clear _ 0 _ rfl rfl)).snoc (.exchange _)

/-- C32 as stated fails between the two counter accesses of a growing thread: every
element has been erased again and everything is flushed, yet the count is one. -/
theorem C32_off_during_growth :
    ∃ tr s, Exec {} tr s ∧ AllFlushed s ∧ net tr = 0 ∧ approx s = 1 :=
  ⟨_, _, exGrowth, by
    intro h hm
    simp at hm
    subst hm
    exact ⟨.inl rfl, rfl, rfl⟩, by decide, by decide⟩

/-- After the second access the same execution is exact again. -/
example : Exec {} [.grew, .grew, .tau, .flushed 1000 0 1 false, .tau, .tau, .erased 0,
      .inserted 0, .tau] { hs := [{}] } :=
  exGrowth.snoc (.subExchanged _ 1 (by decide))

/-- The hypotheses of `C32_exact_when_flushed` are met by an execution with two handles,
one of which was moved. -/
example : ∃ tr s, Exec {} tr s ∧ NoGrowthInside s ∧ AllFlushed s ∧ net tr = 2 ∧
    approx s = 2 := by
  refine ⟨_, _, (((((((((Exec.refl {}).snoc (.create _)).snoc
    (.insertOk _ 0 {} rfl rfl)).snoc (.insertOk _ 0 _ rfl rfl)).snoc
    (.moveCtor _ 0 _ rfl rfl)).snoc (.destroy _ 1 _ rfl rfl)).snoc
    (.addDummies _ 1 _ rfl rfl)).snoc (.addElements _ 1 _ 5 rfl rfl)).snoc
    (.clear _ 1 _ rfl rfl)), ⟨rfl, rfl⟩, ?_, by decide, by decide⟩
  unfold AllFlushed
  decide

/-- Finding: `element_count_approx` converts a negative difference to an unsigned
number.  Handle 0 inserts without flushing, handle 1 erases the same element and is
flushed: the table is empty and reports `2^64 - 1` elements. -/
theorem C32_count_can_be_huge :
    ∃ tr s, Exec {} tr s ∧ NoGrowthInside s ∧ net tr = 0 ∧ approx s = 2 ^ 64 - 1 :=
  ⟨_, _, ((((((((Exec.refl {}).snoc (.create _)).snoc (.create _)).snoc
    (.insertOk _ 0 {} rfl rfl)).snoc (.eraseOk _ 1 {} rfl rfl)).snoc
    (.flush _ 1 _ rfl rfl)).snoc (.addDummies _ 1 _ rfl rfl)).snoc
    (.addElements _ 1 _ 1000 rfl rfl)), ⟨rfl, rfl⟩, by decide, by decide⟩

/-- Finding: the two loads of `element_count_approx` are not one atomic access.  The
count was 0 at the first and is 0 at the second load, nothing is growing, and still the
function returns `2^64 - 1`. -/
theorem C32_two_loads :
    ∃ tr tr' s s', Exec {} tr s ∧ Exec s tr' s' ∧ approx s = 0 ∧ approx s' = 0 ∧
      NoGrowthInside s ∧ NoGrowthInside s' ∧ AllFlushed s ∧ AllFlushed s' ∧
      approxRead s.elements s'.dummies = 2 ^ 64 - 1 := by
  refine ⟨_, _, _, _, (Exec.refl {}).snoc (.create _),
    (((((((Exec.refl _).snoc (.insertOk _ 0 {} rfl rfl)).snoc
    (.eraseOk _ 0 _ rfl rfl)).snoc (.flush _ 0 _ rfl rfl)).snoc
    (.addDummies _ 0 _ rfl rfl)).snoc (.addElements _ 0 _ 1000 rfl rfl)).snoc
    (.clear _ 0 _ rfl rfl)), by decide, by decide, ⟨rfl, rfl⟩, ⟨rfl, rfl⟩, ?_, ?_, by decide⟩
  · intro h hm
    simp at hm
    subst hm
    exact ⟨.inl rfl, rfl, rfl⟩
  · intro h hm
    simp at hm
    subst hm
    exact ⟨.inl rfl, rfl, rfl⟩

/-! ### C51 -/

/-- No successful operation happens in the trace: only flushes, moves, destructions,
creations and growth. (specification, no code) -/
def NoOps (tr : List Ev) : Prop := ∀ e ∈ tr, (∀ i, e ≠ .inserted i) ∧ ∀ i, e ≠ .erased i

theorem net_noOps {tr : List Ev} (h : NoOps tr) : net tr = 0 := by
  induction tr with
  | nil => rfl
  | cons e tr ih =>
    have h1 := ih (fun x hx => h x (by simp [hx]))
    have h2 := h e (by simp)
    cases e with
    | inserted i => exact absurd rfl (h2.1 i)
    | erased i => exact absurd rfl (h2.2 i)
    | flushed => simpa [net] using h1
    | grew => simpa [net] using h1
    | tau => simpa [net] using h1

/-- C51: whatever sequence of moves, flushes, destructions and growth steps follows, once
everything is flushed exactly the counts that were unflushed have been added to the
shared difference: a move neither loses nor duplicates them. -/
theorem C51_moves_transfer_once {s s' : Cnt.St} {tr : List Ev} (h : Exec s tr s')
    (hn : NoOps tr) (hg : NoGrowthInside s) (hg' : NoGrowthInside s') (hf : AllFlushed s') :
    s'.elements - s'.dummies = s.elements - s.dummies + pending s := by
  have := exec_total h
  rw [net_noOps hn] at this
  unfold total at this
  rw [hg.1, hg.2, hg'.1, hg'.2, pending_flushed hf] at this
  simp only [isum] at this
  omega

/-- C51, the move construction itself: the new handle has exactly the counts of the
source, the source has none left, nobody else is affected and nothing is flushed. -/
theorem C51_move_constructor {s : Cnt.St} {i : Nat} {h : Handle} (hi : s.hs[i]? = some h)
    (hr : h.st = .ready) : ∃ s' src dst, Step s .tau s' ∧
      s'.elements = s.elements ∧ s'.dummies = s.dummies ∧
      s'.hs[i]? = some src ∧ s'.hs[s.hs.length]? = some dst ∧
      dst.unflushed = h.unflushed ∧ src.unflushed = 0 ∧ src.c.updates = 0 ∧
      dst.c.updates = h.c.updates ∧ src.st = .ready ∧ dst.st = .ready ∧
      ∀ j, j ≠ i → j < s.hs.length → s'.hs[j]? = s.hs[j]? := by
  have hlt : i < s.hs.length := by
    rcases List.getElem?_eq_some_iff.1 hi with ⟨h1, _⟩; exact h1
  refine ⟨_, { h with c := (moveCounts h.c).2 }, { c := (moveCounts h.c).1 },
    .moveCtor s i h hi hr, rfl, rfl, ?_, ?_, ?_, ?_, rfl, rfl, hr, rfl, ?_⟩
  · rw [List.getElem?_append_left (by simpa using hlt)]
    exact List.getElem?_set_self hlt
  · rw [List.getElem?_append_right (by simp)]
    simp
  · simp [Handle.unflushed, hr, moveCounts]
  · simp [Handle.unflushed, hr, moveCounts]
  · intro j hj hjl
    rw [List.getElem?_append_left (by simpa using hjl)]
    exact List.getElem?_set_ne (Ne.symm hj)

/-- C51, the destruction of a moved-from handle adds nothing to the counters. -/
theorem C51_moved_from_flush_adds_nothing {s s' : Cnt.St} {e : Ev} {i : Nat} {h : Handle}
    (hi : s.hs[i]? = some h) (hc : h.c.inserted = 0 ∧ h.c.deleted = 0)
    (hs : Step s e s') (hch : s'.hs[i]? ≠ some h)
    (ho : ∀ j, j ≠ i → s'.hs[j]? = s.hs[j]?) (hl : s'.hs.length = s.hs.length) :
    s'.elements = s.elements ∧ s'.dummies = s.dummies := by
  have key : ∀ {k : Nat} {g g' : Handle}, s.hs[k]? = some g →
      (∀ j, j ≠ i → (s.hs.set k g')[j]? = s.hs[j]?) →
      (s.hs.set k g')[i]? ≠ some h → k = i := by
    intro k g g' hk hoo hcc
    by_cases hki : k = i
    · exact hki
    · rw [List.getElem?_set_ne hki] at hcc
      exact absurd hi hcc
  cases hs with
  | addDummies k g hk hr =>
    have := key hk ho hch
    subst this
    rw [hi] at hk
    cases hk
    exact ⟨rfl, by simp [hc.2]⟩
  | addElements k g cap hk hr =>
    have := key hk ho hch
    subst this
    rw [hi] at hk
    cases hk
    exact ⟨by simp [hc.1], rfl⟩
  | exchange => exact absurd hi hch
  | subExchanged => exact absurd hi hch
  | load => exact absurd hi hch
  | subElements => exact absurd hi hch
  | subDummies => exact absurd hi hch
  | create => simp at hl
  | moveCtor => simp at hl
  | _ => exact ⟨rfl, rfl⟩

/-- The hypotheses of `C51_move_constructor` and `C51_moved_from_flush_adds_nothing` are met: handle 0 has two
unflushed insertions; after it was moved from (handle 1 has them) its destructor passes `_elements.fetch_add`. -/
example : let s : Cnt.St := { elements := 5, hs := [{ c := ⟨2, 2, 0⟩ }] }
    let s1 : Cnt.St := { elements := 5, hs := [{ st := .addElements, dying := true }, { c := ⟨2, 2, 0⟩ }] }
    (∃ h, s.hs[0]? = some h ∧ h.st = .ready ∧ h.unflushed = 2) ∧
    ∃ tr s2, Exec s tr s1 ∧ Step s1 (.flushed 1000 5 5 false) s2 ∧ s2.hs.length = s1.hs.length ∧
      s2.hs[0]? ≠ s1.hs[0]? ∧ (∀ j, j ≠ 0 → s2.hs[j]? = s1.hs[j]?) ∧ s2.elements = 5 := by
  intro s s1
  refine ⟨⟨_, rfl, rfl, rfl⟩, _,
    { elements := 5, hs := [{ st := .clear, dying := true }, { c := ⟨2, 2, 0⟩ }] },
    .snoc (s' := { elements := 5, hs := [{ st := .addDummies, dying := true }, { c := ⟨2, 2, 0⟩ }] })
      (.snoc (s' := { elements := 5, hs := [{}, { c := ⟨2, 2, 0⟩ }] })
        (.snoc (.refl s) (.moveCtor s 0 { c := ⟨2, 2, 0⟩ } rfl rfl)) (.destroy _ 0 {} rfl rfl))
      (.addDummies _ 0 { st := .addDummies, dying := true } rfl rfl),
    .addElements s1 0 { st := .addElements, dying := true } 1000 rfl rfl, rfl, by decide, ?_, rfl⟩
  intro j hj
  match j with
  | 0 => exact absurd rfl hj
  | _ + 1 => rfl

/-- The hypotheses of `C51_moves_transfer_once` are met: a handle with two unflushed
insertions is move-assigned over another handle with one, and both are destroyed. -/
example : ∃ tr s s', Exec s tr s' ∧ NoOps tr ∧ NoGrowthInside s ∧ NoGrowthInside s' ∧
    AllFlushed s' ∧ pending s = 3 ∧ s'.elements = 3 := by
  refine ⟨_, { hs := [{ c := ⟨2, 2, 0⟩ }, { c := ⟨1, 1, 0⟩ }] }, _,
    ((((((((((((Exec.refl { hs := [{ c := ⟨2, 2, 0⟩ }, { c := ⟨1, 1, 0⟩ }] }).snoc (.destroy _ 1 _ rfl rfl)).snoc
      (.addDummies _ 1 _ rfl rfl)).snoc (.addElements _ 1 _ 99 rfl rfl)).snoc
      (.clear _ 1 _ rfl rfl)).snoc (.moveAssign _ 0 1 _ _ rfl rfl rfl rfl (by decide))).snoc
      (.destroy _ 1 _ rfl rfl)).snoc (.addDummies _ 1 _ rfl rfl)).snoc
      (.addElements _ 1 _ 99 rfl rfl)).snoc (.clear _ 1 _ rfl rfl)).snoc
      (.flush _ 0 _ rfl rfl)).snoc (.addDummies _ 0 _ rfl rfl)).snoc
      (.addElements _ 0 _ 99 rfl rfl) |>.snoc (.clear _ 0 _ rfl rfl), ?_, ⟨rfl, rfl⟩,
      ⟨rfl, rfl⟩, ?_, by decide, by decide⟩
  · intro e he
    simp at he
    rcases he with h | h | h | h | h | h | h <;> subst h <;> simp
  · unfold AllFlushed
    decide

/-! ### C33 -/

/-- The growth decision of the code in words: growth is triggered by exactly the flush
that lifts the counter from below the fill limit to above it. -/
theorem C33_trigger_iff (cap : Nat) (prev ins : Int) :
    triggers cap prev ins = true ↔
      prev < (cap * 666 / 1000 : Nat) ∧ ((cap * 666 / 1000 : Nat) : Int) < prev + ins := by
  unfold triggers thresh
  simp only [Bool.and_eq_true, decide_eq_true_eq]
  omega

/-- C33 for one table version (no growth step in the trace, all flushing handles see a
table with `cap` slots), starting below the fill limit: if more elements are flushed than
the fill limit, growth was triggered -- provided no flush ended exactly at the limit.
(Missing: that proviso; without it the claim is false, `C33_never_triggered`.) -/
theorem C33_growth_triggered_partial {cap : Nat} {s s' : Cnt.St} {tr : List Ev}
    (h : Exec s tr s') (hs : s.elements < (cap * 666 / 1000 : Nat))
    (hng : .grew ∉ tr)
    (hcap : ∀ c p n b, Ev.flushed c p n b ∈ tr → c = cap)
    (heq : ∀ c p n b, Ev.flushed c p n b ∈ tr → n ≠ (cap * 666 / 1000 : Nat))
    (hover : s'.elements > (cap * 666 / 1000 : Nat)) :
    ∃ p n, Ev.flushed cap p n true ∈ tr := by
  suffices hI : s'.elements < (cap * 666 / 1000 : Nat) ∨
      ∃ p n, Ev.flushed cap p n true ∈ tr by
    rcases hI with h1 | h1
    · omega
    · exact h1
  clear hover
  induction h with
  | refl => exact .inl hs
  | @snoc s1 s2 tr e hx hst ih =>
    have ih' := ih (fun hm => hng (by simp [hm]))
      (fun c p n b hm => hcap c p n b (by simp [hm]))
      (fun c p n b hm => heq c p n b (by simp [hm]))
    rcases ih' with h1 | ⟨p, n, hpn⟩
    · cases hst with
      | addElements i h c hi hr =>
        have hc := hcap c _ _ _ (List.mem_cons_self)
        subst hc
        have hne := heq c _ _ _ (List.mem_cons_self)
        by_cases hlt : s1.elements + h.c.inserted < (c * 666 / 1000 : Nat)
        · exact .inl hlt
        · right
          have ht : triggers c s1.elements h.c.inserted = true :=
            (C33_trigger_iff _ _ _).2 ⟨h1, by omega⟩
          exact ⟨s1.elements, s1.elements + h.c.inserted, by rw [ht]; simp⟩
      | exchange => exact absurd (List.mem_cons_self) hng
      | subExchanged => exact absurd (List.mem_cons_self) hng
      | load => exact absurd (List.mem_cons_self) hng
      | subElements => exact absurd (List.mem_cons_self) hng
      | subDummies => exact absurd (List.mem_cons_self) hng
      | _ => exact .inl h1
    · exact .inr ⟨p, n, by simp [hpn]⟩

/-- A short-lived handle: created, used for one insertion, destroyed. -/
theorem short_lived (cap n : Nat) (hs : triggers cap (n : Int) 1 = false) :
    Exec { elements := n, hs := List.replicate n { st := .gone, dying := true } }
      [.tau, .flushed cap n (n + 1) false, .tau, .tau, .inserted n, .tau]
      { elements := n + 1, hs := List.replicate (n + 1) { st := .gone, dying := true } } := by
  have hget : ∀ g : Handle,
      (List.replicate n ({ st := .gone, dying := true } : Handle) ++ [g])[n]? = some g := by
    intro g
    rw [List.getElem?_append_right (by simp)]; simp
  have hset : ∀ g g' : Handle,
      (List.replicate n ({ st := .gone, dying := true } : Handle) ++ [g]).set n g' =
        List.replicate n ({ st := .gone, dying := true } : Handle) ++ [g'] := by
    intro g g'
    rw [List.set_append]; simp
  have e1 := (Exec.refl (Cnt.St.mk n 0 (List.replicate n { st := .gone, dying := true })
    [] [] [])).snoc (.create _)
  have e2 := e1.snoc (.insertOk _ n {} (hget _) rfl)
  simp only [hset] at e2
  have e3 := e2.snoc (.destroy _ n _ (hget _) rfl)
  simp only [hset] at e3
  have e4 := e3.snoc (.addDummies _ n _ (hget _) rfl)
  simp only [hset] at e4
  have e5 := e4.snoc (.addElements _ n _ cap (hget _) rfl)
  simp only [hset] at e5
  have hin : (({} : Handle).incInserted.startFlush).c.inserted = 1 := by decide
  have e6 := e5.snoc (.clear _ n _ (hget _) (by
    simp only [hin, hs]; rfl))
  simp only [hset] at e6
  rw [List.replicate_succ']
  simp only [hin, hs] at e6
  exact e6

/-- C33 fails: with handles that live for one insertion each, the counter always reaches
the limit exactly and is never lifted over it by a single flush.  For every capacity and
every number of insertions there is an execution in which all insertions are flushed and
growth is never triggered, however far the limit is exceeded. -/
theorem C33_never_triggered (cap n : Nat) :
    ∃ tr s, Exec {} tr s ∧ AllFlushed s ∧ net tr = n ∧ s.elements = n ∧
      (∀ c p m b, Ev.flushed c p m b ∈ tr → c = cap ∧ b = false) ∧ .grew ∉ tr := by
  suffices ∃ tr, Exec {}
      tr { elements := n, hs := List.replicate n { st := .gone, dying := true } } ∧
      net tr = n ∧ (∀ c p m b, Ev.flushed c p m b ∈ tr → c = cap ∧ b = false) ∧
      .grew ∉ tr by
    rcases this with ⟨tr, h1, h2, h3, h4⟩
    refine ⟨tr, _, h1, ?_, h2, rfl, h3, h4⟩
    intro h hm
    have := List.eq_of_mem_replicate hm
    subst this
    exact ⟨.inr rfl, rfl, rfl⟩
  induction n with
  | zero => exact ⟨[], .refl _, rfl, by simp, by simp⟩
  | succ n ih =>
    rcases ih with ⟨tr, h1, h2, h3, h4⟩
    have ht : triggers cap (n : Int) 1 = false := by
      cases hb : triggers cap (n : Int) 1 with
      | false => rfl
      | true => have := (C33_trigger_iff _ _ _).1 hb; omega
    refine ⟨_, h1.trans (short_lived cap n ht), ?_, ?_, ?_⟩
    · simp only [List.cons_append, List.nil_append, net, h2]; omega
    · intro c p m b hm
      simp only [List.cons_append, List.nil_append, List.mem_cons] at hm
      rcases hm with hm | hm | hm | hm | hm | hm | hm
      · cases hm
      · cases hm; exact ⟨rfl, rfl⟩
      · cases hm
      · cases hm
      · cases hm
      · cases hm
      · exact h3 c p m b hm
    · simp [h4]

/-- The hypotheses of `C33_growth_triggered_partial` are met by the flush of a handle
with two insertions at one below the limit. -/
example : ∃ tr s s', Exec s tr s' ∧ s.elements < ((1000 * 666 / 1000 : Nat) : Int) ∧
    Ev.grew ∉ tr ∧ (∀ c p n b, Ev.flushed c p n b ∈ tr → c = 1000) ∧
    (∀ c p n b, Ev.flushed c p n b ∈ tr → n ≠ ((1000 * 666 / 1000 : Nat) : Int)) ∧
    s'.elements > ((1000 * 666 / 1000 : Nat) : Int) := by
  refine ⟨_, { elements := 665, hs := [{ c := ⟨2, 2, 0⟩ }] }, _,
    (((Exec.refl { elements := 665, hs := [{ c := ⟨2, 2, 0⟩ }] }).snoc
      (.flush _ 0 _ rfl rfl)).snoc (.addDummies _ 0 _ rfl rfl)).snoc
      (.addElements _ 0 _ 1000 rfl rfl), by decide, by decide, ?_, ?_, by decide⟩
  · intro c p n b hm
    simp at hm
    exact hm.1
  · intro c p n b hm
    simp at hm
    rw [hm.2.2.1]
    decide

end Growt
