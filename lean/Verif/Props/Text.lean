import Verif.Text
import Verif.Props.Mixed

/-!
# C84: counting the words of a file
-/

set_option linter.unusedSectionVars false

namespace Growt.Text

open Growt.Agg

/-! ## The blocks -/

section
variable {α : Type} (ws : α → Bool) (s : List α) (moved : List α → List α)

/-- **C84, a file cut into blocks.**  If some thread has stopped, the blocks taken so far push the words of the file, each
once and in order, whatever the size of the blocks; and one word too many if the file ends with white space (or is
empty). -/
theorem C84_blocks {b : Nat} (hb : 0 < b) {m k : Nat} (hk : k < m) (he : ended ws s moved b k = true) :
    ∃ xs : List (List α), (List.range m).flatMap (pushed ws s moved b) = words ws s ++ xs ∧
      xs.length = if openEnd ws s then 1 else 0 := by
  obtain ⟨-, h2, h3⟩ := blocks_ok ws s moved hb m
  exact h2 (h3 k hk he)

/-- **C84, the loops end**: every block is read, and a thread that takes a block behind the file stops without having
pushed anything. -/
theorem C84_ends (b i : Nat) : (block ws s moved b (i * b)).isSome = true ∧
    (0 < i * b → s.length ≤ i * b → ended ws s moved b i = true ∧ pushed ws s moved b i = []) := by
  obtain ⟨l, j, h1, h2⟩ := block_ok ws s moved b (i * b)
  refine ⟨by rw [h1]; rfl, fun h0 hl => ?_⟩
  have he : (blockStart ws s (i * b)).1.eof = true := by
    rw [blockStart, if_pos h0, extract_eq, List.drop_eq_nil_of_le hl]
    rfl
  obtain ⟨e1, e2⟩ := h2.done he
  exact ⟨by rw [ended, h1]; exact e2, by rw [pushed, h1]; exact e1⟩

end

/-- White space in the examples: 0. (model bookkeeping, no code) -/
def zero (c : Nat) : Bool := c == 0

/-- **C84, not vacuous**: "12 3 455 6" in blocks of 3 characters; block 0 pushes "12" and "3", block 1 "455", block 2 "6". -/
theorem C84_blocks_not_vacuous :
    (List.range 3).map (pushed zero [1, 2, 0, 3, 0, 4, 5, 5, 0, 6] (fun _ => []) 3) = [[[1, 2], [3]], [[4, 5, 5]], [[6]]] ∧
    ended zero [1, 2, 0, 3, 0, 4, 5, 5, 0, 6] (fun _ => []) 3 2 = true ∧
    words zero [1, 2, 0, 3, 0, 4, 5, 5, 0, 6] = [[1, 2], [3], [4, 5, 5], [6]] := by decide

/-- **C84, a word too many**: if the file ends with a space, a word is pushed although there is none; what it is depends
on the blocks: what is left of the string that was moved into the table, or the last word of the file once more. -/
theorem C84_word_too_many :
    pushed zero [1, 0, 2, 3, 0] (fun _ => []) 100 0 = [[1], [2, 3], []] ∧
    (List.range 3).map (pushed zero [1, 0, 2, 3, 0] (fun _ => []) 2) = [[[1], [2, 3]], [[2, 3]], []] ∧
    words zero [1, 0, 2, 3, 0] = [[1], [2, 3]] := by decide

/-! ## The table -/

section
variable {T A K V α : Type} [DecidableEq T] [DecidableEq A] [Inhabited A] [DecidableEq K] [DecidableEq V] [Inhabited V]
  [DecidableEq α]

/-- The call for a word; `code w` stands for the string `w`, the update adds 1 (`tests/text_test.cpp:99-106`,
`example/update_fcts.hpp:11-26`). -/
def wordCall (N : Num V) (one : V) (code : List α → K) (w : List α) : HeapVal.HOp K V :=
  .insertOrUpdate (code w) one fun x => N.plus x one

/-- All threads have pushed the blocks they have taken, `m` blocks in all, and one of them has come to the end of the
file; since then there have been look-ups only (`tests/text_test.cpp:68-149`).  Different words are different keys. -/
structure TextRun (ws : α → Bool) (s : List α) (moved : List α → List α) (b m : Nat) (N : Num V) (one : V)
    (code : List α → K) (h1 h2 : List (Ev T (HeapVal.HOp K V) (HeapVal.HRes V))) : Prop where
  quiet : Quiet h1
  calls : ((callsOf h1).map Prod.snd).Perm
    (((List.range m).flatMap (pushed ws s moved b)).map (wordCall N one code))
  stopped : ∃ k < m, ended ws s moved b k = true
  rest : Only (fun o => ∃ k, o = .find k) h2
  one : N.dec one = 1
  code : ∀ x y, x ∈ (List.range m).flatMap (pushed ws s moved b) → y ∈ (List.range m).flatMap (pushed ws s moved b) →
    code x = code y → x = y

/-- What the benchmark observes: the words of the file have been counted, and perhaps one word `xs` too many.
(specification, no code) -/
structure TextSeen (ws : α → Bool) (s : List α) (N : Num V) (code : List α → K)
    (h1 h2 : List (Ev T (HeapVal.HOp K V) (HeapVal.HRes V))) (xs : List (List α)) : Prop where
  extra : xs.length = if openEnd ws s then 1 else 0
  /-- `number_words` -/
  number : callSum (fun _ => 1) h1 = (words ws s ++ xs).length
  /-- `unique_words` -/
  uniques : ∀ ks : List (List α), ks.Nodup → (∀ x, x ∈ ks ↔ x ∈ words ws s ++ xs) →
    retSum (fun _ r => if r.ok then 1 else 0) h1 = ks.length
  /-- Look-ups show how often a word occurs. -/
  counts : ∀ t x r, x ∈ words ws s ++ xs → Ev.ret t (.find (code x)) r ∈ h2 →
    r.shown = some (N.enc ((words ws s ++ xs).count x))

theorem sum_count {X : Type} [BEq X] [LawfulBEq X] [DecidableEq X] (x : X) (l : List X) :
    (l.map fun y => if y = x then 1 else 0).sum = l.count x := by
  induction l with
  | nil => rfl
  | cons y l ih =>
    rw [List.map_cons, List.sum_cons, ih, List.count_cons]
    by_cases h : y = x <;> simp [h] <;> omega

theorem sum_ones {X : Type} (l : List X) : (l.map fun _ => 1).sum = l.length := by
  induction l with
  | nil => rfl
  | cons y l ih => rw [List.map_cons, List.sum_cons, ih, List.length_cons]; omega

theorem ret_visible {O R : Type} {l : List (Ev T O R)} {i : T} {o : O} {r : R} (h : Ev.ret i o r ∈ l) :
    Ev.ret i o r ∈ visible l := by
  induction l with
  | nil => cases h
  | cons e l ih =>
    rcases List.mem_cons.1 h with rfl | h'
    · simp [visible]
    · cases e <;> simp [visible, ih h']

theorem no_takes {k : K} (l : List (Ev T (HeapVal.HOp K V) (HeapVal.HRes V))) :
    retSum ((bookH (K := K) (V := V)).hasTaken k) l = 0 := by
  induction l with
  | nil => rfl
  | cons e l ih =>
    cases e with
    | ret t o r =>
      have h0 : (bookH (K := K) (V := V)).hasTaken k o r = 0 := by simp [Book.hasTaken, Book.mayTake, bookH]
      rw [retSum, ih, h0]
    | _ => simpa only [retSum] using ih

theorem sum_perm' {X : Type} {f : X → Nat} {a b : List X} (h : a.Perm b) : (a.map f).sum = (b.map f).sum :=
  sum_perm (h.map f)

theorem nodup_code {code : List α → K} : ∀ {ks : List (List α)}, ks.Nodup → (∀ x ∈ ks, ∀ y ∈ ks, code x = code y → x = y) →
    (ks.map code).Nodup := by
  intro ks
  induction ks with
  | nil => intro _ _; exact .nil
  | cons x ks ih =>
    intro hn hc
    obtain ⟨h1, h2⟩ := List.nodup_cons.1 hn
    rw [List.map_cons, List.nodup_cons]
    refine ⟨fun hm => ?_, ih h2 fun x hx y hy => hc x (List.mem_cons_of_mem _ hx) y (List.mem_cons_of_mem _ hy)⟩
    obtain ⟨y, hy, he⟩ := List.mem_map.1 hm
    have := hc y (List.mem_cons_of_mem _ hy) x (List.mem_cons_self ..) he
    exact h1 (this ▸ hy)

theorem text_seen {ws : α → Bool} {s : List α} {moved : List α → List α} {b m : Nat} (hb : 0 < b) {N : Num V} {one : V}
    {code : List α → K} {h1 h2 : List (Ev T (HeapVal.HOp K V) (HeapVal.HRes V))}
    (hl : Linearizable (HeapVal.valObj false) (h1 ++ h2)) (hR : TextRun ws s moved b m N one code h1 h2) :
    ∃ xs, TextSeen ws s N code h1 h2 xs := by
  obtain ⟨k, hk, he⟩ := hR.stopped
  obtain ⟨xs, hxs, hlen⟩ := C84_blocks ws s moved hb hk he
  refine ⟨xs, ?_⟩
  have hcalls := hR.calls
  have hcode := hR.code
  rw [hxs] at hcalls hcode
  generalize hL : words ws s ++ xs = L at hcalls hcode
  have hcall : ∀ t o, Ev.call t o ∈ h1 → ∃ w ∈ L, o = wordCall N one code w := by
    intro t o hc
    have : o ∈ (callsOf h1).map Prod.snd := List.mem_map.2 ⟨(t, o), mem_callsOf.2 hc, rfl⟩
    obtain ⟨w, hw, rfl⟩ := List.mem_map.1 (hcalls.mem_iff.1 this)
    exact ⟨w, hw, rfl⟩
  have hret : ∀ t o r, Ev.ret t o r ∈ h1 → (∃ w ∈ L, o = wordCall N one code w) ∧ r.elem = true := by
    intro t o r hr
    obtain ⟨p1, p2, p3, hp⟩ := call_before hl (List.mem_append_left h2 hr)
    obtain ⟨l0, p0, d0, hv0, hw0, hd0⟩ := state_prefix hl
    obtain ⟨l, d, hv, hw, hd, hrest⟩ := state_quiet (h1 := []) (h2 := h1) ⟨l0, p0, d0, hv0, hw0, hd0⟩
      (by intro a i o b h; cases a <;> cases h)
    obtain ⟨⟨j, hj⟩, es, d1, d2, -, h4, -⟩ := hrest t o r hr
    obtain ⟨w, hw', rfl⟩ := hcall j o hj
    refine ⟨⟨w, hw', rfl⟩, ?_⟩
    simp only [wordCall, HeapVal.valObj] at h4
    split at h4
    · rw [h4.2]
    · rcases h4 with ⟨-, rfl⟩ | ⟨h, -⟩
      · rfl
      · cases h
  have hsum : ∀ g : HeapVal.HOp K V → Nat, callSum g h1 = (L.map fun w => g (wordCall N one code w)).sum := by
    intro g
    rw [callSum_calls, sum_perm' hcalls, List.map_map]
    rfl
  have hone : ∀ x ∈ L, callSum ((viewH (K := K) (V := V)).one (code x)) h1 = L.count x := by
    intro x hx
    rw [hsum, ← sum_count]
    congr 1
    refine List.map_congr_left fun w hw => ?_
    simp only [View.one, viewH, wordCall]
    by_cases hwx : w = x
    · simp [hwx]
    · rw [if_neg (fun h => hwx (hcode w x hw hx h)), if_neg hwx]
  have hamount : ∀ x o, (∃ w ∈ L, o = wordCall N one code w) →
      (viewH (K := K) (V := V)).amount N (code x) o = (viewH (K := K) (V := V)).one (code x) o := by
    rintro x o ⟨w, -, rfl⟩
    simp only [View.amount, View.one, viewH, wordCall, hR.one]
  obtain ⟨l, d, hv, hw, hd, hlater⟩ := state_quiet hl hR.quiet
  have hqc := fun g : HeapVal.HOp K V → Nat => quiet_calls (g := g) hw fun _ => rfl
  have honly : ∀ x, Only (AddingH N (code x)) l := by
    intro x i o ho
    have : Ev.call i o ∈ h1 := hv ▸ call_visible ho
    obtain ⟨w, -, rfl⟩ := hcall i o this
    intro hkey
    have : code w = code x := hkey
    exact .inr ⟨one, by rw [wordCall, this]⟩
  have hdx : ∀ x ∈ L, d (code x) = some (N.enc (L.count x)) := by
    intro x hx
    rw [(counterH N false (code x)).after hw hd (honly x), quiet_sums hw fun _ => rfl, quiet_sums hw fun _ => rfl]
    have e1 : retSum ((viewH (K := K) (V := V)).oneDone (code x)) l = L.count x := by
      rw [← hone x hx, ← hv, callSum_visible, hqc]
      refine retSum_same fun t o r hr => ?_
      have hr' : Ev.ret t o r ∈ h1 := by rw [← hv]; exact ret_visible hr
      simp [View.oneDone, viewH, (hret t o r hr').2]
    have e2 : retSum ((viewH (K := K) (V := V)).amountDone N (code x)) l = L.count x := by
      rw [← hone x hx, ← hv, callSum_visible, hqc]
      refine retSum_same fun t o r hr => ?_
      have hr' : Ev.ret t o r ∈ h1 := by rw [← hv]; exact ret_visible hr
      obtain ⟨a1, a2⟩ := hret t o r hr'
      simp only [View.amountDone, hamount x o a1]
      simp [viewH, a2]
    rw [e1, e2, tally, if_neg]
    have := List.count_pos_iff.2 hx
    omega
  refine ⟨hlen, ?_, fun ks hn hks => ?_, fun t x r hx hr => ?_⟩
  · rw [hsum, hL]; exact sum_ones L
  · rw [hL] at hks
    have hput : ∀ x ∈ ks, retSum ((bookH (K := K) (V := V)).hasPut (code x)) h1 = 1 := by
      intro x hx
      have h3 := (keeperH false (code x)).after hd
      rw [hdx x ((hks x).1 hx), quiet_sums hw fun _ => rfl, quiet_sums hw fun _ => rfl] at h3
      rw [no_takes] at h3
      rw [← hv, retSum_visible]
      simp [pres] at h3
      omega
    have hmap : (ks.map fun x => retSum ((bookH (K := K) (V := V)).hasPut (code x)) h1).sum = ks.length := by
      rw [List.map_congr_left hput]; exact sum_ones ks
    rw [← hmap, retSum_list]
    refine retSum_same fun t o r hr => ?_
    obtain ⟨⟨w, hwL, rfl⟩, -⟩ := hret t o r hr
    have hnd : (ks.map code).Nodup := nodup_code hn fun x hx y hy h => hcode x y ((hks x).1 hx) ((hks y).1 hy) h
    have := sum_one hnd (List.mem_map.2 ⟨w, (hks w).2 hwL, rfl⟩) (if r.ok then 1 else 0)
    rw [List.map_map] at this
    rw [← this]
    congr 1
    refine List.map_congr_left fun x _ => ?_
    simp only [Function.comp, Book.hasPut, Book.mayPut, bookH, wordCall, Option.some.injEq]
    by_cases h1 : r.ok <;> by_cases h2 : code w = code x <;> simp [h1, h2]
  · rw [hL] at hx ⊢
    obtain ⟨-, es, d1, d2, e1, e2, e3⟩ := hlater t _ r hr
    have stays : d1 = d := by
      clear e2 hlater hdx hd honly hw hv hqc
      induction e1 with
      | nil => rfl
      | @cons d d1 d2 o r l h _ ih =>
        obtain ⟨j, hj⟩ := e3 (o, r) (List.mem_cons_self ..)
        obtain ⟨k', rfl⟩ := hR.rest j o hj
        have hdd : d1 = d := h.1
        subst hdd
        exact ih (fun x hm => e3 x (List.mem_cons_of_mem _ hm))
    obtain ⟨-, e2⟩ := e2
    rw [e2, stays]
    exact hdx x hx

/-- **C84, synchronised growth.**  Missing: the executions excluded by `C30_linearizable_partial`. -/
theorem C84_sync_partial {H : Type} [DecidableEq H] {u : Bool} {E : Env K} (hE : E.OK)
    (hcombo : E.M.cm = true → E.M.cp = true) {a : H}
    {h1 h2 : List (Ev T (HeapVal.HOp K V) (HeapVal.HRes V))} {st : HeapVal.HSt (Sync.DSt T H K A) T K V A}
    (h : Exec (HeapVal.HStep (Sync.DStepW u HeapVal.addrCall) HeapVal.ansG) (HeapVal.HSt.init (Sync.DSt.init E a))
      (h1 ++ h2) st)
    {ws : α → Bool} {s : List α} {moved : List α → List α} {b m : Nat} (hb : 0 < b) {N : Num V} {one : V}
    {code : List α → K} (hR : TextRun ws s moved b m N one code h1 h2) : ∃ xs, TextSeen ws s N code h1 h2 xs :=
  text_seen hb (HeapVal.C72_sync_partial hE hcombo h).1 hR

/-- **C84, asynchronous growth.**  Missing: the executions excluded by `C24_linearizable_partial`. -/
theorem C84_async_partial {H : Type} [DecidableEq H] {u : Bool} {E : Env K} (hE : E.OK)
    (hcombo : E.M.cm = true → E.M.cp = true) (hm : E.m = true) {a : H}
    {h1 h2 : List (Ev T (HeapVal.HOp K V) (HeapVal.HRes V))} {st : HeapVal.HSt (Async.DSt T H K A) T K V A}
    (h : Exec (HeapVal.HStep (Async.DStepW u HeapVal.addrCall) HeapVal.ansG) (HeapVal.HSt.init (Async.DSt.init E a))
      (h1 ++ h2) st)
    {ws : α → Bool} {s : List α} {moved : List α → List α} {b m : Nat} (hb : 0 < b) {N : Num V} {one : V}
    {code : List α → K} (hR : TextRun ws s moved b m N one code h1 h2) : ∃ xs, TextSeen ws s N code h1 h2 xs :=
  text_seen hb (HeapVal.C72_async_partial hE hcombo hm h).1 hR

end

/-! ## Examples -/

section
variable {T K V A R : Type} [DecidableEq T] [DecidableEq K] [DecidableEq A]

open HeapVal

/-- One thread alone counts a word for the first time. -/
theorem free_first {ans : Op K A → R → Ans A} {l : List (Ev T (HeapVal.HOp K V) (HRes V))}
    {s : HSt (List (Ev T (Op K A) R)) T K V A} (h : Exec (HStep Free ans) (HSt.init []) l s) {i : T} {k : K} {v : V}
    {f : V → V} {a : A} {r : R} (hi : s.thr i = .idle) (ha : s.heap a = none) (hr : ans (.insert k a) r = .inserted) :
    ∃ s', Exec (HStep Free ans) (HSt.init [])
        (l ++ [.call i (.insertOrUpdate k v f)] ++ [.ret i (.insertOrUpdate k v f) ⟨true, true, none⟩]) s' ∧
      s'.base = s.base ++ [.call i (.insert k a)] ++ [.ret i (.insert k a) r] ∧
      s'.heap = setOwn s.heap (some a) (some v) ∧ s'.thr = s.thr := by
  have h1 := h.vis (HStep.call (op := .insertOrUpdate k v f) (own := some a) hi rfl (fun b hb => by cases hb; exact ha)
    (Free.step _ _))
  have h2 := h1.silent (HStep.bret (i := i) (op := .insertOrUpdate k v f) (own := some a) (o := .insert k a) (r := r)
    (setAt_same _ _ _) (Free.step _ _))
  have h3 := h2.vis (HStep.ret (i := i) (op := .insertOrUpdate k v f) (x := ⟨true, true, none⟩) (by
    simp only [setAt_same, hr, afterBase]))
  refine ⟨_, h3, rfl, ?_, ?_⟩
  · funext x; simp [hr, afterBase, setOwn, HOp.value]
  · funext j
    by_cases e : j = i
    · subst e; simp [hi]
    · simp [setAt_other e]

/-- One thread alone counts a word again. -/
theorem free_again {ans : Op K A → R → Ans A} {l : List (Ev T (HeapVal.HOp K V) (HRes V))}
    {s : HSt (List (Ev T (Op K A) R)) T K V A} (h : Exec (HStep Free ans) (HSt.init []) l s) {i : T} {k : K} {v w : V}
    {f : V → V} {a b : A} {r : R} (hi : s.thr i = .idle) (ha : s.heap a = none) (hb : s.heap b = some w)
    (hr : ans (.insert k a) r = .found b) :
    ∃ s', Exec (HStep Free ans) (HSt.init [])
        (l ++ [.call i (.insertOrUpdate k v f)] ++ [.ret i (.insertOrUpdate k v f) ⟨false, true, none⟩]) s' ∧
      s'.base = s.base ++ [.call i (.insert k a)] ++ [.ret i (.insert k a) r] ∧
      s'.heap = setOwn s.heap (some b) (some (f w)) ∧ s'.thr = s.thr := by
  have hab : a ≠ b := by intro e; subst e; rw [ha] at hb; cases hb
  have h1 := h.vis (HStep.call (op := .insertOrUpdate k v f) (own := some a) hi rfl (fun b hb => by cases hb; exact ha)
    (Free.step _ _))
  have h2 := h1.silent (HStep.bret (i := i) (op := .insertOrUpdate k v f) (own := some a) (o := .insert k a) (r := r)
    (setAt_same _ _ _) (Free.step _ _))
  have h3 := h2.silent (HStep.access (i := i) (op := .insertOrUpdate k v f) (own := some a) (a := b) (w := w) (by
    simp only [setAt_same, hr, afterBase]) (by simp [hr, afterBase, setOwn, hab, hb]))
  have h4 := h3.vis (HStep.ret (i := i) (op := .insertOrUpdate k v f) (x := ⟨false, true, none⟩) (setAt_same _ _ _))
  refine ⟨_, h4, rfl, ?_, ?_⟩
  · funext x
    by_cases e1 : a = x
    · subst e1; simp [setOwn, ha, Ne.symm hab]
    · by_cases e2 : b = x
      · subst e2; simp [setOwn, hab, accessVal]
      · simp [setOwn, e1, e2, setAt_other (Ne.symm e2), hr, afterBase]
  · funext j
    by_cases e : j = i
    · subst e; simp [hi]
    · simp [setAt_other e]

end

/-- The calls that the table of addresses gets and its answers. (model bookkeeping, no code) -/
def textBase : List (Op Nat Nat × SRes Nat) :=
  [(.insert 1 5, ⟨true, none⟩), (.insert 1 6, ⟨false, some 5⟩), (.insert 2 6, ⟨true, none⟩), (.find 1, ⟨true, some 5⟩)]

/-- The words of "1 1 2" are counted. (model bookkeeping, no code) -/
def textHist : List (Ev Nat (HeapVal.HOp Nat Nat) (HeapVal.HRes Nat)) :=
  [.call 0 (.insertOrUpdate 1 1 (· + 1)), .ret 0 (.insertOrUpdate 1 1 (· + 1)) ⟨true, true, none⟩,
   .call 0 (.insertOrUpdate 1 1 (· + 1)), .ret 0 (.insertOrUpdate 1 1 (· + 1)) ⟨false, true, none⟩,
   .call 0 (.insertOrUpdate 2 1 (· + 1)), .ret 0 (.insertOrUpdate 2 1 (· + 1)) ⟨true, true, none⟩]

theorem quiet_pair {O R : Type} {h : List (Ev Nat O R)} {i : Nat} {o o' : O} {r : R} (hq : Quiet h) :
    Quiet (.call i o :: .ret i o' r :: h) := by
  intro a j p b e
  rcases a with _ | ⟨x, _ | ⟨y, a⟩⟩
  · cases e; exact ⟨o', r, List.mem_cons_self ..⟩
  · simp at e
  · simp only [List.cons_append, List.cons.injEq] at e
    exact hq a j p b e.2.2

theorem text_pushed : (List.range 2).flatMap (pushed zero [1, 0, 1, 0, 2] (fun _ => []) 2) = [[1], [1], [2]] := by
  decide

/-- **C84, not vacuous**: the words of "1 1 2", in two blocks of 2 characters, are counted, then key 1 is looked up. -/
theorem text_run : TextRun zero [1, 0, 1, 0, 2] (fun _ => []) 2 2 nat 1 (fun w => w.headD 0) textHist
    ([.call 0 (.find 1), .ret 0 (.find 1) ⟨true, true, some 2⟩] : List (Ev Nat _ _)) where
  quiet := quiet_pair (quiet_pair (quiet_pair fun a i o b h => by cases a <;> cases h))
  calls := by
    rw [text_pushed]
    exact .refl _
  stopped := ⟨1, by decide, by decide⟩
  rest := by
    intro i o h
    simp at h
    exact ⟨1, h.2⟩
  one := rfl
  code := by
    rw [text_pushed]
    intro x y hx hy
    simp only [List.mem_cons, List.not_mem_nil, or_false] at hx hy
    rcases hx with rfl | rfl | rfl <;> rcases hy with rfl | rfl | rfl <;> decide

open HeapVal in
theorem text_free : ∃ s : HSt (List (Ev Nat (Op Nat Nat) (SRes Nat))) Nat Nat Nat Nat,
    Exec (HStep Free ansG) (HSt.init []) (textHist ++ [.call 0 (.find 1), .ret 0 (.find 1) ⟨true, true, some 2⟩]) s ∧
    s.base = inTurn textBase := by
  obtain ⟨s1, h1, b1, e1, t1⟩ := free_first (T := Nat) (ans := ansG (K := Nat) (A := Nat)) Exec.init (i := 0) (k := 1)
    (v := 1) (f := (· + 1)) (a := 5) (r := ⟨true, none⟩) rfl rfl rfl
  obtain ⟨s2, h2, b2, e2, t2⟩ := free_again h1 (i := 0) (k := 1) (v := 1) (w := 1) (f := (· + 1)) (a := 6) (b := 5)
    (r := ⟨false, some 5⟩) (by rw [t1]; rfl) (by rw [e1]; rfl) (by rw [e1]; rfl) rfl
  obtain ⟨s3, h3, b3, e3, t3⟩ := free_first h2 (i := 0) (k := 2) (v := 1) (f := (· + 1)) (a := 6) (r := ⟨true, none⟩)
    (by rw [t2, t1]; rfl) (by rw [e2, e1]; rfl) rfl
  obtain ⟨s4, h4, b4, -, -, -⟩ := free_find h3 (i := 0) (k := 1) (v := 2) (a := 5) (r := ⟨true, some 5⟩)
    (by rw [t3, t2, t1]; rfl) (by rw [e3, e2, e1]; rfl) rfl
  exact ⟨s4, h4, by rw [b4, b3, b2, b1]; rfl⟩

open HeapVal in
/-- **C84, not vacuous for synchronised growth**: the words of "1 1 2", in blocks of 2 characters. -/
theorem C84_sync_not_vacuous : ∃ s : HSt (Sync.DSt Nat Nat Nat Nat) Nat Nat Nat Nat,
    Exec (HStep (Sync.DStepW false addrCall) ansG) (HSt.init (Sync.DSt.init exE 0))
      (textHist ++ [.call 0 (.find 1), .ret 0 (.find 1) ⟨true, true, some 2⟩]) s ∧
    words zero [1, 0, 1, 0, 2] = [[1], [1], [2]] := by
  obtain ⟨s, hs, hb⟩ := text_free
  obtain ⟨l, b, hX, hv⟩ := seq_sync (ps := textBase) (ops := [.insert 1 5, .insert 1 6, .insert 2 6, .find 1]) (by
    intro op h
    simp only [List.mem_cons, List.not_mem_nil, or_false] at h
    rcases h with rfl | rfl | rfl | rfl <;>
      refine ⟨trivial, ?_, ?_⟩ <;> intro k h <;> simp [Op.removes, Op.modifies] at h) (by with_unfolding_all rfl)
  have hx : Exec (Sync.DStepW false addrCall) (Sync.DSt.init exE 0) l b := by
    refine HeapMem.sync_recallX hX fun i o hm => ?_
    have := HeapMem.call_visible hm
    rw [hv] at this
    simp only [inTurn, textBase, List.flatMap_cons, List.flatMap_nil, List.cons_append, List.nil_append, List.mem_cons,
      List.not_mem_nil, or_false, reduceCtorEq, false_or, Ev.call.injEq] at this
    rcases this with ⟨-, rfl⟩ | ⟨-, rfl⟩ | ⟨-, rfl⟩ | ⟨-, rfl⟩ <;> trivial
  exact ⟨_, combine hs hx (by rw [hv, hb]; rfl), by decide⟩

open HeapVal in
/-- **C84, not vacuous for asynchronous growth**: the same. -/
theorem C84_async_not_vacuous : ∃ s : HSt (Async.DSt Nat Nat Nat Nat) Nat Nat Nat Nat,
    Exec (HStep (Async.DStepW false addrCall) ansG) (HSt.init (Async.DSt.init exM 0))
      (textHist ++ [.call 0 (.find 1), .ret 0 (.find 1) ⟨true, true, some 2⟩]) s := by
  obtain ⟨s, hs, hb⟩ := text_free
  obtain ⟨b, hX⟩ := seq_async (ps := textBase) (ops := [.insert 1 5, .insert 1 6, .insert 2 6, .find 1])
    (ok := addrCall) (by
    intro op h
    simp only [List.mem_cons, List.not_mem_nil, or_false] at h
    rcases h with rfl | rfl | rfl | rfl <;> trivial) (by with_unfolding_all rfl)
  exact ⟨_, combine hs hX (by rw [hb])⟩

end Growt.Text
