/-!
# Cutting a file into words by blocks

`push_file` of `tests/text_test.cpp`: the threads take blocks of the file in turn; the word that a block boundary cuts
belongs to the block before it.
-/

set_option linter.unusedSectionVars false

namespace Growt.Text

section
variable {α : Type}

/-! ### Specification -/

/-- The pieces between white space, empty ones included. (specification, no code) -/
def pieces (ws : α → Bool) : List α → List (List α)
  | [] => [[]]
  | c :: l =>
    if ws c then [] :: pieces ws l
    else match pieces ws l with
      | [] => [[c]]
      | p :: ps => (c :: p) :: ps

/-- The words of a text. (specification, no code) -/
def words (ws : α → Bool) (s : List α) : List (List α) := (pieces ws s).filter fun p => !p.isEmpty

/-- The text has no word that ends with the text: it is empty or its last character is white space.
(specification, no code) -/
def openEnd (ws : α → Bool) (s : List α) : Bool := s.getLast?.all ws

/-! ### Model -/

/-- The stream after an access: position (`tellg`), `eof`.  If an extraction fails both `failbit` and `eofbit` are set,
and the code asks for `eof` first (`tests/text_test.cpp:75, 91`), so that `failbit` and the position -1 that `tellg`
gives then are not distinguished. -/
structure In where
  pos : Nat
  eof : Bool
  deriving DecidableEq

/-- `in_stream >> word` at position `p`: skip white space; if there is nothing left the extraction fails and `word`
keeps its value; otherwise read up to white space or the end, `eof` is set in the latter case
(`tests/text_test.cpp:86, 96`; C++ [istream.sentry], [string.io]).  Width and maximal size of strings are not
modelled. -/
def extract (ws : α → Bool) (s : List α) (p : Nat) (word : List α) : In × List α :=
  let q := p + ((s.drop p).takeWhile ws).length
  let w := (s.drop q).takeWhile fun c => !ws c
  if w.isEmpty then (⟨s.length, true⟩, word) else (⟨q + w.length, decide (q + w.length = s.length)⟩, w)

/-- The inner loop (`tests/text_test.cpp:91-144`): the words pushed into the table, in order, and the stream
afterwards; `moved` is what a string holds after `std::move`.  The first argument bounds the number of rounds; `none`:
it does not suffice. -/
def readLoop (ws : α → Bool) (s : List α) (moved : List α → List α) (last : Nat) :
    Nat → In → List α → Option (List (List α) × In)
  | 0, _, _ => none
  | n + 1, i, word =>
    if i.eof || decide (last < i.pos) then some ([], i)
    else match extract ws s i.pos word with
      | (i', w) =>
        match readLoop ws s moved last n i' (moved w) with
        | none => none
        | some (l, j) => some (w :: l, j)

/-- The stream and the string at the beginning of the inner loop: for all blocks but the first one a word is skipped
(`tests/text_test.cpp:77-89`). -/
def blockStart (ws : α → Bool) (s : List α) (start : Nat) : In × List α :=
  if 0 < start then extract ws s start [] else (⟨0, false⟩, [])

/-- One round of the outer loop for the block of size `b` that begins at `start` (`tests/text_test.cpp:75-145`). -/
def block (ws : α → Bool) (s : List α) (moved : List α → List α) (b start : Nat) : Option (List (List α) × In) :=
  readLoop ws s moved (start + b) (s.length + 2) (blockStart ws s start).1 (blockStart ws s start).2

/-- The words pushed for block number `i`, and whether the thread has reached the end of the file
(`tests/text_test.cpp:75-78`). -/
def pushed (ws : α → Bool) (s : List α) (moved : List α → List α) (b i : Nat) : List (List α) :=
  match block ws s moved b (i * b) with
  | some (l, _) => l
  | none => []

/-- Does block number `i` end with `eof` (`tests/text_test.cpp:75`)? -/
def ended (ws : α → Bool) (s : List α) (moved : List α → List α) (b i : Nat) : Bool :=
  match block ws s moved b (i * b) with
  | some (_, j) => j.eof
  | none => false

/-! ### Proof -/

/-- The next word of a text and what follows it. (proof, no code) -/
def next (ws : α → Bool) (l : List α) : List α := (l.dropWhile ws).takeWhile fun c => !ws c

/-- What follows the next word. (proof, no code) -/
def after (ws : α → Bool) (l : List α) : List α := (l.dropWhile ws).dropWhile fun c => !ws c

theorem pieces_ne (ws : α → Bool) (l : List α) : pieces ws l ≠ [] := by
  cases l with
  | nil => simp [pieces]
  | cons c l =>
    simp only [pieces]
    split
    · simp
    · split <;> simp

theorem pieces_word (ws : α → Bool) (l : List α) :
    pieces ws l = (l.takeWhile fun c => !ws c) ::
      match l.dropWhile fun c => !ws c with
      | [] => []
      | _ :: l' => pieces ws l' := by
  induction l with
  | nil => rfl
  | cons c l ih =>
    by_cases h : ws c
    · simp [pieces, h]
    · simp only [pieces, h, Bool.false_eq_true, if_false, List.takeWhile_cons, List.dropWhile_cons, Bool.not_false,
        if_true]
      rw [ih]

theorem words_skip (ws : α → Bool) (l : List α) : words ws (l.dropWhile ws) = words ws l := by
  induction l with
  | nil => rfl
  | cons c l ih =>
    by_cases h : ws c
    · rw [List.dropWhile_cons, if_pos h, ih]
      simp [words, pieces, h]
    · rw [List.dropWhile_cons, if_neg h]

theorem words_next (ws : α → Bool) (l : List α) :
    words ws l = if (next ws l).isEmpty then [] else next ws l :: words ws (after ws l) := by
  rw [← words_skip]
  unfold next after
  generalize hm : l.dropWhile ws = m
  have hhead : ∀ c m', m = c :: m' → ws c = false := by
    intro c m' he
    have := List.head?_dropWhile_not ws l
    rw [hm, he] at this
    simpa using this
  cases m with
  | nil => simp [words, pieces]
  | cons c m' =>
    have hc := hhead c m' rfl
    rw [words, pieces_word]
    have : ((c :: m').takeWhile fun c => !ws c).isEmpty = false := by
      rw [List.takeWhile_cons]; simp [hc]
    rw [if_neg (by simp [this]), List.filter_cons, if_pos (by simp [this])]
    congr 1
    generalize hd : ((c :: m').dropWhile fun c => !ws c) = n
    cases n with
    | nil => simp [words, pieces]
    | cons e n' =>
      have he : ws e = true := by
        have := List.head?_dropWhile_not (fun c => !ws c) (c :: m')
        rw [hd] at this
        simpa using this
      simp [words, pieces, he]

theorem drop_takeWhile (f : α → Bool) (l : List α) : l.drop (l.takeWhile f).length = l.dropWhile f := by
  induction l with
  | nil => rfl
  | cons c l ih =>
    by_cases h : f c
    · rw [List.takeWhile_cons, if_pos h, List.dropWhile_cons, if_pos h]; exact ih
    · rw [List.takeWhile_cons, if_neg h, List.dropWhile_cons, if_neg h]; rfl

/-- The number of characters up to the end of the next word. (proof, no code) -/
def upto (ws : α → Bool) (l : List α) : Nat := (l.takeWhile ws).length + (next ws l).length

theorem drop_upto (ws : α → Bool) (l : List α) : l.drop (upto ws l) = after ws l := by
  rw [upto, ← List.drop_drop, drop_takeWhile, next, drop_takeWhile, after]

theorem upto_le (ws : α → Bool) (l : List α) : upto ws l ≤ l.length := by
  have h1 : (l.takeWhile ws).length + (l.dropWhile ws).length = l.length := by
    rw [← List.length_append, List.takeWhile_append_dropWhile]
  have h2 := (List.takeWhile_sublist (l := l.dropWhile ws) fun c => !ws c).length_le
  unfold upto next
  omega

theorem extract_eq (ws : α → Bool) (s : List α) (p : Nat) (word : List α) :
    extract ws s p word = if (next ws (s.drop p)).isEmpty then (⟨s.length, true⟩, word)
      else (⟨p + upto ws (s.drop p), decide (p + upto ws (s.drop p) = s.length)⟩, next ws (s.drop p)) := by
  unfold extract
  simp only [← List.drop_drop, drop_takeWhile, upto, next, Nat.add_assoc]
  rfl

theorem next_nil (ws : α → Bool) (l : List α) : next ws l = [] ↔ ∀ c ∈ l, ws c = true := by
  induction l with
  | nil => simp [next]
  | cons c l ih =>
    by_cases h : ws c
    · have : next ws (c :: l) = next ws l := by simp [next, List.dropWhile_cons, h]
      rw [this, ih]
      simp [h]
    · simp [next, List.dropWhile_cons, h]

theorem next_drop_nil {ws : α → Bool} {l : List α} (h : next ws l = []) (k : Nat) : next ws (l.drop k) = [] :=
  (next_nil ws _).2 fun c hc => (next_nil ws l).1 h c (List.mem_of_mem_drop hc)

theorem takeWhile_drop {f : α → Bool} {l : List α} : ∀ {k : Nat}, k < (l.takeWhile f).length →
    (l.drop k).takeWhile f = (l.takeWhile f).drop k := by
  induction l with
  | nil => intro k h; simp at h
  | cons c l ih =>
    intro k h
    by_cases hc : f c
    · rw [List.takeWhile_cons, if_pos hc] at h ⊢
      cases k with
      | zero => simp [hc]
      | succ k => exact ih (by simpa using h)
    · rw [List.takeWhile_cons, if_neg hc] at h; simp at h

/-- Starting anywhere before the end of the next word leads to the same end. -/
theorem next_resume {ws : α → Bool} {l : List α} : ∀ {k : Nat}, next ws l ≠ [] → k < upto ws l →
    next ws (l.drop k) ≠ [] ∧ k + upto ws (l.drop k) = upto ws l := by
  induction l with
  | nil => intro k h; simp [next] at h
  | cons c l ih =>
    intro k hn hk
    cases k with
    | zero => exact ⟨hn, by simp⟩
    | succ k =>
      by_cases hc : ws c
      · have e1 : next ws (c :: l) = next ws l := by simp [next, List.dropWhile_cons, hc]
        have e2 : upto ws (c :: l) = upto ws l + 1 := by
          simp only [upto, e1, List.takeWhile_cons, hc, if_true, List.length_cons]; omega
        rw [e1] at hn
        rw [e2] at hk ⊢
        obtain ⟨h1, h2⟩ := ih hn (Nat.lt_of_succ_lt_succ hk)
        exact ⟨h1, by rw [List.drop_succ_cons]; omega⟩
      · have e1 : next ws (c :: l) = c :: l.takeWhile fun c => !ws c := by
          simp [next, List.dropWhile_cons, List.takeWhile_cons, hc]
        have e2 : upto ws (c :: l) = (l.takeWhile fun c => !ws c).length + 1 := by
          simp [upto, e1, List.takeWhile_cons, hc]
        rw [e2] at hk ⊢
        have hk' : k < (l.takeWhile fun c => !ws c).length := Nat.lt_of_succ_lt_succ hk
        have e3 := takeWhile_drop hk'
        rw [List.drop_succ_cons]
        have e4 : (l.drop k).takeWhile ws = [] := by
          cases hd : l.drop k with
          | nil => rfl
          | cons e n =>
            by_cases he : ws e
            · rw [hd, List.takeWhile_cons] at e3
              simp only [he, Bool.not_true, Bool.false_eq_true, if_false] at e3
              have := congrArg List.length e3
              simp at this
              omega
            · rw [List.takeWhile_cons, if_neg he]
        have e5 : (l.drop k).dropWhile ws = l.drop k := by
          rw [← drop_takeWhile, e4]; rfl
        have e6 : next ws (l.drop k) = (l.takeWhile fun c => !ws c).drop k := by rw [next, e5, e3]
        refine ⟨?_, ?_⟩
        · rw [e6]
          intro h
          have := congrArg List.length h
          simp at this
          omega
        · rw [upto, e4, e6, List.length_drop]
          simp
          omega

/-- Where the stream is. (proof, no code) -/
def At (i j : In) : Prop := i.eof = j.eof ∧ (i.eof = false → i.pos = j.pos)

theorem extract_at (ws : α → Bool) (s : List α) (p : Nat) (w w' : List α) :
    (extract ws s p w).1 = (extract ws s p w').1 := by
  rw [extract_eq, extract_eq]; split <;> rfl

/-- Skipping a word at `b` leads to where reading a word at `p ≤ b` leads, if that is behind `b` or at the end. -/
theorem extract_later {ws : α → Bool} {s : List α} {p b : Nat} (hpb : p ≤ b) {w w' : List α}
    (h : (extract ws s p w).1.eof = true ∨ b < (extract ws s p w).1.pos) :
    At (extract ws s p w).1 (extract ws s b w').1 := by
  have hd : s.drop b = (s.drop p).drop (b - p) := by rw [List.drop_drop]; congr 1; omega
  rw [extract_eq] at h ⊢
  rw [extract_eq ws s b]
  by_cases hn : (next ws (s.drop p)).isEmpty
  · have : (next ws (s.drop b)).isEmpty := by
      rw [hd, List.isEmpty_iff]
      exact next_drop_nil (List.isEmpty_iff.1 hn) _
    rw [if_pos hn, if_pos this]
    exact ⟨rfl, nofun⟩
  · rw [if_neg hn] at h ⊢
    by_cases hb : b < p + upto ws (s.drop p)
    · obtain ⟨h1, h2⟩ := next_resume (k := b - p) (l := s.drop p) (fun h => hn (List.isEmpty_iff.2 h)) (by omega)
      rw [← hd] at h1 h2
      have h1' : ¬ (next ws (s.drop b)).isEmpty := fun h => h1 (List.isEmpty_iff.1 h)
      rw [if_neg h1']
      have e : b + upto ws (s.drop b) = p + upto ws (s.drop p) := by omega
      rw [e]
      exact ⟨rfl, fun _ => rfl⟩
    · have he : p + upto ws (s.drop p) = s.length := by
        rcases h with h | h
        · simpa using h
        · exact absurd h hb
      have : s.drop b = [] := List.drop_eq_nil_of_le (by omega)
      have hn' : (next ws (s.drop b)).isEmpty := by rw [this]; rfl
      rw [if_pos hn']
      exact ⟨by simp [he], fun h => by simp [he] at h⟩

theorem openEnd_rest {ws : α → Bool} {s : List α} {p : Nat} (hp : p = 0 ∨ p < s.length) (h : next ws (s.drop p) = []) :
    openEnd ws s = true := by
  unfold openEnd
  cases hl : s.getLast? with
  | none => rfl
  | some c =>
    have hne : s.drop p ≠ [] := by
      rcases hp with rfl | hp
      · intro h; rw [List.drop_zero] at h; rw [h] at hl; cases hl
      · intro h
        have := congrArg List.length h
        simp at this
        omega
    have hlt : p < s.length := by
      rcases hp with rfl | hp
      · cases s with
        | nil => cases hl
        | cons _ _ => simp
      · exact hp
    have : (s.drop p).getLast? = some c := by rw [List.getLast?_drop, if_neg (by omega), hl]
    have hm : c ∈ s.drop p := List.mem_of_getLast? this
    exact (next_nil ws _).1 h c hm

theorem openEnd_word {ws : α → Bool} {s : List α} {p : Nat} (h : next ws (s.drop p) ≠ [])
    (he : p + upto ws (s.drop p) = s.length) : openEnd ws s = false := by
  generalize hl : s.drop p = l at h he
  have hu : upto ws l = l.length := by rw [← hl] at he ⊢; have := upto_le ws (s.drop p); simp at this ⊢; omega
  have hdw : (l.dropWhile ws).takeWhile (fun c => !ws c) = l.dropWhile ws := by
    have h1 : (l.takeWhile ws).length + (l.dropWhile ws).length = l.length := by
      rw [← List.length_append, List.takeWhile_append_dropWhile]
    have h2 : ((l.dropWhile ws).takeWhile fun c => !ws c).length = (l.dropWhile ws).length := by
      unfold upto next at hu; omega
    exact (List.takeWhile_prefix _).eq_of_length h2
  have hn : next ws l = l.dropWhile ws := hdw
  obtain ⟨c, hc⟩ : ∃ c, (l.dropWhile ws).getLast? = some c := by
    cases hg : (l.dropWhile ws).getLast? with
    | none => rw [List.getLast?_eq_none_iff] at hg; rw [hn, hg] at h; exact absurd rfl h
    | some c => exact ⟨c, rfl⟩
  have hws : ws c = false := by
    have hm : c ∈ (l.dropWhile ws).takeWhile (fun c => !ws c) := by rw [hdw]; exact List.mem_of_getLast? hc
    have := List.all_takeWhile (p := fun c => !ws c) (l := l.dropWhile ws)
    rw [List.all_eq_true] at this
    simpa using this c hm
  have hsuf : l.dropWhile ws <:+ s := by
    have h1 : l.dropWhile ws <:+ l := List.dropWhile_suffix _
    exact h1.trans (hl ▸ List.drop_suffix p s)
  obtain ⟨t, ht⟩ := hsuf
  have : s.getLast? = some c := by rw [← ht, List.getLast?_append, hc]; rfl
  simp [openEnd, this, hws]

/-- A stream in the middle of the text. (proof, no code) -/
def Mid (s : List α) (i : In) : Prop := i.eof = false → i.pos = 0 ∨ i.pos < s.length

theorem extract_mid (ws : α → Bool) (s : List α) (p : Nat) (w : List α) : Mid s (extract ws s p w).1 := by
  rw [extract_eq]
  intro h
  split at h
  · cases h
  · rename_i hn
    rw [if_neg hn]
    have h' : ¬ p + upto ws (s.drop p) = s.length := by simpa using h
    have := upto_le ws (s.drop p)
    rw [List.length_drop] at this
    have hne : s.drop p ≠ [] := by intro e; rw [e] at hn; exact hn rfl
    have : p < s.length := by
      rcases Nat.lt_or_ge p s.length with h | h
      · exact h
      · exact absurd (List.drop_eq_nil_of_le h) hne
    right
    show p + upto ws (s.drop p) < s.length
    omega

/-- What the inner loop pushes, and where it ends. (proof, no code) -/
structure Loop (ws : α → Bool) (s : List α) (last : Nat) (i : In) (l : List (List α)) (j : In) : Prop where
  going : j.eof = false → i.eof = false ∧ l ++ words ws (s.drop j.pos) = words ws (s.drop i.pos) ∧ last < j.pos
  over : i.eof = false → j.eof = true →
    ∃ xs : List (List α), l = words ws (s.drop i.pos) ++ xs ∧ xs.length = if openEnd ws s then 1 else 0
  done : i.eof = true → l = [] ∧ j.eof = true
  mid : Mid s j
  pause : i.eof = false → last < i.pos → j = i
  sync : i.eof = false → i.pos ≤ last → ∀ w, At j (extract ws s last w).1

theorem readLoop_ok (ws : α → Bool) (s : List α) (moved : List α → List α) (last : Nat) : ∀ (n : Nat) (i : In)
    (word : List α), Mid s i → 0 < n → (i.eof = false → s.length - i.pos + 2 ≤ n) →
    ∃ l j, readLoop ws s moved last n i word = some (l, j) ∧ Loop ws s last i l j := by
  intro n
  induction n with
  | zero => intro i word _ h; omega
  | succ n ih =>
    intro i word hm _ hn
    rw [readLoop]
    by_cases he : i.eof = true
    · refine ⟨[], i, by simp [he], ⟨fun h => (by rw [he] at h; cases h), fun h => (by rw [he] at h; cases h),
        fun _ => ⟨rfl, he⟩, hm, fun _ _ => rfl, fun h => (by rw [he] at h; cases h)⟩⟩
    · have he : i.eof = false := by simpa using he
      by_cases hl : last < i.pos
      · refine ⟨[], i, by simp [hl], ⟨fun _ => ⟨he, rfl, hl⟩, fun _ h => (by rw [he] at h; cases h),
          fun h => (by rw [he] at h; cases h), hm, fun _ _ => rfl, fun _ h => absurd h (by omega)⟩⟩
      · rw [if_neg (by simp [he, hl])]
        have hn := hn he
        have hmid := extract_mid ws s i.pos word
        have hlater : ∀ w', ((extract ws s i.pos word).1.eof = true ∨ last < (extract ws s i.pos word).1.pos) →
            At (extract ws s i.pos word).1 (extract ws s last w').1 := fun w' h => extract_later (by omega) h
        rw [extract_eq] at hmid hlater ⊢
        by_cases hx : (next ws (s.drop i.pos)).isEmpty
        · simp only [hx, if_true] at hmid hlater ⊢
          obtain ⟨l, j, e1, e2⟩ := ih ⟨s.length, true⟩ (moved word) hmid (by omega) nofun
          rw [e1]
          obtain ⟨rfl, hj⟩ := e2.done rfl
          have hw : words ws (s.drop i.pos) = [] := by rw [words_next, if_pos hx]
          refine ⟨[word], j, rfl, ⟨fun h => (by rw [hj] at h; cases h), fun _ _ => ⟨[word], ?_, ?_⟩,
            fun h => (by rw [he] at h; cases h), e2.mid, fun _ h => absurd h hl, fun _ _ w => ?_⟩⟩
          · rw [hw]; rfl
          · rw [openEnd_rest (hm he) (List.isEmpty_iff.1 hx)]; rfl
          · have h1 := (hlater w (.inl trivial)).1
            exact ⟨by rw [hj]; exact h1, fun h => by rw [hj] at h; cases h⟩
        · simp only [hx, Bool.false_eq_true, if_false] at hmid hlater ⊢
          have hne : next ws (s.drop i.pos) ≠ [] := fun h => hx (List.isEmpty_iff.2 h)
          have hw : words ws (s.drop i.pos) =
              next ws (s.drop i.pos) :: words ws (s.drop (i.pos + upto ws (s.drop i.pos))) := by
            rw [words_next, if_neg hx, ← drop_upto, List.drop_drop]
          have hpos : 0 < upto ws (s.drop i.pos) := by
            unfold upto
            have : 0 < (next ws (s.drop i.pos)).length := List.length_pos_iff.2 hne
            omega
          have hle := upto_le ws (s.drop i.pos)
          rw [List.length_drop] at hle
          obtain ⟨l, j, e1, e2⟩ := ih ⟨i.pos + upto ws (s.drop i.pos),
            decide (i.pos + upto ws (s.drop i.pos) = s.length)⟩ (moved (next ws (s.drop i.pos))) hmid (by omega)
            (fun _ => by show s.length - (i.pos + upto ws (s.drop i.pos)) + 2 ≤ n; omega)
          rw [e1]
          refine ⟨_, j, rfl, ⟨fun h => ?_, fun _ h => ?_, fun h => (by rw [he] at h; cases h), e2.mid, fun _ h => absurd h hl, fun _ _ w => ?_⟩⟩
          · obtain ⟨a1, a2, a3⟩ := e2.going h
            refine ⟨he, ?_, a3⟩
            rw [List.cons_append, a2, hw]
          · by_cases hend : i.pos + upto ws (s.drop i.pos) = s.length
            · obtain ⟨rfl, -⟩ := e2.done (by simp [hend])
              refine ⟨[], ?_, ?_⟩
              · rw [hw, hend, List.drop_length]; simp [words, pieces]
              · rw [openEnd_word hne hend]; rfl
            · obtain ⟨xs, hxs, hlen⟩ := e2.over (by simp [hend]) h
              refine ⟨xs, ?_, hlen⟩
              rw [hw, hxs]; rfl
          · by_cases hend : i.pos + upto ws (s.drop i.pos) = s.length
            · have hj := (e2.done (by simp [hend])).2
              have h1 := (hlater w (.inl (by simp [hend]))).1
              refine ⟨by rw [hj, ← h1]; simp [hend], fun h => by rw [hj] at h; cases h⟩
            · by_cases hb : i.pos + upto ws (s.drop i.pos) ≤ last
              · exact e2.sync (by simp [hend]) hb w
              · have h1 := hlater w (.inr (by show last < i.pos + upto ws (s.drop i.pos); omega))
                cases n with
                | zero => omega
                | succ n =>
                  rw [readLoop, if_pos (by simp; right; omega)] at e1
                  cases e1
                  exact h1

theorem block_ok (ws : α → Bool) (s : List α) (moved : List α → List α) (b start : Nat) :
    ∃ l j, block ws s moved b start = some (l, j) ∧ Loop ws s (start + b) (blockStart ws s start).1 l j := by
  refine readLoop_ok ws s moved _ _ _ _ ?_ (by omega) (fun _ => by omega)
  unfold blockStart
  split
  · exact extract_mid ws s _ _
  · exact fun _ => .inl rfl

/-- Where a block ends the next one begins. -/
theorem block_next {ws : α → Bool} {s : List α} {b start : Nat} {l : List (List α)} {j : In} (hb : 0 < b)
    (h : Loop ws s (start + b) (blockStart ws s start).1 l j) : At j (blockStart ws s (start + b)).1 := by
  have hs : blockStart ws s (start + b) = extract ws s (start + b) [] := by rw [blockStart, if_pos (by omega)]
  rw [hs]
  by_cases he : (blockStart ws s start).1.eof = false
  · by_cases hp : (blockStart ws s start).1.pos ≤ start + b
    · exact h.sync he hp _
    · rw [h.pause he (by omega)]
      by_cases h0 : 0 < start
      · have hs0 : blockStart ws s start = extract ws s start [] := by rw [blockStart, if_pos h0]
        rw [hs0] at he hp ⊢
        exact extract_later (by omega) (.inr (by omega))
      · rw [blockStart, if_neg h0] at hp
        exact absurd (Nat.zero_le _) hp
  · have he : (blockStart ws s start).1.eof = true := by simpa using he
    have h0 : 0 < start := by
      rcases Nat.eq_zero_or_pos start with h0 | h0
      · rw [blockStart, if_neg (by omega)] at he; cases he
      · exact h0
    have hj := (h.done he).2
    have hs0 : blockStart ws s start = extract ws s start [] := by rw [blockStart, if_pos h0]
    rw [hs0] at he
    have hl := extract_later (ws := ws) (s := s) (p := start) (b := start + b) (w := []) (w' := []) (by omega)
      (.inl he)
    exact ⟨by rw [hj, ← hl.1, he], fun h => by rw [hj] at h; cases h⟩

/-- The blocks before block `m` together. -/
theorem blocks_ok (ws : α → Bool) (s : List α) (moved : List α → List α) {b : Nat} (hb : 0 < b) (m : Nat) :
    ((blockStart ws s (m * b)).1.eof = false → (List.range m).flatMap (pushed ws s moved b) ++
      words ws (s.drop (blockStart ws s (m * b)).1.pos) = words ws s) ∧
    ((blockStart ws s (m * b)).1.eof = true → ∃ xs : List (List α),
      (List.range m).flatMap (pushed ws s moved b) = words ws s ++ xs ∧ xs.length = if openEnd ws s then 1 else 0) ∧
    ∀ k < m, ended ws s moved b k = true → (blockStart ws s (m * b)).1.eof = true := by
  induction m with
  | zero =>
    rw [Nat.zero_mul]
    exact ⟨fun _ => rfl, nofun, fun k h => by omega⟩
  | succ m ih =>
    obtain ⟨l, j, h1, h2⟩ := block_ok ws s moved b (m * b)
    have hn := block_next hb h2
    rw [← Nat.succ_mul] at hn
    have hp : pushed ws s moved b m = l := by rw [pushed, h1]
    have hE : ended ws s moved b m = j.eof := by rw [ended, h1]
    rw [List.range_succ, List.flatMap_append, List.flatMap_cons, List.flatMap_nil, List.append_nil, hp]
    refine ⟨fun he => ?_, fun he => ?_, fun k hk hek => ?_⟩
    · have hj : j.eof = false := by rw [hn.1]; exact he
      obtain ⟨a1, a2, a3⟩ := h2.going hj
      rw [← hn.2 hj, List.append_assoc, a2]
      exact ih.1 a1
    · have hj : j.eof = true := by rw [hn.1]; exact he
      rcases Bool.eq_false_or_eq_true (blockStart ws s (m * b)).1.eof with hc | hc
      · obtain ⟨rfl, -⟩ := h2.done hc
        rw [List.append_nil]
        exact ih.2.1 hc
      · obtain ⟨xs, e1, e2⟩ := h2.over hc hj
        refine ⟨xs, ?_, e2⟩
        rw [e1, ← List.append_assoc, ih.1 hc]
    · rw [← hn.1]
      rcases Nat.lt_or_ge k m with h | h
      · exact (h2.done (ih.2.2 k h hek)).2
      · have : k = m := by omega
        rw [← hE, ← this]; exact hek

end
end Growt.Text
