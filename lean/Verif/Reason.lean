import Verif.Acct

/-!
# Answers have reasons

A call that says that a key is there (a successful find, update or erasure, a failed insertion) and a call that says
that it is not: what other calls must have been made.
-/

set_option linter.unusedSectionVars false

namespace Growt.Agg

section
variable {T O R K V : Type} [DecidableEq T] [DecidableEq K]

/-! ### Specification -/

/-- Answers about key `k` have reasons.  `says o r = some (k, true)`: the call `o` with result `r` says that there is an
element with key `k`, `some (k, false)`: that there is none. (specification, no code) -/
structure Reasoned (W : Book O R K V) (says : O → R → Option (K × Bool)) (k : K) (h : List (Ev T O R)) : Prop where
  /-- A call that says that `k` is there: other calls have been made before it returned that may insert `k`, at least
  one more than erasures of `k` had been successful when it was called. -/
  there : ∀ h1 i o h2 r h3, h = h1 ++ .call i o :: (h2 ++ .ret i o r :: h3) → says o r = some (k, true) →
    retSum (W.hasTaken k) h1 + 1 ≤ callSum (W.mayPut k) h1 + callSum (W.mayPut k) h2
  /-- A call that says that `k` is not there: other calls have been made before it returned that may erase `k`, at
  least one for every insertion of `k` that was successful when it was called. -/
  missing : ∀ h1 i o h2 r h3, h = h1 ++ .call i o :: (h2 ++ .ret i o r :: h3) → says o r = some (k, false) →
    retSum (W.hasPut k) h1 ≤ callSum (W.mayTake k) h1 + callSum (W.mayTake k) h2

/-! ### Proof -/

/-- A sequential object that says the truth. (proof, no code) -/
structure Truthful (S : Obj O R (Dict K V)) (says : O → R → Option (K × Bool)) : Prop where
  tells : ∀ {d d' o r k b}, S.legal d o r d' → says o r = some (k, b) → (d k).isSome = b

/-- **Answers have reasons.** -/
theorem Keeper.reasoned {S : Obj O R (Dict K V)} {W : Book O R K V} {k : K} (C : Keeper S W k)
    {says : O → R → Option (K × Bool)} (hs : Truthful S says) {h : List (Ev T O R)} (hl : Linearizable S h) :
    Reasoned W says k h where
  there := by
    rintro h1 i o h2 r h3 rfl hk
    obtain ⟨x, p, d, d', hw, hd, hx, -, hb⟩ := state_at hl
    have e1 := C.after hd
    have e2 := hb _ _ (W.hasTaken_le k)
    have e3 := hb _ _ (W.hasPut_le k)
    have e4 := hs.tells hx hk
    rw [callSum_append] at e3
    simp only [callSum] at e3
    simp only [pres, e4, if_true] at e1
    omega
  missing := by
    rintro h1 i o h2 r h3 rfl hk
    obtain ⟨x, p, d, d', hw, hd, hx, -, hb⟩ := state_at hl
    have e1 := C.after hd
    have e2 := hb _ _ (W.hasTaken_le k)
    have e3 := hb _ _ (W.hasPut_le k)
    have e4 := hs.tells hx hk
    rw [callSum_append] at e2
    simp only [callSum] at e2
    simp only [pres, e4, Bool.false_eq_true, if_false] at e1
    omega

end
end Growt.Agg
