/-!
# Specification: the ideal map

This file knows nothing about slots, tables, hashing or threads.  A dictionary is a function
`K → Option V`; each API call has a meaning on it.
-/

namespace Growt

/-- An ideal dictionary. (specification, no code) -/
abbrev Dict (K V : Type) := K → Option V

/-- The dictionary `m` with `k` mapped to `v`. (specification, no code) -/
def Dict.put {K V : Type} [DecidableEq K] (m : Dict K V) (k : K) (v : V) : Dict K V :=
  fun x => if x = k then some v else m x

/-- The dictionary `m` without `k`. (specification, no code) -/
def Dict.del {K V : Type} [DecidableEq K] (m : Dict K V) (k : K) : Dict K V :=
  fun x => if x = k then none else m x

/-- The calls of the README API.  An update function is represented by `g : V → V × V`: the new
value of the element and the value that the call shows through its iterator. (specification, no code) -/
inductive SOp (K V : Type) where
  | find (k : K)
  | insert (k : K) (d : V)
  | modify (k : K) (g : V → V × V)
  | insertOrModify (k : K) (d : V) (g : V → V × V)
  | erase (k : K)
  | eraseIf (k : K) (d : V)

/-- What the caller sees: the boolean (resp. size 0/1) result and the value visible through the
returned iterator (`none` = `end()`). (specification, no code) -/
structure SRes (V : Type) where
  ok : Bool
  shown : Option V
  deriving DecidableEq

/-- Meaning of the calls (README.org:34-78). (specification, no code) -/
def SOp.sem {K V : Type} [DecidableEq K] [DecidableEq V] :
    SOp K V → Dict K V → Dict K V × SRes V
  | .find k, m => (m, ⟨(m k).isSome, m k⟩)
  | .insert k d, m =>
    match m k with
    | none => (m.put k d, ⟨true, some d⟩)
    | some w => (m, ⟨false, some w⟩)
  | .modify k g, m =>
    match m k with
    | none => (m, ⟨false, none⟩)
    | some w => (m.put k (g w).1, ⟨true, some (g w).2⟩)
  | .insertOrModify k d g, m =>
    match m k with
    | none => (m.put k d, ⟨true, some d⟩)
    | some w => (m.put k (g w).1, ⟨false, some (g w).2⟩)
  | .erase k, m =>
    match m k with
    | none => (m, ⟨false, none⟩)
    | some _ => (m.del k, ⟨true, none⟩)
  | .eraseIf k d, m =>
    if m k = some d then (m.del k, ⟨true, none⟩) else (m, ⟨false, none⟩)

/-- The key a call is about. (specification, no code) -/
def SOp.key {K V : Type} : SOp K V → K
  | .find k | .insert k _ | .modify k _ | .insertOrModify k _ _ | .erase k | .eraseIf k _ => k

/-- Calls that may add a key. (specification, no code) -/
def SOp.inserts {K V : Type} : SOp K V → Bool
  | .insert _ _ | .insertOrModify _ _ _ => true
  | _ => false

end Growt
