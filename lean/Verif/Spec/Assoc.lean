import Verif.Model.Assoc

/-! # What a history of calls leaves in a map, a set and a multiset

Histories are given with the latest call first. -/

namespace Cont.Spec

variable {κ ν α : Type} [DecidableEq κ] [DecidableEq α]

/-- The value a key has: that of the last `set` since the last erasure; a use of `m[key]` gives the default value to a key
that has none. -/
def value (dflt : ν) (k : κ) : List (Map.Call κ ν) → Option ν
  | [] => none
  | .set k' v :: h => if k' = k then some v else value dflt k h
  | .index k' :: h => if k' = k then some ((value dflt k h).getD dflt) else value dflt k h
  | .erase k' :: h => if k' = k then none else value dflt k h
  | .clear :: _ => none

/-- Whether a value is in a set: whether it was inserted since its last erasure. -/
def mem (x : α) : List (Set.Call α) → Bool
  | [] => false
  | .insert y :: h => if y = x then true else mem x h
  | .erase y :: h => if y = x then false else mem x h
  | .clear :: _ => false

/-- The multiplicity of a value in a multiset: the number of insertions since its last erasure. -/
def mult (x : α) : List (MultiSet.Call α) → Nat
  | [] => 0
  | .insert y :: h => if y = x then mult x h + 1 else mult x h
  | .erase y :: h => if y = x then 0 else mult x h
  | .clear :: _ => 0

end Cont.Spec
