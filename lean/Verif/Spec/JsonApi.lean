import Verif.Model.JsonApi

/-! # What is at a path, and which paths do not meet -/

namespace Json.Spec
open Cpp

/-- The element at a path, if there is one. -/
def find : List Step → Value → Option Value
  | [], v => some v
  | .key k :: p, .obj m =>
    match m.find? (fun q => q.1 = k) with
    | some q => find p q.2
    | none => none
  | .idx i :: p, .arr l => if i < 0 then none else (l[i.toNat]?).bind (find p)
  | _, _ => none

/-- Two paths that part ways at two keys or at two indices. -/
inductive Apart : List Step → List Step → Prop
  | key {k k' : Str} (h : k ≠ k') (p q : List Step) : Apart (.key k :: p) (.key k' :: q)
  | idx {i j : Int} (h : i ≠ j) (p q : List Step) : Apart (.idx i :: p) (.idx j :: q)
  | step (s : Step) {p q : List Step} (h : Apart p q) : Apart (s :: p) (s :: q)

/-- All subscripts that are indices are not negative, and less than the greatest `int`. -/
def Indices (p : List Step) : Prop := ∀ i, .idx i ∈ p → 0 ≤ i ∧ i < INT_MAX

/-- Every object inside lists its keys in order (as every `std::map` does). -/
inductive Ordered : Value → Prop
  | null : Ordered .null
  | bool (b : Bool) : Ordered (.bool b)
  | int (i : Int) : Ordered (.int i)
  | float (q : ℚ) : Ordered (.float q)
  | str (s : Str) : Ordered (.str s)
  | arr (l : List Value) (h : ∀ v ∈ l, Ordered v) : Ordered (.arr l)
  | obj (m : List (Str × Value)) (hs : m.Pairwise fun a b => a.1 < b.1) (h : ∀ p ∈ m, Ordered p.2) : Ordered (.obj m)

end Json.Spec
