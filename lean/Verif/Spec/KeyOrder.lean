import Verif.Model.Assoc
import Verif.Spec.Fraction

/-! # What histories of calls leave in a set or a map whose elements are told apart by a key only

Histories are given with the latest call first. -/

namespace Cont.Spec

variable {α κ ν : Type} [DecidableEq κ]

/-- The element with key `k` that is in a set: the first one inserted since an element with that key was erased. -/
def kept (key : α → κ) (k : κ) : List (Set.Call α) → Option α
  | [] => none
  | .insert y :: h => if key y = k then some ((kept key k h).getD y) else kept key k h
  | .erase y :: h => if key y = k then none else kept key k h
  | .clear :: _ => none

/-- The value of a key in a map. -/
def valueBy (dflt : ν) (key : α → κ) (k : κ) : List (Map.Call α ν) → Option ν
  | [] => none
  | .set y v :: h => if key y = k then some v else valueBy dflt key k h
  | .index y :: h => if key y = k then some ((valueBy dflt key k h).getD dflt) else valueBy dflt key k h
  | .erase y :: h => if key y = k then none else valueBy dflt key k h
  | .clear :: _ => none

/-- All elements a call is about satisfy `P`. -/
def setArg (P : α → Prop) : Set.Call α → Prop
  | .insert x | .erase x => P x
  | .clear => True

/-- All keys a call is about satisfy `P`. -/
def mapArg (P : α → Prop) : Map.Call α ν → Prop
  | .set k _ | .index k | .erase k => P k
  | .clear => True

/-- A Fraction whose numerator and denominator are at most 46340 (the root of the greatest int). -/
def SmallFrac (f : Fraction.Frac) : Prop :=
  Fraction.Spec.Canonical f ∧ -46340 ≤ f.num ∧ f.num ≤ 46340 ∧ f.den ≤ 46340

end Cont.Spec
