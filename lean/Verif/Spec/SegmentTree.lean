import Verif.Model.SegmentTree
import Mathlib.Order.Bounds.Basic
import Mathlib.Algebra.BigOperators.Group.List.Basic

/-! # Segment trees: what users expect

An array of values, interval updates and interval aggregates, with no trees in sight.  `Op` lists the calls a
client may make; `run` performs them on the model, `values` on the array. -/

namespace SegmentTree
open Cpp

variable {α : Type} [CommRing α] [LinearOrder α]

/-- One call. -/
inductive Op (α : Type) where
  | add (lv rv : Int) (x : α)
  | mul (lv rv : Int) (x : α)
  | max (lv rv : Int)
  | min (lv rv : Int)
  | sum (lv rv : Int)

namespace Spec

omit [CommRing α] [LinearOrder α] in
/-- The interval of a call is nonempty and inside `[0, n)`. -/
def InRange (n : Nat) (lv rv : Int) : Prop := 0 ≤ lv ∧ lv ≤ rv ∧ rv < n

omit [CommRing α] [LinearOrder α] in
def Op.InRange (n : Nat) : Op α → Prop
  | .add lv rv _ => Spec.InRange n lv rv
  | .mul lv rv _ => Spec.InRange n lv rv
  | .max lv rv => Spec.InRange n lv rv
  | .min lv rv => Spec.InRange n lv rv
  | .sum lv rv => Spec.InRange n lv rv

omit [LinearOrder α] in
/-- The array after one call: every element of an updated interval changes, queries change nothing. -/
def apply (v : List α) : Op α → List α
  | .add lv rv x => v.mapIdx fun i y => if lv ≤ i ∧ i ≤ rv then y + x else y
  | .mul lv rv x => v.mapIdx fun i y => if lv ≤ i ∧ i ≤ rv then y * x else y
  | _ => v

omit [LinearOrder α] in
/-- The array after a history. -/
def values (v : List α) (ops : List (Op α)) : List α := ops.foldl apply v

omit [CommRing α] [LinearOrder α] in
/-- The elements at positions `a..b`. -/
def slice (v : List α) (a b : Int) : List α := (v.drop a.toNat).take (b - a + 1).toNat

omit [CommRing α] in
/-- `x` is the maximum of the elements at `a..b`. -/
def IsMax (v : List α) (a b : Int) (x : α) : Prop := IsGreatest {y | y ∈ slice v a b} x

omit [CommRing α] in
/-- `x` is the minimum of the elements at `a..b`. -/
def IsMin (v : List α) (a b : Int) (x : α) : Prop := IsLeast {y | y ∈ slice v a b} x

omit [LinearOrder α] in
/-- `x` is the sum of the elements at `a..b`. -/
def IsSum (v : List α) (a b : Int) (x : α) : Prop := x = (slice v a b).sum

omit [CommRing α] [LinearOrder α] in
/-- The interval `a..b` lies inside the updated interval or apart from it. -/
def Op.Respects (a b : Int) : Op α → Prop
  | .add lv rv _ => (lv ≤ a ∧ b ≤ rv) ∨ b < lv ∨ rv < a
  | .mul lv rv _ => (lv ≤ a ∧ b ≤ rv) ∨ b < lv ∨ rv < a
  | _ => True

/-- A multiplication is by a nonnegative factor. -/
def Op.NonNeg : Op α → Prop
  | .mul _ _ x => 0 ≤ x
  | _ => True

end Spec

/-- The call on the model; the value returned by a query is dropped. -/
def exec (fuel : Nat) (t : Seg α) : Op α → Out (Seg α)
  | .add lv rv x => addInterval fuel t lv rv x
  | .mul lv rv x => mulInterval fuel t lv rv x
  | .max lv rv => do let (t, _) ← queryMax fuel t lv rv; .ok t
  | .min lv rv => do let (t, _) ← queryMin fuel t lv rv; .ok t
  | .sum lv rv => do let (t, _) ← querySum fuel t lv rv; .ok t

/-- A history on the model: build the tree, then make the calls in order. -/
def run (fuel : Nat) (v : List α) (ops : List (Op α)) : Out (Seg α) := do
  let t ← build fuel v
  ops.foldlM (exec fuel) t

end SegmentTree
