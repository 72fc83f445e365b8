import Verif.Spec.SegmentTree

/-! # Intervals that reach over the ends of the vector, and intervals without positions -/

namespace SegmentTree.Spec
open Cpp

variable {α : Type} [CommRing α] [LinearOrder α]

/-- The interval contains one of the positions `0 … n - 1`. -/
def Touches (n : Nat) (lv rv : Int) : Prop := lv ≤ rv ∧ 0 ≤ rv ∧ lv < n

/-- The interval ends before it begins, and does not lie at or before 0 or behind the last position. -/
def Reversed (n : Nat) (lv rv : Int) : Prop := rv < lv ∧ 0 < lv ∧ rv < n

omit [CommRing α] [LinearOrder α] in
/-- Calls that are fine: queries for an interval with a position, updates of such an interval or of a reversed one. -/
def Op.Fine (n : Nat) : Op α → Prop
  | .add lv rv _ => Touches n lv rv ∨ Reversed n lv rv
  | .mul lv rv _ => Touches n lv rv ∨ Reversed n lv rv
  | .max lv rv => Touches n lv rv
  | .min lv rv => Touches n lv rv
  | .sum lv rv => Touches n lv rv

omit [CommRing α] [LinearOrder α] in
/-- The updated interval has no positions, contains `a..b`, or is apart from it. -/
def Op.Leaves (a b : Int) : Op α → Prop
  | .add lv rv _ => rv < lv ∨ (lv ≤ a ∧ b ≤ rv) ∨ b < lv ∨ rv < a
  | .mul lv rv _ => rv < lv ∨ (lv ≤ a ∧ b ≤ rv) ∨ b < lv ∨ rv < a
  | _ => True

end SegmentTree.Spec
