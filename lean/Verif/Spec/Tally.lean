import Mathlib.Order.Defs.LinearOrder
import Mathlib.Order.Basic
import Mathlib.Data.Int.Order.Basic

/-! # Memory in use, from the list of the blocks taken (positive) and given back (negative) -/

namespace Tally.Spec

/-- Bytes in use at the end. -/
def left (t : List Int) : Int := t.sum

/-- The most bytes ever in use. -/
def peak : List Int → Int
  | [] => 0
  | x :: t => max 0 (x + peak t)

end Tally.Spec
