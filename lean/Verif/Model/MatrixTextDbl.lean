import Verif.Model.Matrix
import Verif.Model.JsonDouble

/-!
# Model of `Matrix<double>::toString`, /repo/src/include/math_utils/Matrix.h:183-192

The entries are doubles with their sign bits.
-/

namespace Matrix
open Cpp Json

/-- The inner loop, Matrix.h:188. -/
def toTextRowD (A : Mat F64) (i : Nat) (s : Str) (j : Nat) : Out Str := do
  .ok (s ++ (bytes [',', ' '] ++ (← A.get i j).toText))

/-- The body of the outer loop, Matrix.h:187-189. -/
def toTextStepD (A : Mat F64) (s : Str) (i : Nat) : Out Str := do
  let s := s ++ (← A.get i 0).toText
  let s ← (List.range' 1 (A.col - 1)).foldlM (toTextRowD A i) s
  .ok (s ++ [10])

/-- `toString()`, Matrix.h:183-192. -/
def toTextD (A : Mat F64) : Out Str := (List.range A.row).foldlM (toTextStepD A) []

end Matrix
