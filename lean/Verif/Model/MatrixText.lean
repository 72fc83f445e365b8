import Verif.Model.Matrix
import Verif.Model.Json

/-!
# Model of `Matrix<int>::toString`, /repo/src/include/math_utils/Matrix.h:183-192

`operator<<`, Matrix.h:53-56, writes this text to the stream.
-/

namespace Matrix
open Cpp

/-- The inner loop, Matrix.h:188. -/
def toTextRow (A : Mat Int) (i : Nat) (s : Str) (j : Nat) : Out Str := do
  .ok (s ++ (bytes [',', ' '] ++ Json.decInt (← A.get i j)))

/-- The body of the outer loop, Matrix.h:187-189. -/
def toTextStep (A : Mat Int) (s : Str) (i : Nat) : Out Str := do
  let s := s ++ Json.decInt (← A.get i 0)
  let s ← (List.range' 1 (A.col - 1)).foldlM (toTextRow A i) s
  .ok (s ++ [10])

/-- `toString()`, Matrix.h:183-192. -/
def toText (A : Mat Int) : Out Str := (List.range A.row).foldlM (toTextStep A) []

end Matrix
