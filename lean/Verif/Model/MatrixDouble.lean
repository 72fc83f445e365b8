import Verif.Model.Matrix
import Verif.Model.Double

/-!
# Model of `Matrix<double>`, /repo/src/include/math_utils/Matrix.h

The functions are those of `Model/Matrix.lean`; here is the arithmetic of `double` in IEEE 754 binary64
(`Model/Double.lean`).  Simplification, as there: the two zeros are one value.  `A[j][r] != 0` is true of a
NaN, as is `x ≠ zero` in the model.
-/

namespace Matrix
open Cpp

/-- The operators of `double` that Matrix.h:76, 86, 96, 103, 111, 118, 172 and 176 use. -/
def Arith.dbl : Arith Dbl where
  zero := .fin 0
  one := .fin 1
  add x y := .ok (x + y)
  sub x y := .ok (x - y)
  mul x y := .ok (x * y)
  div x y := .ok (x / y)

/-- `x == y` of two doubles, as in `!=` of Matrix.h:62: a NaN differs from everything. -/
def dblEq : Dbl → Dbl → Bool
  | .fin a, .fin b => decide (a = b)
  | .inf s, .inf t => s == t
  | _, _ => false

/-- `operator==` for `double`, Matrix.h:58-64. -/
def eqDbl (A B : Mat Dbl) : Out Bool :=
  if A.row ≠ B.row ∨ A.col ≠ B.col then .ok false
  else (List.range A.row).allM fun i => (List.range A.col).allM fun j => do
    let x ← A.get i j
    let y ← B.get i j
    .ok (dblEq x y)

end Matrix
