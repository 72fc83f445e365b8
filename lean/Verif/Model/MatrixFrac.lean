import Verif.Model.Matrix
import Verif.Model.Fraction

/-!
# The arithmetic of `Matrix<Fraction>`

`Matrix`, /repo/src/include/math_utils/Matrix.h, is modelled for any `ValueType` in `Model/Matrix.lean`.  Here are the
operations of `Fraction`, /repo/src/include/math_utils/Fraction.h, that the functions of the matrix call.
-/

namespace Matrix
open Cpp Fraction

/-- `operator+`, `operator-`, Matrix.h:92-98, 107-113: the cells come from `memset` to zero bytes (Matrix.h:24), which makes
both numerator and denominator 0, and from `operator+`, `operator-` of Fraction.h:35-39, 52-56.  Product and quotient are
not used. -/
def Arith.fracBinary : Arith Frac where
  zero := ⟨0, 0⟩
  one := ⟨1, 1⟩
  add := Fraction.add
  sub := Fraction.sub
  mul := Fraction.mul
  div := Fraction.div

/-- `operator*`, `operator*=`, `operator+=`, `operator-=`, Matrix.h:70-90, 100-105, 115-120: `memset` as above, and the
operations `*`, `+=`, `-=` of Fraction.h:69-72, 45-50, 62-67.  The quotient is not used. -/
def Arith.fracAssign : Arith Frac where
  zero := ⟨0, 0⟩
  one := ⟨1, 1⟩
  add := Fraction.addAssign
  sub := Fraction.subAssign
  mul := Fraction.mul
  div := Fraction.divAssign

/-- `reduce`, Matrix.h:153-181: here the constants `0`, `0.0` and `1.0` are converted by `Fraction(int)`, Fraction.h:16-17;
the operations are `/=`, `*`, `-=` of Fraction.h:93-97, 69-72, 62-67.  `!=` is Fraction.h:103-105, component by
component.  The sum is not used. -/
def Arith.fracReduce : Arith Frac where
  zero := ⟨0, 1⟩
  one := ⟨1, 1⟩
  add := Fraction.addAssign
  sub := Fraction.subAssign
  mul := Fraction.mul
  div := Fraction.divAssign

end Matrix
