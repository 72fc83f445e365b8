import Verif.Model.MatrixFrac
import Verif.Spec.MatrixDouble
import Verif.Spec.Fraction

/-! # Specification notions for matrices of fractions and of integers -/

namespace Matrix.Spec
open Cpp Fraction

/-- the fraction in lowest terms with the given value -/
def frac (q : ℚ) : Frac := ⟨q.num, q.den⟩

/-- numerator and denominator are smaller than 2^15, so that all products and sums of two products fit -/
def Short (q : ℚ) : Prop := q.num.natAbs < 32768 ∧ q.den < 32768

instance (q : ℚ) : Decidable (Short q) := inferInstanceAs (Decidable (_ ∧ _))

/-- the number `z`, if it and the operands are short -/
def ifShort (x y z : ℚ) : Out ℚ := if Short x ∧ Short y ∧ Short z then .ok z else .ub

/-- Exact arithmetic that stops when a number is not short, and at a quotient `x / y` for which the numerator or
denominator of `x` is no multiple of that of `y`. -/
def shortFractions : Arith ℚ where
  zero := 0
  one := 1
  add x y := ifShort x y (x + y)
  sub x y := ifShort x y (x - y)
  mul x y := ifShort x y (x * y)
  div x y := if y ≠ 0 ∧ y.num ∣ x.num ∧ y.den ∣ x.den then ifShort x y (x / y) else .ub

/-- Exact arithmetic of integers that stops at a number that is no `int` and at a quotient that is no integer. -/
def exactInts : Arith Int where
  zero := 0
  one := 1
  add x y := if IsInt (x + y) then .ok (x + y) else .ub
  sub x y := if IsInt (x - y) then .ok (x - y) else .ub
  mul x y := if IsInt (x * y) then .ok (x * y) else .ub
  div x y := if y ≠ 0 ∧ y ∣ x ∧ IsInt (x / y) then .ok (x / y) else .ub

end Matrix.Spec
