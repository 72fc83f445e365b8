import Verif.Model.MathFns

/-!
# Model of `class Fraction`, /repo/src/include/math_utils/Fraction.h
-/

namespace Fraction
open Cpp MathFns

/-- The data members, Fraction.h:128. -/
structure Frac where
  num : Int
  den : Int
  deriving DecidableEq, Repr

/-- `Fraction(numerator, denominator)`, Fraction.h:19-30. -/
def mk2 (n d : Int) : Out Frac := do
  if d = 0 then .exit else
  let g ← gcd n d
  let n ← quot n g
  let d ← quot d g
  let n ← (if d < 0 then int (n * -1) else .ok n)
  let d ← int (d.natAbs : Int)
  .ok ⟨n, d⟩

/-- `Fraction(integer)`, Fraction.h:16-17; also the implicit conversion. -/
def ofInt (n : Int) : Out Frac := mk2 n 1

/-- `Fraction()`, Fraction.h:14. -/
def default : Out Frac := ofInt 0

/-- `operator+`, Fraction.h:35-39. -/
def add (a b : Frac) : Out Frac := do
  let p ← int (a.num * b.den)
  let q ← int (a.den * b.num)
  let n ← int (p + q)
  let d ← int (a.den * b.den)
  mk2 n d

/-- `operator+=`, Fraction.h:45-50. -/
def addAssign (a b : Frac) : Out Frac := do
  let p ← int (a.num * b.den)
  let q ← int (a.den * b.num)
  let n ← int (p + q)
  let d ← int (a.den * b.den)
  let tmp ← mk2 n d
  .ok ⟨tmp.num, tmp.den⟩

/-- `operator-`, Fraction.h:52-56. -/
def sub (a b : Frac) : Out Frac := do
  let p ← int (a.num * b.den)
  let q ← int (a.den * b.num)
  let n ← int (p - q)
  let d ← int (a.den * b.den)
  mk2 n d

/-- `operator-=`, Fraction.h:62-67. -/
def subAssign (a b : Frac) : Out Frac := do
  let p ← int (a.num * b.den)
  let q ← int (a.den * b.num)
  let n ← int (p - q)
  let d ← int (a.den * b.den)
  let tmp ← mk2 n d
  .ok ⟨tmp.num, tmp.den⟩

/-- `operator*`, Fraction.h:69-72. -/
def mul (a b : Frac) : Out Frac := do
  let n ← int (a.num * b.num)
  let d ← int (a.den * b.den)
  mk2 n d

/-- `operator*=`, Fraction.h:78-82. -/
def mulAssign (a b : Frac) : Out Frac := do
  let n ← int (a.num * b.num)
  let d ← int (a.den * b.den)
  let tmp ← mk2 n d
  .ok ⟨tmp.num, tmp.den⟩

/-- `operator/`, Fraction.h:84-87. -/
def div (a b : Frac) : Out Frac := do
  let n ← int (a.num * b.den)
  let d ← int (a.den * b.num)
  mk2 n d

/-- `operator/=`, Fraction.h:93-97: an `int` quotient of the components. -/
def divAssign (a b : Frac) : Out Frac := do
  let n ← quot a.num b.num
  let d ← quot a.den b.den
  let tmp ← mk2 n d
  .ok ⟨tmp.num, tmp.den⟩

/-- `int + Fraction`, Fraction.h:41-43. -/
def intAdd (v : Int) (self : Frac) : Out Frac := do add self (← ofInt v)
/-- `int - Fraction`, Fraction.h:58-60: returns `self - value`. -/
def intSub (v : Int) (self : Frac) : Out Frac := do sub self (← ofInt v)
/-- `int * Fraction`, Fraction.h:74-76. -/
def intMul (v : Int) (self : Frac) : Out Frac := do mul self (← ofInt v)
/-- `int / Fraction`, Fraction.h:89-91: returns `self / value`. -/
def intDiv (v : Int) (self : Frac) : Out Frac := do div self (← ofInt v)

/-- `Fraction + int`: the member operator of Fraction.h:35-39 after the conversion of line 16-17. -/
def addInt (self : Frac) (v : Int) : Out Frac := do add self (← ofInt v)
/-- `Fraction - int`: Fraction.h:52-56 after the conversion of line 16-17. -/
def subInt (self : Frac) (v : Int) : Out Frac := do sub self (← ofInt v)
/-- `Fraction * int`: Fraction.h:69-72 after the conversion of line 16-17. -/
def mulInt (self : Frac) (v : Int) : Out Frac := do mul self (← ofInt v)
/-- `Fraction / int`: Fraction.h:84-87 after the conversion of line 16-17. -/
def divInt (self : Frac) (v : Int) : Out Frac := do div self (← ofInt v)

/-- `operator==`, Fraction.h:99-101. -/
def eq (a b : Frac) : Bool := a.num == b.num && a.den == b.den
/-- `operator!=`, Fraction.h:103-105. -/
def ne (a b : Frac) : Bool := a.num != b.num || a.den != b.den

/-- The two cross products evaluated by each order comparison, Fraction.h:107-121. -/
def cross (a b : Frac) : Out (Int × Int) := do
  let p ← int (a.num * b.den)
  let q ← int (a.den * b.num)
  .ok (p, q)

/-- `operator<`, Fraction.h:107-109. -/
def lt (a b : Frac) : Out Bool := do let (p, q) ← cross a b; .ok (decide (p < q))
/-- `operator<=`, Fraction.h:111-113. -/
def le (a b : Frac) : Out Bool := do let (p, q) ← cross a b; .ok (decide (p ≤ q))
/-- `operator>`, Fraction.h:115-117. -/
def gt (a b : Frac) : Out Bool := do let (p, q) ← cross a b; .ok (decide (p > q))
/-- `operator>=`, Fraction.h:119-121. -/
def ge (a b : Frac) : Out Bool := do let (p, q) ← cross a b; .ok (decide (p ≥ q))

end Fraction
