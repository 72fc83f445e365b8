import Verif.Spec.FractionProg

/-! # What a program with fractions computes if the operands of `n - y` and `n / y` are swapped -/

namespace Fraction.Spec
open Cpp

/-- the value a statement gives to its variable if `n - y` means `y - n` and `n / y` means `y / n` -/
def swappedValue (st : Nat → ℚ) : Stmt → Option ℚ
  | .left .sub _ n y => some (st y - n)
  | .left .div _ n y => if n = 0 then none else some (st y / n)
  | s => value st s

/-- the program with these values; `none` if it divides by 0 -/
def swappedRun : Prog → (Nat → ℚ) → Option (Nat → ℚ)
  | .done, st => some st
  | .step s p, st => (swappedValue st s).bind fun v => swappedRun p (Function.update st s.target v)
  | .branch c x y yes no, st => if holds c (st x) (st y) then swappedRun yes st else swappedRun no st

/-- A statement that is not `x /= y`. -/
def NoDivAssign : Stmt → Prop
  | .assign o _ _ => o ≠ .div
  | _ => True

end Fraction.Spec
