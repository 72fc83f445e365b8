import Verif.Model.GcdTypes
import Verif.Model.MathFns

/-!
# Model of `factorial`, `permutation` and `binomial` for every integer type,
/repo/src/include/math_utils/math_functions.h:459-515

`Model/MathFns.lean` has these functions for `int` and `int64_t`, where the arithmetic is undefined on overflow.  Here the template
argument is any of the eight integer types of `Model/GcdTypes.lean`; the loop counters of type `IntType` are modelled too.
-/

namespace FactTypes
open Cpp GcdTypes

/-- `x op= y`, `x++` and `x--` for variables of type `t`, where `v` is the mathematical value (math_functions.h:463, 479, 481
and 482): computed in the promoted type, converted back to `t`. -/
def store (t : ITy) (v : Int) : Out Int := do
  let s ← t.promote.op v
  .ok (t.conv s)

/-- `for (IntType i = 2; i <= n; i++) fac *= i;  return fac;` (math_functions.h:463-464) from the values `i` and `fac`; at most
`fuel` tests of the condition. -/
def facGo (t : ITy) (n : Int) : Nat → Int → Int → Out Int
  | 0, _, _ => .diverge
  | fuel + 1, i, fac =>
    if i ≤ n then do
      let fac ← store t (fac * i)
      let i ← store t (i + 1)
      facGo t n fuel i fac
    else .ok fac

/-- `factorial(n)` for `n` of type `t`, math_functions.h:459-465. -/
def factorial (t : ITy) (fuel : Nat) (n : Int) : Out Int := if n < 0 then .exit else facGo t n fuel 2 1

/-- `for (; r > 1; r--, n--) result *= n;  return result;`, math_functions.h:481-484; at most `fuel` tests of the condition. -/
def permGo (t : ITy) : Nat → Int → Int → Int → Out Int
  | 0, _, _, _ => .diverge
  | fuel + 1, result, n, r =>
    if 1 < r then do
      let result ← store t (result * n)
      let r ← store t (r - 1)
      let n ← store t (n - 1)
      permGo t fuel result n r
    else .ok result

/-- `permutation(n, r)` for arguments of type `t`, math_functions.h:476-485. -/
def permutation (t : ITy) (fuel : Nat) (n r : Int) : Out Int :=
  if n < 0 ∨ r < 0 ∨ n < r then .exit
  else do
    let n' ← store t (n - 1)
    permGo t fuel n n' r

/-- `binomial(n, r)` for arguments of type `t`, math_functions.h:497-515: the loops of `MathFns.binomial` with the arithmetic of
`t`.  Only the four types with 32 or 64 bits: for a smaller type `n - r` is an `int`, so the call `binomial(n, n - r)` of line 501
has no common `IntType` and the function does not compile. -/
def binomial (t : ITy) (n r : Int) : Out Int := MathFns.binomial t.op n r

end FactTypes
