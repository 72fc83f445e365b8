import Verif.Spec.Random

/-! # What is assumed of `std::exp` and `std::pow` on `double` -/

namespace Rand.Spec
open Cpp

/-- `std::exp` of a number from -690 to 0 is off by at most one unit in the last place. -/
def ExpOk (exp : Dbl → Dbl) : Prop :=
  ∀ x : ℚ, IsDouble x → -690 ≤ x → x ≤ 0 → ∃ y : ℚ, exp (Dbl.fin x) = Dbl.fin y ∧ IsDouble y ∧
    |(y : ℝ) - Real.exp x| ≤ 1 / 2 ^ 52 * Real.exp x

/-- `std::pow` of a number from 0 to 1 and an exponent from 0 to 33 is off by at most one unit in the
last place. -/
def PowOk (pow : Dbl → Nat → Dbl) : Prop :=
  ∀ x : ℚ, IsDouble x → 0 ≤ x → x ≤ 1 → ∀ i ≤ 33, ∃ y : ℚ, pow (Dbl.fin x) i = Dbl.fin y ∧ 0 ≤ y ∧
    |(y : ℝ) - x ^ i| ≤ 1 / 2 ^ 52 * x ^ i + 1 / 2 ^ 1074

end Rand.Spec
