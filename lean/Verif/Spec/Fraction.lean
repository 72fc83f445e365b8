import Verif.Model.Fraction
import Mathlib.Algebra.Order.Field.Rat

/-! # Specification of fractions: the rational number denoted and the canonical form -/

namespace Fraction.Spec
open Cpp

/-- The rational number a fraction denotes. -/
def val (f : Frac) : ℚ := (f.num : ℚ) / (f.den : ℚ)

/-- Two `int`s, positive denominator, lowest terms. -/
structure Canonical (f : Frac) : Prop where
  num_int : IsInt f.num
  den_int : IsInt f.den
  den_pos : 0 < f.den
  coprime : Int.gcd f.num f.den = 1

/-- An `int` whose negation is an `int` too. -/
def Small (x : Int) : Prop := -INT_MAX ≤ x ∧ x ≤ INT_MAX

instance (x : Int) : Decidable (Small x) := inferInstanceAs (Decidable (_ ∧ _))

end Fraction.Spec
