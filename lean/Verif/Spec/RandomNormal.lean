import Verif.Spec.Random
import Verif.Model.RandomCont

/-! # What is assumed of the functions of `<cmath>`, and the polar method -/

namespace Rand.Spec
open Cpp

/-- `std::log` is right up to the relative error `2^-52` for the doubles between `2^-110` and 1. -/
def LogAcc (log : Dbl → Dbl) : Prop :=
  ∀ x : ℚ, IsDouble x → 2 ^ (-110 : Int) ≤ x → x ≤ 1 →
    ∃ y : ℚ, log (Dbl.fin x) = Dbl.fin y ∧ |(y : ℝ) - Real.log x| ≤ 2 ^ (-52 : Int) * |Real.log x|

/-- `std::pow(v, y)` is a number from 0 to 1 for `v` from `2^-53` to 1 and `y > 0`. -/
def PowUnit (pow : Dbl → Dbl → Dbl) : Prop :=
  ∀ v y : ℚ, 2 ^ (-53 : Int) ≤ v → v ≤ 1 → 0 < y → ∃ p : ℚ, pow (Dbl.fin v) (Dbl.fin y) = Dbl.fin p ∧ 0 ≤ p ∧ p ≤ 1

/-- The point of the square `[-1, 1]²` that belongs to the outputs number `2 i` and `2 i + 1`, in exact arithmetic: its first
coordinate ... -/
noncomputable def pointU (E : Engine) (s : E.σ) (i : Nat) : ℝ := 2 * unitAt E s (2 * i) - 1

/-- ... and its second. -/
noncomputable def pointV (E : Engine) (s : E.σ) (i : Nat) : ℝ := 2 * unitAt E s (2 * i + 1) - 1

/-- The point number `i` lies outside the unit disc, on its border or in its centre, up to rounding. -/
def OffDisc (E : Engine) (s : E.σ) (i : Nat) : Prop :=
  pointU E s i ^ 2 + pointV E s i ^ 2 ≤ 2 ^ (-100 : Int) ∨ 1 - 2 ^ (-48 : Int) ≤ pointU E s i ^ 2 + pointV E s i ^ 2

/-- The factor of the polar method for a point with the square `w` of its distance from the centre. -/
noncomputable def polarFactor (w : ℝ) : ℝ := Real.sqrt (-2 * Real.log w / w)

/-- `q` is `mean + stddev * z` up to rounding. -/
def NearlyNormal (mean stddev z : ℝ) (q : ℚ) : Prop :=
  |(q : ℝ) - (mean + stddev * z)| ≤ 2 ^ (-49 : Int) * (|mean| + stddev * |z|) + 2 ^ (-1073 : Int)

end Rand.Spec
