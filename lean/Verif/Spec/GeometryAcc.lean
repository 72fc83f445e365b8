import Verif.Spec.Random

/-! # Numbers of moderate size -/

namespace Geo.Spec

/-- A binary64 number which is 0 or lies between `2^-400` and `2^400` in absolute value. -/
def Moderate (x : ℚ) : Prop := Rand.Spec.IsDouble x ∧ (x = 0 ∨ 1 / 2 ^ 400 ≤ |x| ∧ |x| ≤ 2 ^ 400)

/-- A point with the given numbers as coordinates. -/
def dbl {N : Nat} (p : Fin N → ℚ) : Fin N → Cpp.Dbl := fun i => .fin (p i)

/-- A vector of rational numbers as a vector of real numbers. -/
def real {N : Nat} (p : Fin N → ℚ) : Fin N → ℝ := fun i => (p i : ℝ)

/-- The Euclidean length of a vector. -/
noncomputable def vlen {N : Nat} (p : Fin N → ℝ) : ℝ := Real.sqrt (∑ i, p i ^ 2)

end Geo.Spec
