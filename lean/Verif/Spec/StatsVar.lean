import Verif.Spec.Stats

/-! # Specification: how close a computed variance is to the exact one -/

namespace Stats.Spec

/-- how far the computed mean of `double`s may be off -/
def meanError (xs : List ℚ) : ℚ := (xs.length + 1) / 2 ^ 52 * mean (xs.map abs) + 2 ^ (-1075 : Int)

/-- `a` differs from the exact value `v`, which belongs to `n` numbers, by at most a relative error of (n+6)/2^52,
`c` times the square of the error `e` of the mean, and a tiny number -/
def Within (n : Nat) (c e a v : ℚ) : Prop := |a - v| ≤ (n + 6) / 2 ^ 52 * v + c * e ^ 2 + 2 ^ (-1071 : Int)

end Stats.Spec
