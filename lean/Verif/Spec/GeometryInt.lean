import Verif.Model.Geometry

/-! # Points with whole-number coordinates -/

namespace Geo.Spec
open Cpp Geo

/-- A point whose coordinates are whole numbers, in binary64. -/
def ofInt {N : Nat} (p : Fin N → Int) : Point N Dbl := fun i => .fin (p i)

/-- The same point over the reals. -/
def toReal {N : Nat} (p : Fin N → Int) : Fin N → ℝ := fun i => p i

end Geo.Spec
