import Verif.Model.Geometry

/-! # The constructors of `Circle`, /repo/src/include/geometry/Circle.h -/

namespace Geo

variable {D : Type} [Add D] [Sub D] [Mul D] [Div D] [IntCast D]

/-- `Circle()`, Circle.h:13. -/
def Circle.unit : Circle D := ⟨mk2 ((0 : Int) : D) ((0 : Int) : D), ((1 : Int) : D)⟩

/-- `Circle(O)`, Circle.h:15. -/
def Circle.ofO (O : Point 2 D) : Circle D := ⟨O, ((1 : Int) : D)⟩

/-- `Circle(O, r)`, Circle.h:16. -/
def Circle.ofOR (O : Point 2 D) (r : D) : Circle D := ⟨O, r⟩

end Geo
