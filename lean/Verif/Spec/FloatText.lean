import Verif.Spec.DoubleText
import Verif.Spec.JsonConv

/-! # Spec: the nearest `float` -/

namespace Stream.Spec

/-- `q` is a finite `float`, and none is nearer to `x`. -/
def NearestFloat (x q : ℚ) : Prop := Json.Spec.IsFloat q ∧ ∀ r, Json.Spec.IsFloat r → |q - x| ≤ |r - x|

end Stream.Spec
