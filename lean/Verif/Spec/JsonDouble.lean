import Verif.Spec.Json
import Verif.Spec.Random

/-! # What reading and writing a `double` is expected to do -/

namespace Json.Spec
open Cpp Rand.Spec

/-- No `double` is closer to the number `x` than the `double` `q`. -/
def Nearest (x q : ℚ) : Prop := IsDouble q ∧ ∀ g, IsDouble g → |q - x| ≤ |g - x|

/-- The sign bit of the number `q`; zero has either. -/
def SignBit (neg : Bool) (q : ℚ) : Prop := if neg then q ≤ 0 else 0 ≤ q

instance (neg : Bool) (q : ℚ) : Decidable (SignBit neg q) := inferInstanceAs (Decidable (if neg then _ else _))

/-- The number before the exponent. -/
def Number.mantissa (n : Number) : ℚ := ({ n with exp := none } : Number).value

end Json.Spec
