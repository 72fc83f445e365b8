import Verif.Model.Fraction
import Verif.Model.Json

/-! # Model of the output of fractions, /repo/src/include/math_utils/Fraction.h -/

namespace Fraction
open Cpp

/-- `operator<<`, Fraction.h:123-125: the text written to a stream in its initial state. -/
def text (f : Frac) : Str := Json.decInt f.num ++ bytes ['/'] ++ Json.decInt f.den

end Fraction
