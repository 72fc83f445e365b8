import Verif.Model.Json

/-! # Hexadecimal digits -/

namespace Json.Spec
open Cpp

/-- The hexadecimal digits, of either case. -/
def hexDigits : Str := bytes ['0', '1', '2', '3', '4', '5', '6', '7', '8', '9', 'a', 'b', 'c', 'd', 'e', 'f', 'A', 'B', 'C', 'D', 'E', 'F']

end Json.Spec
