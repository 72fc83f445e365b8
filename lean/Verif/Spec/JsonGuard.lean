import Verif.Spec.Json

/-! # JSON texts from outside -/

namespace Json.Spec
open Cpp

/-- a character of a number before its exponent -/
def NumChar (c : Byte) : Prop := c = byte '-' ∨ c = byte '.' ∨ (48 ≤ c ∧ c ≤ 57)

instance (c : Byte) : Decidable (NumChar c) := inferInstanceAs (Decidable (_ ∨ _))

/-- A space and two quotes. -/
def guard : Str := bytes [' ', '"', '"']

end Json.Spec
