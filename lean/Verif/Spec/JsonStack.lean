import Verif.Spec.Json

/-! # Spec: brackets in a JSON text -/

namespace Json.Spec
open Cpp

/-- The number of opening brackets in a text, those in strings included. -/
def opens (s : Str) : Nat := s.countP fun c => decide (c = byte '[' ∨ c = byte '{')

/-- The text of `n` arrays, one in another: `[[[…]]]`. -/
def nestText (n : Nat) : Str := List.replicate n (byte '[') ++ List.replicate n (byte ']')

/-- The value of `[[[…]]]` with `n + 1` brackets on each side. -/
def nest : Nat → Value
  | 0 => .arr []
  | n + 1 => .arr [nest n]

end Json.Spec
