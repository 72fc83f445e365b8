import Verif.Spec.JsonLoose

/-!
# Values that JSON can write with the seven short escapes

RFC 8259 section 7: the characters below 32 may not stand in a string; only five of them have an escape of two characters.
-/

namespace Json.Spec
open Cpp

/-- no character below 32 but backspace, tab, line feed, form feed and carriage return -/
def Writable (s : Str) : Prop := ∀ c ∈ s, 32 ≤ c ∨ c = 8 ∨ c = 9 ∨ c = 10 ∨ c = 12 ∨ c = 13

instance (s : Str) : Decidable (Writable s) := inferInstanceAs (Decidable (∀ c ∈ s, _))

/-- All strings are writable, all keys are the inside of a string of the RFC. -/
inductive Clean : Value → Prop
  | null : Clean .null
  | bool (b : Bool) : Clean (.bool b)
  | int (i : Int) : Clean (.int i)
  | float (q : ℚ) : Clean (.float q)
  | str (s : Str) (h : Writable s) : Clean (.str s)
  | arr (l : List Value) (h : ∀ v ∈ l, Clean v) : Clean (.arr l)
  | obj (m : List (Str × Value)) (hk : ∀ p ∈ m, RBody p.1) (h : ∀ p ∈ m, Clean p.2) : Clean (.obj m)

end Json.Spec
