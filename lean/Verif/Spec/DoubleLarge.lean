import Verif.Spec.DoubleText

/-! # Spec: vectors of numbers with a number out of range or missing -/

namespace Stream.Spec
open Cpp

/-- a number out of the range of `double`, its absolute value being 10^309 or more, between white space -/
def RItem.Large (x : RItem) : Prop := Ws x.pre ∧ x.lit.Ok ∧ Ws x.post ∧ 10 ^ 309 ≤ |x.lit.value|

/-- The text ends, or begins with a character that is no white space and begins no number. -/
def NoNumber (t : Str) : Prop :=
  ∀ c ∈ t.head?, ¬ Ws [c] ∧ ¬ (48 ≤ c ∧ c ≤ 57) ∧ c ≠ byte '+' ∧ c ≠ byte '-' ∧ c ≠ byte '.'

instance (t : Str) : Decidable (NoNumber t) := inferInstanceAs (Decidable (∀ c ∈ t.head?, _))

end Stream.Spec
