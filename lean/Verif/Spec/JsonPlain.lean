import Verif.Spec.JsonGuard

/-! # JSON texts from outside, with arbitrary bytes in strings -/

namespace Json.Spec
open Cpp

/-- Where one stands when a text is read from its beginning: outside strings, in a string, in a string behind a
backslash. -/
inductive Place where
  | outside
  | inside
  | escaped
  deriving DecidableEq

/-- A quote begins and ends strings; a backslash in a string protects the character behind it. -/
def Place.next : Place → Byte → Place
  | .outside, c => if c = byte '"' then .inside else .outside
  | .inside, c => if c = byte '"' then .outside else if c = byte '\\' then .escaped else .inside
  | .escaped, _ => .inside

/-- where one stands behind the text -/
def place (t : Str) : Place := t.foldl Place.next .outside

/-- Outside strings there are only bytes below 128. -/
def Plain (t : Str) : Prop := ∀ a c b, t = a ++ c :: b → place a = .outside → c.toNat < 128

/-- Digits `d` behind the sign `s` (or another character) which give an exponent of type `int`. -/
def IntExponent (s : Byte) (d : Str) : Prop :=
  (s = byte '-' ∧ nat d ≤ 2147483648) ∨ (d ≠ [] ∧ nat d ≤ 2147483647)

/-- a character which may stand behind a number -/
def EndChar (c : Byte) : Prop := c = 32 ∨ (9 ≤ c ∧ c ≤ 13) ∨ c = byte ',' ∨ c = byte ']' ∨ c = byte '}' ∨ c = 0

instance (c : Byte) : Decidable (EndChar c) := inferInstanceAs (Decidable (_ ∨ _))

/-- Wherever, outside strings, a digit, minus or point is directly followed by `e` or `E`, there is the end of the text or
a character other than the quote; then come digits (perhaps none); and either these give an `int`, or a character follows
which may not stand behind a number. -/
def SoundExponents (t : Str) : Prop :=
  ∀ a x e b, t = a ++ x :: e :: b → place a = .outside → NumChar x → (e = byte 'e' ∨ e = byte 'E') →
    b = [] ∨ ∃ s d r, b = s :: (d ++ r) ∧ s ≠ byte '"' ∧ (∀ c ∈ d, 48 ≤ c ∧ c ≤ 57) ∧
      (∀ c ∈ r.head?, ¬ (48 ≤ c ∧ c ≤ 57)) ∧ (IntExponent s d ∨ ∃ c ∈ r.head?, ¬ EndChar c)

end Json.Spec
