import Verif.Cpp

/-! # What the error messages of `loadJSON` say (property C179) -/

namespace Json.Message.Spec
open Cpp

/-- The ten complaints. -/
inductive Kind where
  | colon | comma | element | hex | noExponent | exponent | number | bool | null | start

/-- The words before the characters found. -/
def Kind.words : Kind → String
  | .colon => "Object: Expected colon, found '"
  | .comma => "Object: Expected comma, found '"
  | .element => "Array: Expected ',' or ']', found '"
  | .hex => "String: Expected hex character in unicode escape, found '"
  | .noExponent => "Number: Expected a number for exponent, nothing remaining."
  | .exponent => "Number: Expected a number for exponent, found '"
  | .number => "Number: unexpected character '"
  | .bool => "Bool: Expected 'true' or 'false', found '"
  | .null => "Null: Expected 'null', found '"
  | .start => "Parse: Unknown starting character '"

/-- The characters quoted: five or four for a literal (fewer at the end of the text), else the one at place `p`, where NUL
stands for the end of the text. -/
def Kind.found (k : Kind) (t : Str) (p : Nat) : Str :=
  match k with
  | .noExponent => []
  | .bool => (t.drop p).take 5
  | .null => (t.drop p).take 4
  | _ => ((t ++ [0]).drop p).take 1

/-- The message. -/
def Kind.message (k : Kind) (found : Str) : Str :=
  match k with
  | .noExponent => bytes k.words.toList
  | _ => bytes k.words.toList ++ found ++ bytes ['\'']

/-- a digit -/
def Digit (c : Byte) : Prop := 48 ≤ c ∧ c ≤ 57

/-- a character that may follow a number: white space, `,`, `]`, `}`, NUL -/
def Ends (c : Byte) : Prop := c = 32 ∨ (9 ≤ c ∧ c ≤ 13) ∨ c = byte ',' ∨ c = byte ']' ∨ c = byte '}' ∨ c = 0

/-- The characters which would have been right at that place. -/
def Kind.Right (k : Kind) (found : Str) : Prop :=
  match k with
  | .colon => found = bytes [':']
  | .comma => found = bytes [','] ∨ found = bytes ['}']
  | .element => found = bytes [','] ∨ found = bytes [']']
  | .hex => ∃ c, found = [c] ∧ (Digit c ∨ (97 ≤ c ∧ c ≤ 102) ∨ (65 ≤ c ∧ c ≤ 70))
  | .noExponent => False
  | .exponent => ∃ c, found = [c] ∧ (Digit c ∨ Ends c)
  | .number => ∃ c, found = [c] ∧ (Digit c ∨ Ends c ∨ c ∈ bytes ['-', '.', 'e', 'E'])
  | .bool => found.take 4 = bytes ['t', 'r', 'u', 'e'] ∨ found = bytes ['f', 'a', 'l', 's', 'e']
  | .null => found = bytes ['n', 'u', 'l', 'l']
  | .start => ∃ c, found = [c] ∧ (Digit c ∨ c ∈ bytes ['[', '{', '"', 't', 'f', 'n', '-'])

/-- How many characters from the place on decide: those quoted (one for the end of the text), and for the separators one
more, because the exponent of a number is given back one character too early. -/
def Kind.reach : Kind → Nat
  | .colon | .comma | .element => 2
  | .bool => 5
  | .null => 4
  | _ => 1

/-- `msg` is the complaint `k` about the place `p` of the text `t`: the place is in the text (for `noExponent` it is the end),
the characters quoted stand there, and they are not among the right ones. -/
def About (t : Str) (k : Kind) (p : Nat) (msg : Str) : Prop :=
  p ≤ t.length ∧ msg = k.message (k.found t p) ∧ ¬ k.Right (k.found t p) ∧ (k = .noExponent → p = t.length)

end Json.Message.Spec
