import Verif.Cpp

/-! # RFC 4648 base64, by groups of three bytes (independent of the model) -/

namespace Base64.Spec
open Cpp

/-- The RFC 4648 alphabet (table 1): the character for the value `n < 64`. -/
def letter (n : Nat) : Byte :=
  if n < 26 then UInt8.ofNat ('A'.toNat + n)
  else if n < 52 then UInt8.ofNat ('a'.toNat + (n - 26))
  else if n < 62 then UInt8.ofNat ('0'.toNat + (n - 52))
  else if n = 62 then byte '+'
  else byte '/'

/-- RFC 4648 section 4: the base64 text of a sequence of bytes. -/
def rfc4648 : Str → Str
  | [] => []
  | [a] => [letter (a.toNat / 4), letter (a.toNat % 4 * 16), byte '=', byte '=']
  | [a, b] => [letter (a.toNat / 4), letter (a.toNat % 4 * 16 + b.toNat / 16),
               letter (b.toNat % 16 * 4), byte '=']
  | a :: b :: c :: rest =>
      letter (a.toNat / 4) :: letter (a.toNat % 4 * 16 + b.toNat / 16)
        :: letter (b.toNat % 16 * 4 + c.toNat / 64) :: letter (c.toNat % 64) :: rfc4648 rest

/-- The RFC 4648 text without its padding. -/
def rfc4648Unpadded (s : Str) : Str := (rfc4648 s).filter (· ≠ byte '=')

/-- The characters of base64 text: letters, digits, `+`, `/` and the padding `=`. -/
def IsBase64Char (c : Byte) : Prop :=
  (byte 'A' ≤ c ∧ c ≤ byte 'Z') ∨ (byte 'a' ≤ c ∧ c ≤ byte 'z') ∨ (byte '0' ≤ c ∧ c ≤ byte '9') ∨
    c = byte '+' ∨ c = byte '/' ∨ c = byte '='

instance (c : Byte) : Decidable (IsBase64Char c) := by unfold IsBase64Char; infer_instance

end Base64.Spec
