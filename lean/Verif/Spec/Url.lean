import Verif.Cpp

/-! # Percent-encoding (RFC 3986), independent of the model -/

namespace Url.Spec
open Cpp

/-- RFC 3986, 2.3: unreserved characters. -/
def Unreserved (c : Byte) : Prop :=
  (byte 'A' ≤ c ∧ c ≤ byte 'Z') ∨ (byte 'a' ≤ c ∧ c ≤ byte 'z') ∨ (byte '0' ≤ c ∧ c ≤ byte '9') ∨
  c = byte '-' ∨ c = byte '.' ∨ c = byte '_' ∨ c = byte '~'

instance (c : Byte) : Decidable (Unreserved c) := by unfold Unreserved; infer_instance

/-- An upper-case hexadecimal digit. -/
def UpperHex (c : Byte) : Prop :=
  (byte '0' ≤ c ∧ c ≤ byte '9') ∨ (byte 'A' ≤ c ∧ c ≤ byte 'F')

instance (c : Byte) : Decidable (UpperHex c) := by unfold UpperHex; infer_instance

/-- Texts made of unreserved characters and upper-case `%HH` triples. -/
inductive Safe : Str → Prop
  | nil : Safe []
  | plain (c : Byte) (t : Str) : Unreserved c → Safe t → Safe (c :: t)
  | escaped (h l : Byte) (t : Str) : UpperHex h → UpperHex l → Safe t →
      Safe (byte '%' :: h :: l :: t)

/-- Value of a hexadecimal digit of either case. -/
def hexVal (c : Byte) : Option Nat :=
  if byte '0' ≤ c ∧ c ≤ byte '9' then some (c.toNat - 48)
  else if byte 'A' ≤ c ∧ c ≤ byte 'F' then some (c.toNat - 55)
  else if byte 'a' ≤ c ∧ c ≤ byte 'f' then some (c.toNat - 87)
  else none

/-- `Decodes t s`: `t` is a well formed percent-encoded text (every `%` is followed by two
hexadecimal digits) of the bytes `s`, with `+` standing for a space. -/
inductive Decodes : Str → Str → Prop
  | nil : Decodes [] []
  | plus (t s : Str) : Decodes t s → Decodes (byte '+' :: t) (byte ' ' :: s)
  | plain (c : Byte) (t s : Str) : c ≠ byte '+' → c ≠ byte '%' → Decodes t s →
      Decodes (c :: t) (c :: s)
  | escaped (h l : Byte) (x y : Nat) (t s : Str) : hexVal h = some x → hexVal l = some y →
      Decodes t s → Decodes (byte '%' :: h :: l :: t) (UInt8.ofNat (16 * x + y) :: s)

/-- Reading from the left and taking three characters at each `%`, one arrives exactly at the end of the text. -/
inductive Whole : Str → Prop
  | nil : Whole []
  | single (c : Byte) (t : Str) : c ≠ byte '%' → Whole t → Whole (c :: t)
  | triple (h l : Byte) (t : Str) : Whole t → Whole (byte '%' :: h :: l :: t)

/-- Bytes whose `char` value is negative and not -1; they must not be passed to `isdigit`. -/
def NonAscii (c : Byte) : Prop := 128 ≤ c.toNat ∧ c.toNat ≠ 255

instance (c : Byte) : Decidable (NonAscii c) := by unfold NonAscii; infer_instance

/-- Reading the text from the left and skipping three characters at each `%`, one arrives at a `%`
that is the last character or that is followed by a non-ASCII character within its triple. -/
inductive Dangerous : Str → Prop
  | last : Dangerous [byte '%']
  | high (h : Byte) (t : Str) : NonAscii h → Dangerous (byte '%' :: h :: t)
  | low (h l : Byte) (t : Str) : NonAscii l → Dangerous (byte '%' :: h :: l :: t)
  | skip (c : Byte) (t : Str) : c ≠ byte '%' → Dangerous t → Dangerous (c :: t)
  | skipTriple (h l : Byte) (t : Str) : Dangerous t → Dangerous (byte '%' :: h :: l :: t)

end Url.Spec
