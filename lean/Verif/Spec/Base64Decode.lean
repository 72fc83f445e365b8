import Verif.Spec.Base64

/-! # RFC 4648 base64 decoding, by groups of four characters (independent of the model) -/

namespace Base64.Spec
open Cpp

/-- The text `t`, padding characters apart, consists of the base64 characters with the values `v`. -/
def Reads (t : Str) (v : List Nat) : Prop := (∀ n ∈ v, n < 64) ∧ t.filter (· ≠ byte '=') = v.map letter

/-- RFC 4648, section 4, backwards: the bytes of a sequence of values.  Bits left over in the last character are dropped. -/
def decode : List Nat → Str
  | a :: b :: c :: d :: v =>
    UInt8.ofNat (4 * a + b / 16) :: UInt8.ofNat (16 * (b % 16) + c / 4) :: UInt8.ofNat (64 * (c % 4) + d) :: decode v
  | [a, b, c] => [UInt8.ofNat (4 * a + b / 16), UInt8.ofNat (16 * (b % 16) + c / 4)]
  | [a, b] => [UInt8.ofNat (4 * a + b / 16)]
  | _ => []

/-- The bits left over, as the high bits of a byte.  Encoders leave 0 there; a single last character encodes no byte. -/
def leftOver : List Nat → Nat
  | _ :: _ :: _ :: _ :: v => leftOver v
  | [_, _, c] => 64 * (c % 4)
  | [_, b] => 16 * (b % 16)
  | [a] => 4 * a
  | [] => 0

/-- The value under which a character is decoded: its place in the alphabet, and 63 (that of `/`) for a character outside. -/
def sextet (c : Byte) : Nat := ((List.range 64).find? fun n => letter n = c).getD 63

end Base64.Spec
