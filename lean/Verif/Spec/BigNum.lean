import Verif.Model.BigNum

/-! # Specification of big numbers: the integer denoted, well-formedness, decimal text -/

namespace BigNum.Spec
open Cpp

/-- Digit `i` of a number. -/
def digit (b : Big) (i : Nat) : Int := (b.elem.cell i).getD 0

/-- `d₀ + 10 d₁ + ... + 10^(n-1) dₙ₋₁` -/
def horner (d : Nat → Int) : Nat → Int
  | 0 => 0
  | n + 1 => horner d n + d n * 10 ^ n

/-- The integer a number denotes. -/
def val (b : Big) : Int := b.sign * horner (digit b) b.len

/-- Well-formed as far as the first `len` cells are concerned: decimal digits without leading zeros. -/
structure Valid (N : Nat) (b : Big) : Prop where
  size : b.elem.size = N
  len : b.len ≤ N
  sign : b.sign = 1 ∨ b.sign = -1
  digits : ∀ i, i < b.len → b.elem.cell i = some (digit b i) ∧ 0 ≤ digit b i ∧ digit b i ≤ 9
  top : 0 < b.len → digit b (b.len - 1) ≠ 0

/-- In addition all cells beyond `len` are 0. -/
structure Clean (N : Nat) (b : Big) : Prop extends Valid N b where
  pad : ∀ i, b.len ≤ i → i < N → b.elem.cell i = some 0

/-- Zero carries the positive sign. -/
def PosZero (b : Big) : Prop := b.len = 0 → b.sign = 1

/-- Decimal digits of a natural number, most significant first; none for 0. -/
def decimalDigits (n : Nat) : Str :=
  if n = 0 then [] else decimalDigits (n / 10) ++ [UInt8.ofNat (48 + n % 10)]

/-- Canonical decimal text of an integer. -/
def decimal (x : Int) : Str :=
  if x = 0 then [byte '0']
  else if x < 0 then byte '-' :: decimalDigits x.natAbs else decimalDigits x.natAbs

/-- A decimal digit character. -/
def IsDigit (c : Byte) : Prop := byte '0' ≤ c ∧ c ≤ byte '9'

end BigNum.Spec
