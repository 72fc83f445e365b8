import Verif.Cpp

/-! # Model of /repo/src/network/network_functions.cpp -/

namespace Url
open Cpp

/-- `hexToInt(x)`, network_functions.cpp:10-21.  `isdigit` is undefined for arguments that are
neither `EOF` (-1) nor representable as `unsigned char`. -/
def hexToInt (x : Byte) : Out Int :=
  let v := charVal x
  if 65 ≤ v ∧ v ≤ 90 then .ok (v - 65 + 10)
  else if 97 ≤ v ∧ v ≤ 122 then .ok (v - 97 + 10)
  else if v < -1 then .ub
  else if 48 ≤ v ∧ v ≤ 57 then .ok (v - 48)
  else .ok 0

/-- The condition of network_functions.cpp:30-31 (`isalnum` in the "C" locale). -/
def isPlain (c : Byte) : Bool :=
  let v := charVal c
  decide (0 ≤ v) && (decide (48 ≤ v ∧ v ≤ 57) || decide (65 ≤ v ∧ v ≤ 90) || decide (97 ≤ v ∧ v ≤ 122)
    || c == byte '-' || c == byte '_' || c == byte '.' || c == byte '~')

/-- A digit as printed by `std::hex` with `std::uppercase`. -/
def hexDigit (n : Nat) : Byte := if n < 10 then UInt8.ofNat (48 + n) else UInt8.ofNat (55 + n)

/-- `'%' << std::setw(2) << int((unsigned char)c)` with fill `'0'`, lines 37-38. -/
def escape (c : Byte) : Str := [byte '%', hexDigit (c.toNat / 16), hexDigit (c.toNat % 16)]

/-- `urlEncode(string)`, network_functions.cpp:24-43. -/
def urlEncode (string : Str) : Str :=
  string.flatMap fun c => if isPlain c then [c] else escape c

/-- `str[i]` on a `const std::string`: the terminating NUL at `i = length`, undefined beyond. -/
def charAt (str : Str) (i : Nat) : Out Byte :=
  if h : i < str.length then .ok str[i] else if i = str.length then .ok 0 else .ub

/-- The loop of `urlDecode` from index `i` on, network_functions.cpp:51-62. -/
def decodeFrom (str : Str) (i : Nat) : Out Str :=
  if h : i < str.length then
    if str[i] = byte '+' then do
      let rest ← decodeFrom str (i + 1)
      .ok (byte ' ' :: rest)
    else if str[i] = byte '%' then do
      let h ← charAt str (i + 1)
      let high ← hexToInt h
      let l ← charAt str (i + 2)
      let low ← hexToInt l
      let rest ← decodeFrom str (i + 3)
      .ok (UInt8.ofInt (high * 16 + low) :: rest)
    else do
      let rest ← decodeFrom str (i + 1)
      .ok (str[i] :: rest)
  else .ok []
termination_by str.length - i

/-- `urlDecode(str)`, network_functions.cpp:45-64.  `(unsigned char)(high * 16 + low)` is reduction
modulo 256. -/
def urlDecode (str : Str) : Out Str := decodeFrom str 0

end Url
