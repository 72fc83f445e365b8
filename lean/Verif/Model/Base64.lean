import Verif.Cpp

/-! # Model of /repo/src/base64/base64_functions.cpp -/

namespace Base64
open Cpp

/-- `codes`, base64_functions.cpp:9-10, without the terminating NUL. -/
def codes : Str := bytes
  ['A','B','C','D','E','F','G','H','I','J','K','L','M','N','O','P','Q','R','S','T','U','V','W',
   'X','Y','Z','a','b','c','d','e','f','g','h','i','j','k','l','m','n','o','p','q','r','s','t',
   'u','v','w','x','y','z','0','1','2','3','4','5','6','7','8','9','+','/','=']

/-- `std::bitset<n>(v).to_string()` (base64_functions.cpp:20 and :61): the `n` low bits of `v`,
most significant first.  A character `'1'` is represented by `true`. -/
def bitString (n v : Nat) : List Bool := (List.range n).map fun i => v.testBit (n - 1 - i)

/-- `std::bitset<n>(s).to_ulong()` for a string `s` of `n` bits (base64_functions.cpp:28, :69). -/
def bitValue (s : List Bool) : Nat := s.foldl (fun a b => 2 * a + b.toNat) 0

/-- Lines 22-24 and 64-66: append `'0'`s up to a multiple of `k` bits. -/
def padBits (k : Nat) (s : List Bool) : List Bool :=
  if s.length % k ≠ 0 then s ++ List.replicate (k - s.length % k) false else s

/-- The loops `for (i = 0; i < size; i += k) … substr(i, k)` of lines 26-31 and 67-73: the
consecutive pieces of `k` bits. -/
def pieces (k : Nat) (s : List Bool) : List (List Bool) :=
  if _h : s = [] ∨ k = 0 then [] else s.take k :: pieces k (s.drop k)
termination_by s.length
decreasing_by
  have : s.length ≠ 0 := by intro h'; exact _h (Or.inl (List.length_eq_zero_iff.mp h'))
  have : k ≠ 0 := fun h' => _h (Or.inr h')
  simp only [List.length_drop]; omega

/-- `codes[index]`, line 30.  `index < 64`, so the read is in bounds. -/
def code (index : Nat) : Byte := codes.getD index 0

/-- `encodedStr` after line 32: the text without padding.  `(uint64_t)c` sign-extends, but
`bitset<8>` keeps only the low eight bits. -/
def encodeUnpadded (str : Str) : Str :=
  let binaryStr := padBits 6 (str.flatMap fun c => bitString 8 c.toNat)
  (pieces 6 binaryStr).map fun p => code (bitValue p)

/-- `base64Encode(str, length)`, base64_functions.cpp:13-54.  Simplification: the encoded
length is assumed to fit an `int` (line 34 casts it), so it is compared as an integer
(for all sizes: `Model/BigSizes.lean`). -/
def base64Encode (str : Str) (length : Int := -1) : Str :=
  if length < -1 then [] else
  let encodedStr := encodeUnpadded str
  if length ≠ -1 then
    if length < (encodedStr.length : Int) then [] else
    encodedStr ++ List.replicate (length.toNat - encodedStr.length) (byte '=')
  else
    match encodedStr.length % 4 with
    | 0 => encodedStr
    | 2 => encodedStr ++ [byte '=', byte '=']
    | 3 => encodedStr ++ [byte '=']
    | _ => encodedStr

/-- `std::bitset<6>(std::string{codes}.find(c))`, line 61: `find` returns the first index or
`npos = 2^64 - 1`, of which the six low bits are all ones. -/
def decodeBits (c : Byte) : List Bool :=
  bitString 6 (match codes.findIdx? (· == c) with
    | some i => i
    | none => 2 ^ 64 - 1)

/-- `base64Decode(decodeStr)`, base64_functions.cpp:56-75.  `char(index)` is the byte `index`. -/
def base64Decode (decodeStr : Str) : Str :=
  let binaryDecodeStr := padBits 8
    (decodeStr.flatMap fun c => if c ≠ byte '=' then decodeBits c else [])
  ((pieces 8 binaryDecodeStr).filter fun p => bitValue p ≠ 0).map fun p => UInt8.ofNat (bitValue p)

end Base64
