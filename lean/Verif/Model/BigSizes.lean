import Verif.Model.Base64
import Verif.Model.EditDistance
import Verif.Model.Sequence

/-!
# Texts and containers of any size: the conversions of `size_t` to `int`

base64_functions.cpp:34, edit_distance.cpp:18-19, Stack.h:180 and Queue.h:201 store a `size_t` in an `int`.  The models of these
functions in `Base64.lean`, `EditDistance.lean` and `Sequence.lean` are for sizes below 2^31; here are the functions for all sizes.
(kmp.cpp:10, 29 and 31 and the `size()` of the containers are modelled with the conversion from the start.)
-/

open Cpp

namespace Base64

/-- `std::string::max_size()` of libstdc++. -/
def maxSize : Nat := 9223372036854775807

/-- `base64Encode(str, length)`, base64_functions.cpp:13-54, for all sizes: line 34 compares with the length as an `int`, line 37
computes `length - encodedStr.length()` modulo 2^64, and `std::string(n, '=')` throws `std::length_error` beyond `max_size()`
(`exit`: the library does not catch it). -/
def base64EncodeInt (str : Str) (length : Int) : Out Str :=
  if length < -1 then .ok [] else
  let encodedStr := encodeUnpadded str
  if length ≠ -1 then
    if length < toInt encodedStr.length then .ok [] else
    let n := ((length - encodedStr.length) % 18446744073709551616).toNat
    if n > maxSize then .exit
    else .ok (encodedStr ++ List.replicate n (byte '='))
  else
    match encodedStr.length % 4 with
    | 0 => .ok encodedStr
    | 2 => .ok (encodedStr ++ [byte '=', byte '='])
    | 3 => .ok (encodedStr ++ [byte '='])
    | _ => .ok encodedStr

end Base64

namespace EditDistance

/-- edit_distance.cpp:24-40 for `m` and `n` that are not negative. -/
def fillMatrix (str1 str2 : Str) (m n : Nat) : Out Int := do
  let M : Matrix := ⟨m + 1, n + 1, fun _ _ => none⟩
  let M ← (List.range (m + 1)).foldlM (fun M i => M.set i 0 i) M
  let M ← (List.range (n + 1)).foldlM (fun M i => M.set 0 i i) M
  let M ← (List.range' 1 m).foldlM (rowStep str1 str2 n) M
  M.get m n

/-- `editDistance(str1, str2)`, edit_distance.cpp:17-41, for all sizes.  `new T[k]` with a negative `k` throws
`std::bad_array_new_length` (`exit`); with `k = 0` (a length of -1 as an `int`) the first access `matrix[0][0]`, or `matrix[m][n]`, is
out of bounds. -/
def editDistanceInt (str1 str2 : Str) : Out Int := do
  let m := toInt str1.length
  let n := toInt str2.length
  if m = 0 ∨ n = 0 then int (m + n) else
  let rows ← int (m + 1)
  if rows < 0 then .exit else
  if rows = 0 then .ub else
  let cols ← int (n + 1)
  if cols < 0 then .exit else
  if cols = 0 then .ub else
  fillMatrix str1 str2 m.toNat n.toNat

end EditDistance

namespace Cont

/-- The loop `for (int i = 0; i != size; i++) pop`, Stack.h:181-183 and Queue.h:202-204. -/
def clearLoop (pop : List α → Out (List α)) (size : Int) : Nat → Int → List α → Out (List α)
  | 0, _, _ => .diverge
  | fuel + 1, i, s =>
    if i = size then .ok s else do
      let s ← pop s
      let i ← int (i + 1)
      clearLoop pop size fuel i s

/-- `Stack::clear()`, Stack.h:178-184, for all sizes. -/
def Stack.clearInt (fuel : Nat) (s : List α) : Out (List α) := clearLoop Stl.popBack (toInt s.length) fuel 0 s

/-- `Queue::clear()`, Queue.h:199-205, for all sizes. -/
def Queue.clearInt (fuel : Nat) (q : List α) : Out (List α) := clearLoop Stl.popFront (toInt q.length) fuel 0 q

/-- `Vector(n, value)`, Vector.h:223-226, for all `n`: a negative `n` is a huge `size_t`, and `resize` throws (`exit`). -/
def Vector.newInt (n : Int) (value : α) : Out (List α) := if n < 0 then .exit else .ok (List.replicate n.toNat value)

end Cont
