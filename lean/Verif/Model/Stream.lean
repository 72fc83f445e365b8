import Verif.Model.Json
import Verif.Model.Sequence

/-!
# Text input and output of Vector<int>, /repo/src/include/containers/Vector.h:389-430, and StringCast.h

The part of `std::istream` this code uses is not code of /repo; it is written down here following the C++11 standard (the
"C" locale, decimal integers, white space skipped).  `badbit` is never set for a stream over a string.
-/

open Cpp

namespace Stream

/-- An input stream over a text: what has been read (last character first), what is left, `eofbit` and `failbit`. -/
structure IStream where
  back : Str := []
  rest : Str
  eof : Bool := false
  fail : Bool := false

/-- the white space of the "C" locale -/
def isWs (c : Byte) : Bool := c = 32 ∨ 9 ≤ c ∧ c ≤ 13

/-- read `n` characters -/
def IStream.take (s : IStream) (n : Nat) : IStream :=
  { s with back := (s.rest.take n).reverse ++ s.back, rest := s.rest.drop n }

/-- `istream::sentry(is)`: nothing is read from a stream that is not good; otherwise white space is skipped. -/
def IStream.sentry (s : IStream) : Bool × IStream :=
  if s.eof || s.fail then (false, { s with fail := true }) else
  let s := s.take (s.rest.takeWhile isWs).length
  if s.rest = [] then (false, { s with eof := true, fail := true }) else (true, s)

/-- `is >> ch` for a `char`: the variable (`none` if indeterminate) keeps its value on failure. -/
def IStream.getChar (s : IStream) (ch : Option Byte) : Option Byte × IStream :=
  let (ok, s) := s.sentry
  if ok then
    match s.rest with
    | c :: _ => (some c, s.take 1)
    | [] => (ch, s)
  else (ch, s)

/-- `is >> value` for an `int`: the variable keeps its value if there is nothing to read; it becomes 0 if there is no number,
and the nearest `int` if the number is out of range. -/
def IStream.getInt (s : IStream) (value : Option Int) : Option Int × IStream :=
  let (ok, s) := s.sentry
  if ok then
    let sign := (s.rest.take 1).filter (fun c => c = byte '-' ∨ c = byte '+')
    let ds := (s.rest.drop sign.length).takeWhile Json.isDigit
    let s := s.take (sign.length + ds.length)
    let s := { s with eof := decide (s.rest = []) }
    if ds = [] then (some 0, { s with fail := true }) else
    let v : Int := if sign = [byte '-'] then -Json.natVal ds else Json.natVal ds
    if v > INT_MAX then (some INT_MAX, { s with fail := true })
    else if v < INT_MIN then (some INT_MIN, { s with fail := true })
    else (some v, s)
  else (value, s)

/-- `is.unget()` -/
def IStream.unget (s : IStream) : IStream :=
  let s := { s with eof := false }
  if s.fail then s else
  match s.back with
  | c :: b => { s with back := b, rest := c :: s.rest }
  | [] => { s with fail := true }

/-- the value of a variable; undefined behaviour if it is indeterminate -/
def use {α : Type} : Option α → Out α
  | some a => .ok a
  | none => .ub

/-- The loop of `operator>>`, Vector.h:414-428; `fuel` bounds the number of rounds (no run needs more than it is given,
theorem `C86_terminates_partial`). -/
def readLoop : Nat → IStream → Option Byte → List Int → Out (List Int × IStream)
  | 0, _, _, _ => .diverge
  | fuel + 1, is, ch, vec => do
    let (value, is) := is.getInt none
    let vec := vec ++ [← use value]
    let (ch, is) := is.getChar ch
    if is.eof then .exit else
    let c ← use ch
    if c = byte '}' then .ok (vec, is)
    else if c ≠ byte ',' then .exit
    else readLoop fuel is ch vec

/-- `operator>>` for `Vector<int>`, Vector.h:403-430: the new contents of the Vector and the stream afterwards. -/
def readVector (is : IStream) : Out (List Int × IStream) := do
  let (ch, is) := is.getChar none
  if (← use ch) ≠ byte '{' then .exit else
  let (ch, is) := is.getChar ch
  if (← use ch) ≠ byte '}' then
    let is := is.unget
    readLoop (is.rest.length + 2) is ch []
  else .ok ([], is)

/-- `std::copy(first, last, std::ostream_iterator<int>(ss, ", "))`, Vector.h:398-399. -/
def copyOut (vs : List Int) : Str := vs.flatMap fun v => Json.decInt v ++ bytes [',', ' ']

/-- `operator<<` for `Vector<int>`, Vector.h:389-401: the text written. -/
def printVector (vec : List Int) : Out Str := do
  if Cont.Vector.size vec = 0 then .ok (bytes ['{', '}'])
  else if Cont.Vector.size vec = 1 then .ok (bytes ['{'] ++ Json.decInt (← Cont.Vector.last vec) ++ bytes ['}'])
  else .ok (bytes ['{'] ++ copyOut vec.dropLast ++ Json.decInt (← Cont.Vector.last vec) ++ bytes ['}'])

/-- `stringCast<int>(from)` converted to `int`, StringCast.h:22-32. -/
def castInt (src : Str) : Out Int := use (IStream.getInt { rest := src } none).1

end Stream
