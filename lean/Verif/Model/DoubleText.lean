import Verif.Model.Stream
import Verif.Model.JsonDouble
import Verif.Model.Geometry

/-!
# Doubles in texts: `stringCast<double>` (/repo/src/include/string_utils/StringCast.h:22-32), `>>` and `<<` of `Vector<double>`
(/repo/src/include/containers/Vector.h:389-430) and `<<` of points (/repo/src/include/geometry/Point.h:135-139)

The operators `>>` and `<<` of the standard library for `double` are not code of /repo; they are written down here following the
C++11 standard and libstdc++ ("C" locale, no flags set, precision 6): `>>` collects the characters of a number and converts them
with `strtod`, which rounds correctly; `<<` is `printf` with `%g`, which rounds the exact value to six significant digits, ties to
even.  The sign of zero is kept (`F64`).
-/

open Cpp

namespace Stream

/-- is it one of `+` and `-`? -/
def isSign (c : Byte) : Bool := c = byte '-' ∨ c = byte '+'

/-- the first character, if it has the property `p` -/
def one (p : Byte → Bool) (s : Str) : Str := (s.take 1).filter p

/-- The characters of a number. -/
structure Chars where
  sign : Str
  int : Str
  point : Str
  frac : Str
  e : Str
  esign : Str
  exp : Str

/-- all of them -/
def Chars.all (c : Chars) : Str := c.sign ++ c.int ++ c.point ++ c.frac ++ c.e ++ c.esign ++ c.exp

/-- What `num_get` collects: a sign, digits, a point, digits and, if there was any digit, `e` or `E`, a sign and digits; each part
may be missing. -/
def collect (s : Str) : Chars :=
  let sign := one isSign s
  let s := s.drop sign.length
  let int := s.takeWhile Json.isDigit
  let s := s.drop int.length
  let point := one (fun c => c = byte '.') s
  let s := s.drop point.length
  let frac := if point = [] then [] else s.takeWhile Json.isDigit
  let s := s.drop frac.length
  let e := if int = [] ∧ frac = [] then [] else one (fun c => c = byte 'e' ∨ c = byte 'E') s
  let s := s.drop e.length
  let esign := if e = [] then [] else one isSign s
  let s := s.drop esign.length
  let exp := if e = [] then [] else s.takeWhile Json.isDigit
  ⟨sign, int, point, frac, e, esign, exp⟩

/-- Does `strtod` accept all of the characters? -/
def Chars.valid (c : Chars) : Bool := decide ((c.int ≠ [] ∨ c.frac ≠ []) ∧ (c.e = [] ∨ c.exp ≠ []))

/-- the number without its sign -/
def Chars.value (c : Chars) : ℚ :=
  (Json.natVal c.int + Json.natVal c.frac / 10 ^ c.frac.length) *
    10 ^ (if c.esign = [byte '-'] then -(Json.natVal c.exp : Int) else Json.natVal c.exp)

/-- `is >> value` for a `double`: the variable keeps its value if there is nothing to read; it becomes 0 if there is no number,
otherwise the nearest `double`; beyond the range it becomes the greatest one, and `failbit` is set. -/
def IStream.getDouble (s : IStream) (value : Option Json.F64) : Option Json.F64 × IStream :=
  let (ok, s) := s.sentry
  if ok then
    let c := collect s.rest
    let s := s.take c.all.length
    let s := { s with eof := decide (s.rest = []) }
    if c.valid then
      let neg := decide (c.sign = [byte '-'])
      match Dbl.round c.value with
      | .fin r => (some ⟨neg, .fin (if neg then -r else r)⟩, s)
      | _ => (some ⟨neg, .fin (if neg then -Json.DBL_MAX else Json.DBL_MAX)⟩, { s with fail := true })
    else (some ⟨false, .fin 0⟩, { s with fail := true })
  else (value, s)

/-- `stringCast<double>(src)`, StringCast.h:22-32 -/
def castDouble (src : Str) : Out Json.F64 := use (IStream.getDouble { rest := src } none).1

/-! ### Writing -/

/-- `k` decimal digits of `n` -/
def digitsN (k n : Nat) : Str := (List.range k).map fun i => 48 + UInt8.ofNat (n / 10 ^ (k - 1 - i) % 10)

/-- without the zeros at the end -/
def dropZeros (s : Str) : Str := (s.reverse.dropWhile (fun c => c = byte '0')).reverse

/-- `a > 0` rounded to six significant digits: `n · 10^(e - 5)` with `10^5 ≤ n < 10^6` -/
def six (a : ℚ) : Nat × Int :=
  let e := Int.log 10 a
  let n := (Json.roundEven (a / 10 ^ (e - 5))).toNat
  if n = 1000000 then (100000, e + 1) else (n, e)

/-- the digits behind the point, with the point, if there are any left -/
def fraction (ds : Str) : Str := if dropZeros ds = [] then [] else byte '.' :: dropZeros ds

/-- the exponent of `%e` and `%g`: at least two digits -/
def exponent (e : Int) : Str :=
  byte 'e' :: (if e < 0 then byte '-' else byte '+') :: (if e.natAbs < 10 then byte '0' :: Json.decNat e.natAbs else Json.decNat e.natAbs)

/-- `os << d` for a `double`: `printf` with `%g`. -/
def putDouble (d : Json.F64) : Str :=
  (if d.neg then [byte '-'] else []) ++
    match d.val with
    | .nan => bytes ['n', 'a', 'n']
    | .inf _ => bytes ['i', 'n', 'f']
    | .fin q =>
      if q = 0 then [byte '0'] else
      let (n, e) := six |q|
      if e < -4 ∨ 6 ≤ e then
        digitsN 1 (n / 100000) ++ fraction (digitsN 5 (n % 100000)) ++ exponent e
      else
        let places := (5 - e).toNat
        Json.decNat (n / 10 ^ places) ++ fraction (digitsN places (n % 10 ^ places))

/-! ### Vectors and points -/

/-- The loop of `operator>>`, Vector.h:414-428, for `double`; `fuel` bounds the number of rounds. -/
def readLoopD : Nat → IStream → Option Byte → List Json.F64 → Out (List Json.F64 × IStream)
  | 0, _, _, _ => .diverge
  | fuel + 1, is, ch, vec => do
    let (value, is) := is.getDouble none
    let vec := vec ++ [← use value]
    let (ch, is) := is.getChar ch
    if is.eof then .exit else
    let c ← use ch
    if c = byte '}' then .ok (vec, is)
    else if c ≠ byte ',' then .exit
    else readLoopD fuel is ch vec

/-- `operator>>` for `Vector<double>`, Vector.h:403-430: the new contents of the Vector and the stream afterwards. -/
def readVectorD (is : IStream) : Out (List Json.F64 × IStream) := do
  let (ch, is) := is.getChar none
  if (← use ch) ≠ byte '{' then .exit else
  let (ch, is) := is.getChar ch
  if (← use ch) ≠ byte '}' then
    let is := is.unget
    readLoopD (is.rest.length + 2) is ch []
  else .ok ([], is)

/-- `operator<<` for `Vector<double>`, Vector.h:389-401: the text written. -/
def printVectorD (vec : List Json.F64) : Out Str := do
  if Cont.Vector.size vec = 0 then .ok (bytes ['{', '}'])
  else if Cont.Vector.size vec = 1 then .ok (bytes ['{'] ++ putDouble (← Cont.Vector.last vec) ++ bytes ['}'])
  else .ok (bytes ['{'] ++ (vec.dropLast.flatMap fun v => putDouble v ++ bytes [',', ' ']) ++
    putDouble (← Cont.Vector.last vec) ++ bytes ['}'])

/-- `operator<<` for points, Point.h:135-139, with `N + 1` coordinates (the code reads `elem[0]`). -/
def printPoint {N : Nat} (p : Fin (N + 1) → Json.F64) : Str :=
  bytes ['('] ++ putDouble (p 0) ++ ((List.finRange N).flatMap fun i => bytes [',', ' '] ++ putDouble (p i.succ)) ++ bytes [')']

end Stream
