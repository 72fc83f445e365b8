import Verif.Model.Json
import Verif.Model.Double

/-!
# Model of the numbers of JSON in binary64, /repo/src/json/Json.cpp:146-197, 221-242, 461-462,
/repo/src/include/string_utils/StringCast.h:22-32

As in `Verif.Model.Json`, but a `double` is a binary64 number with its sign bit.  Only the numbers are modelled here: of
`parse_next` the case of a number, of `dump` the case `Type::Float`.
-/

namespace Json
open Cpp

/-- A `double`: its sign bit and its value. -/
structure F64 where
  neg : Bool
  val : Dbl
  deriving DecidableEq

/-- `std::numeric_limits<double>::max()` -/
def DBL_MAX : ℚ := (2 ^ 53 - 1) * 2 ^ 971

/-- Do digits, or a point and digits, begin here? -/
def startsDecimal : Str → Bool
  | [] => false
  | c :: t => isDigit c || (c = byte '.' && t.head?.any isDigit)

/-- `(double)stringCast<double>(s)`, StringCast.h:22-32, for a string of digits and the characters `-` and `.`: the
nearest `double`, the largest finite one if the number is beyond it, 0 if there are no digits (`operator>>` of C++11); for
the empty string `casted` stays indeterminate. -/
def castDouble64 (s : Str) : Out F64 :=
  match s with
  | [] => .ub
  | c :: t =>
    let neg := decide (c = byte '-')
    let body := if neg then t else c :: t
    if startsDecimal body then
      let m := match Dbl.round (decimal body) with
        | .fin r => r
        | _ => DBL_MAX
      .ok ⟨neg, .fin (if neg then -m else m)⟩
    else .ok ⟨false, .fin 0⟩

/-- Conversion of a `double` to `int`: truncated; undefined if out of range. -/
def F64.toInt (d : F64) : Out Int :=
  match d.val with
  | .fin q => Cpp.int (if q < 0 then ⌈q⌉ else ⌊q⌋)
  | _ => .ub

/-- `std::pow(10, exp)`, correctly rounded. -/
def pow10 (exp : Int) : Dbl := Dbl.round ((10 : ℚ) ^ exp)

/-- `d * std::pow(10, exp)`, Json.cpp:191, 193; the power is not negative.  (The sign bit of a NaN is up to the
platform.) -/
def F64.scale (d : F64) (exp : Int) : F64 := ⟨d.neg, d.val * pow10 exp⟩

/-- The value of a number. -/
inductive Num64 where
  | int (i : Int)
  | dbl (d : F64)
  deriving DecidableEq

/-- `parse_number(str, offset)`, Json.cpp:146-197. -/
def parseNumber64 (str : Str) (off : Nat) : Out (Num64 × Nat) := do
  let (val, isDouble, c, off) ← numGo str (str.length + 2) off [] false
  let (expStr, exp, c, off) ← (
    if c = byte 'E' ∨ c = byte 'e' then do
      if off = str.length then .exit else
      let s ← strAt str off
      let (expStr, c, off) ← expGo str (str.length + 2) (off + 1) (if s = byte '-' then [s] else [])
      let exp ← (← castDouble64 expStr).toInt
      .ok (expStr, exp, c, off)
    else do
      if ← notEnd c then .exit else .ok (([], 0, c, off) : Str × Int × Byte × Nat))
  let off := if c ≠ 0 then off - 1 else off
  if isDouble ∨ expStr ≠ [] then .ok (.dbl ((← castDouble64 val).scale exp), off)
  else .ok (.int (← castInt val), off)

/-- `loadJSON(str)`, Json.cpp:484-487, and `parse_next`, Json.cpp:221-242, if a number begins after the white space;
nothing otherwise. -/
def loadNumber (str : Str) : Out (Option Num64) := do
  let off ← skip str 0
  let value ← strAt str off
  if isDigit value ∨ value = byte '-' then
    let (v, _) ← parseNumber64 str off
    .ok (some v)
  else .ok none

/-- `std::to_string(double)`, Json.cpp:462: `printf` with `%f`. -/
def F64.toText (d : F64) : Str :=
  (if d.neg then [byte '-'] else []) ++
    match d.val with
    | .nan => bytes ['n', 'a', 'n']
    | .inf _ => bytes ['i', 'n', 'f']
    | .fin q =>
      let n := (roundEven (|q| * 1000000)).toNat
      decNat (n / 1000000) ++ [byte '.'] ++ dec6 (n % 1000000)

end Json
