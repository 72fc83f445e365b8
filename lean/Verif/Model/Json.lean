import Verif.Cpp
import Mathlib.Algebra.Order.Floor.Ring
import Mathlib.Data.Rat.Floor
import Mathlib.Data.Nat.Digits.Defs

/-!
# Model of JSON, /repo/src/json/Json.cpp, /repo/src/json/json_functions.cpp, /repo/src/include/json/Json.h,
/repo/src/include/string_utils/StringCast.h

Offsets (`size_t`) are natural numbers.  `double` values are exact rational numbers; infinities, NaN and negative zero are
not modelled.  Ownership of the data behind `JSONObject::Data` is not modelled here; a `JSONObject` is its value.
-/

namespace Json
open Cpp

/-- The value of a `JSONObject`, Json.h:66-85.  An object is a `std::map<std::string, JSONObject>`: its pairs in the
order of their keys. -/
inductive Value where
  | null
  | bool (b : Bool)
  | int (i : Int)
  | float (q : ℚ)
  | str (s : Str)
  | arr (l : List Value)
  | obj (m : List (Str × Value))

/-- `Map->operator[](key) = v`, Json.cpp:361-364: the pairs stay in the order of the keys (`std::string` compares
bytes as unsigned). -/
def put (k : Str) (v : Value) : List (Str × Value) → List (Str × Value)
  | [] => [(k, v)]
  | (k', v') :: m => if k = k' then (k, v) :: m else if k < k' then (k, v) :: (k', v') :: m else (k', v') :: put k v m

/-- The body of the loop of `jsonEscape`, json_functions.cpp:7-32. -/
def escapeChar (c : Byte) : Str :=
  if c = byte '"' then bytes ['\\', '"']
  else if c = byte '\\' then bytes ['\\', '\\']
  else if c = 8 then bytes ['\\', 'b']
  else if c = 12 then bytes ['\\', 'f']
  else if c = 10 then bytes ['\\', 'n']
  else if c = 13 then bytes ['\\', 'r']
  else if c = 9 then bytes ['\\', 't']
  else [c]

/-- `jsonEscape(str)`, json_functions.cpp:5-34. -/
def jsonEscape (s : Str) : Str := s.foldl (fun out c => out ++ escapeChar c) []

/-- `toString()`, Json.cpp:399-401. -/
def Value.toString : Value → Str
  | .str s => jsonEscape s
  | _ => []

/-- `toInt()`, Json.cpp:411-413. -/
def Value.toInt : Value → Int
  | .int i => i
  | _ => 0

/-- `toDouble()`, Json.cpp:403-405. -/
def Value.toDouble : Value → ℚ
  | .float q => q
  | _ => 0

/-- `toBool()`, Json.cpp:415-417. -/
def Value.toBool : Value → Bool
  | .bool b => b
  | _ => false

/-- `isspace(c)` in the "C" locale; the behaviour is undefined for negative arguments. -/
def isspace (c : Byte) : Out Bool :=
  if c.toNat ≥ 128 then .ub else .ok (decide (c = 32 ∨ (9 ≤ c ∧ c ≤ 13)))

/-- `skip_whitespaces(str, offset)`, Json.cpp:15-17, with fuel. -/
def skipGo (str : Str) : Nat → Nat → Out Nat
  | 0, _ => .diverge
  | f + 1, off => do if ← isspace (← strAt str off) then skipGo str f (off + 1) else .ok off

/-- `skip_whitespaces(str, offset)`, Json.cpp:15-17; returns the new offset. -/
def skip (str : Str) (off : Nat) : Out Nat := skipGo str (str.length + 2) off

/-- The cases of the `switch`, Json.cpp:93-117, 133-135, other than `u`. -/
def unescape (e : Byte) : Byte :=
  if e = byte '"' then byte '"'
  else if e = byte '\\' then byte '\\'
  else if e = byte '/' then byte '/'
  else if e = byte 'b' then 8
  else if e = byte 'f' then 12
  else if e = byte 'n' then 10
  else if e = byte 'r' then 13
  else if e = byte 't' then 9
  else byte '\\'

/-- The condition Json.cpp:122-123. -/
def isHex (c : Byte) : Bool :=
  (byte '0' ≤ c ∧ c ≤ byte '9') ∨ (byte 'a' ≤ c ∧ c ≤ byte 'f') ∨ (byte 'A' ≤ c ∧ c ≤ byte 'F')

/-- The loop Json.cpp:120-130, `n` characters from `off` on. -/
def hexGo (str : Str) : Nat → Nat → Out Str
  | 0, _ => .ok []
  | n + 1, off => do
    let c ← strAt str off
    if isHex c then .ok (c :: (← hexGo str n (off + 1))) else .exit

/-- The loop of `parse_string`, Json.cpp:91-141; `off` is the offset of `c`. -/
def stringGo (str : Str) : Nat → Nat → Str → Out (Str × Nat)
  | 0, _, _ => .diverge
  | f + 1, off, val => do
    let c ← strAt str off
    if c = byte '"' then .ok (val, off + 1)
    else if c = byte '\\' then
      let e ← strAt str (off + 1 : Nat)
      if e = byte 'u' then
        let hex ← hexGo str 4 (off + 2)
        stringGo str f (off + 6) (val ++ bytes ['\\', 'u'] ++ hex)
      else stringGo str f (off + 2) (val ++ [unescape e])
    else stringGo str f (off + 1) (val ++ [c])

/-- `parse_string(str, offset)`, Json.cpp:88-144. -/
def parseString (str : Str) (off : Nat) : Out (Value × Nat) := do
  let (val, off) ← stringGo str (str.length + 2) (off + 1) []
  .ok (.str val, off)

/-- `c >= '0' && c <= '9'` -/
def isDigit (c : Byte) : Bool := byte '0' ≤ c ∧ c ≤ byte '9'

/-- The value of a string of digits. -/
def natVal (s : Str) : Nat := s.foldl (fun a c => 10 * a + (c.toNat - 48)) 0

/-- `(int)stringCast<int>(s)`, StringCast.h:22-32, for a string of digits and the characters `-` and `.`: an optional
sign, then digits; the nearest `int` if the value is out of range, 0 if there are no digits (`operator>>` of C++11); for
the empty string `casted` stays indeterminate. -/
def castInt (s : Str) : Out Int :=
  match s with
  | [] => .ub
  | c :: t =>
    let i : Int := if c = byte '-' then -natVal (t.takeWhile isDigit) else natVal ((c :: t).takeWhile isDigit)
    .ok (max INT_MIN (min INT_MAX i))

/-- The value of digits, perhaps a point and more digits, at the start of `s`. -/
def decimal (s : Str) : ℚ :=
  let frac := match s.dropWhile isDigit with
    | [] => []
    | c :: t => if c = byte '.' then t.takeWhile isDigit else []
  natVal (s.takeWhile isDigit) + natVal frac / 10 ^ frac.length

/-- `(double)stringCast<double>(s)`, StringCast.h:22-32, for a string of digits and the characters `-` and `.`, in exact
arithmetic. -/
def castDouble (s : Str) : Out ℚ :=
  match s with
  | [] => .ub
  | c :: t => .ok (if c = byte '-' then -decimal t else decimal (c :: t))

/-- The loop Json.cpp:152-162: returns `val`, `isDouble`, `c` and `offset`. -/
def numGo (str : Str) : Nat → Nat → Str → Bool → Out (Str × Bool × Byte × Nat)
  | 0, _, _, _ => .diverge
  | f + 1, off, val, isDouble => do
    let c ← strAt str off
    if c = byte '-' ∨ isDigit c then numGo str f (off + 1) (val ++ [c]) isDouble
    else if c = byte '.' then numGo str f (off + 1) (val ++ [c]) true
    else .ok (val, isDouble, c, off + 1)

/-- The condition `!isspace(c) && c != ',' && c != ']' && c != '}' && c != 0`, Json.cpp:176, 185. -/
def notEnd (c : Byte) : Out Bool := do
  .ok (!(← isspace c) && c != byte ',' && c != byte ']' && c != byte '}' && c != 0)

/-- The loop Json.cpp:171-183: returns `exp_str`, `c` and `offset`. -/
def expGo (str : Str) : Nat → Nat → Str → Out (Str × Byte × Nat)
  | 0, _, _ => .diverge
  | f + 1, off, e => do
    let c ← strAt str off
    if isDigit c then expGo str f (off + 1) (e ++ [c])
    else if ← notEnd c then .exit
    else .ok (e, c, off)

/-- `parse_number(str, offset)`, Json.cpp:146-197. -/
def parseNumber (str : Str) (off : Nat) : Out (Value × Nat) := do
  let (val, isDouble, c, off) ← numGo str (str.length + 2) off [] false
  let (expStr, exp, c, off) ← (
    if c = byte 'E' ∨ c = byte 'e' then do
      if off = str.length then .exit else
      let s ← strAt str off
      let (expStr, c, off) ← expGo str (str.length + 2) (off + 1) (if s = byte '-' then [s] else [])
      let exp ← Cpp.int (← castDouble expStr).num
      .ok (expStr, exp, c, off)
    else do
      if ← notEnd c then .exit else .ok (([], 0, c, off) : Str × Int × Byte × Nat))
  let off := if c ≠ 0 then off - 1 else off
  if isDouble ∨ expStr ≠ [] then .ok (.float ((← castDouble val) * (10 : ℚ) ^ exp), off)
  else .ok (.int (← castInt val), off)

/-- `parse_bool(str, offset)`, Json.cpp:199-211. -/
def parseBool (str : Str) (off : Nat) : Out (Value × Nat) :=
  if (str.drop off).take 4 = bytes ['t', 'r', 'u', 'e'] then .ok (.bool true, off + 4)
  else if (str.drop off).take 5 = bytes ['f', 'a', 'l', 's', 'e'] then .ok (.bool false, off + 5)
  else .exit

/-- `parse_null(str, offset)`, Json.cpp:213-219. -/
def parseNull (str : Str) (off : Nat) : Out (Value × Nat) :=
  if (str.drop off).take 4 = bytes ['n', 'u', 'l', 'l'] then .ok (.null, off + 4) else .exit

mutual
/-- `parse_next(str, offset)`, Json.cpp:221-242, with the beginnings of `parse_array`, Json.cpp:58-67, and `parse_object`,
Json.cpp:19-27. -/
def parseNext (str : Str) : Nat → Nat → Out (Value × Nat)
  | 0, _ => .diverge
  | f + 1, off => do
    let off ← skip str off
    let value ← strAt str off
    if value = byte '[' then
      let off ← skip str (off + 1)
      if (← strAt str off) = byte ']' then .ok (.arr [], off + 1) else
      let (l, off) ← arrLoop str f off
      .ok (.arr l, off)
    else if value = byte '{' then
      let off ← skip str (off + 1)
      if (← strAt str off) = byte '}' then .ok (.obj [], off + 1) else
      let (m, off) ← objLoop str f off []
      .ok (.obj m, off)
    else if value = byte '"' then parseString str off
    else if value = byte 't' ∨ value = byte 'f' then parseBool str off
    else if value = byte 'n' then parseNull str off
    else if isDigit value ∨ value = byte '-' then parseNumber str off
    else .exit

/-- The loop of `parse_array`, Json.cpp:69-83. -/
def arrLoop (str : Str) : Nat → Nat → Out (List Value × Nat)
  | 0, _ => .diverge
  | f + 1, off => do
    let (v, off) ← parseNext str f off
    let off ← skip str off
    let c ← strAt str off
    if c = byte ',' then
      let (l, off) ← arrLoop str f (off + 1)
      .ok (v :: l, off)
    else if c = byte ']' then .ok ([v], off + 1)
    else .exit

/-- The loop of `parse_object`, Json.cpp:29-53; `m` is the object so far. -/
def objLoop (str : Str) : Nat → Nat → List (Str × Value) → Out (List (Str × Value) × Nat)
  | 0, _, _ => .diverge
  | f + 1, off, m => do
    let (key, off) ← parseNext str f off
    let off ← skip str off
    if (← strAt str off) ≠ byte ':' then .exit else
    let off ← skip str (off + 1)
    let (v, off) ← parseNext str f off
    let m := put key.toString v m
    let off ← skip str off
    let c ← strAt str off
    if c = byte ',' then objLoop str f (off + 1) m
    else if c = byte '}' then .ok (m, off + 1)
    else .exit
end

/-- `loadJSON(str)`, Json.cpp:484-487.  The fuel suffices for every text (theorem `C49_terminates_partial`). -/
def loadJSON (str : Str) : Out Value := do
  let (v, _) ← parseNext str (2 * str.length + 3) 0
  .ok v

/-- Decimal digits of a natural number, as in `std::to_string`. -/
def decNat (n : Nat) : Str := if n = 0 then [48] else ((Nat.digits 10 n).map fun d => (48 + UInt8.ofNat d)).reverse

/-- `std::to_string(int)`. -/
def decInt (i : Int) : Str := if i < 0 then byte '-' :: decNat i.natAbs else decNat i.natAbs

/-- Rounding to the nearest integer, ties to even. -/
def roundEven (q : ℚ) : Int :=
  let n := ⌊q⌋
  if q - n < 1 / 2 then n else if q - n > 1 / 2 then n + 1 else if n % 2 = 0 then n else n + 1

/-- The digits after the point. -/
def dec6 (n : Nat) : Str := (List.range 6).map fun i => 48 + UInt8.ofNat (n / 10 ^ (5 - i) % 10)

/-- `std::to_string(double)`: `printf` with `%f`, i.e. rounded to six places after the point. -/
def decFloat (q : ℚ) : Str :=
  let n := (roundEven (|q| * 1000000)).toNat
  (if q < 0 then [byte '-'] else []) ++ decNat (n / 1000000) ++ [byte '.'] ++ dec6 (n % 1000000)

/-- The loop Json.cpp:430-432. -/
def padding (depth : Int) (tab : Str) : Str := (List.replicate depth.toNat tab).flatten

mutual
/-- `dump(depth, tab)`, Json.cpp:429-469. -/
def dump (tab : Str) : Int → Value → Str
  | _, .null => bytes ['n', 'u', 'l', 'l']
  | depth, .obj m =>
    bytes ['{', '\n'] ++ dumpObj tab depth m ++ bytes ['\n'] ++ (padding depth tab).drop 2 ++ bytes ['}']
  | depth, .arr l => bytes ['['] ++ dumpArr tab depth l ++ bytes [']']
  | _, .str s => bytes ['"'] ++ jsonEscape s ++ bytes ['"']
  | _, .float q => decFloat q
  | _, .int i => decInt i
  | _, .bool b => if b then bytes ['t', 'r', 'u', 'e'] else bytes ['f', 'a', 'l', 's', 'e']

/-- The loop Json.cpp:451-455. -/
def dumpArr (tab : Str) : Int → List Value → Str
  | _, [] => []
  | depth, [v] => dump tab (depth + 1) v
  | depth, v :: l => dump tab (depth + 1) v ++ bytes [',', ' '] ++ dumpArr tab depth l

/-- The loop Json.cpp:440-444. -/
def dumpObj (tab : Str) : Int → List (Str × Value) → Str
  | _, [] => []
  | depth, [(k, v)] => padding depth tab ++ bytes ['"'] ++ k ++ bytes ['"', ' ', ':', ' '] ++ dump tab (depth + 1) v
  | depth, (k, v) :: m => padding depth tab ++ bytes ['"'] ++ k ++ bytes ['"', ' ', ':', ' '] ++ dump tab (depth + 1) v ++
      bytes [',', '\n'] ++ dumpObj tab depth m
end

/-- `dump()` with the default arguments, Json.h:519, and `operator<<`, Json.cpp:471-474. -/
def dumpDefault (v : Value) : Str := dump (bytes [' ', ' ']) 1 v

end Json
