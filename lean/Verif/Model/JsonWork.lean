import Verif.Model.Json

/-!
# Model of the work of `loadJSON`, /repo/src/json/Json.cpp

The parser of Model/Json.lean once more, with two counters: how often a character of the text is read (`str[i]`; a call of
`substr` counts for as many characters as it returns), and how many `JSONObject`s are copied (by the copy constructor or by
the copying assignment; moves and constructions are not counted).  The counters also tell the work up to an error or to
undefined behaviour.  The conversions of numbers read their own strings, not the text, and are not counted.
-/

namespace Json.Work
open Cpp

/-- What a piece of the parser does: characters read, `JSONObject`s copied, outcome. -/
structure Job (α : Type) where
  reads : Nat
  copies : Nat
  out : Out α

/-- Sequencing of statements: the counters add up. -/
def Job.bind {α β : Type} (x : Job α) (f : α → Job β) : Job β :=
  match x.out with
  | .ok a => ⟨x.reads + (f a).reads, x.copies + (f a).copies, (f a).out⟩
  | .exit => ⟨x.reads, x.copies, .exit⟩
  | .ub => ⟨x.reads, x.copies, .ub⟩
  | .diverge => ⟨x.reads, x.copies, .diverge⟩

instance : Monad Job where
  pure a := ⟨0, 0, .ok a⟩
  bind := Job.bind

/-- A statement without counted work. -/
def free {α : Type} (x : Out α) : Job α := ⟨0, 0, x⟩

/-- `str[i]` -/
def rd (str : Str) (i : Nat) : Job Byte := ⟨1, 0, strAt str i⟩

/-- `str.substr(off, n)`, for an offset inside the text -/
def sub (str : Str) (off n : Nat) : Job Str := ⟨((str.drop off).take n).length, 0, .ok ((str.drop off).take n)⟩

/-- `n` copies of `JSONObject`s -/
def copied (n : Nat) : Job Unit := ⟨0, n, .ok ()⟩

mutual
/-- The `JSONObject`s written when a `JSONObject` is copied, Json.cpp:306-323, 334-353: itself and, for arrays and objects,
those that the new `std::deque` or `std::map` copies. -/
def nodes : Value → Nat
  | .arr l => 1 + nodesArr l
  | .obj m => 1 + nodesObj m
  | _ => 1

/-- The elements of an array, Json.cpp:312-315, 341-344. -/
def nodesArr : List Value → Nat
  | [] => 0
  | v :: l => nodes v + nodesArr l

/-- The members of an object, Json.cpp:308-311, 337-340. -/
def nodesObj : List (Str × Value) → Nat
  | [] => 0
  | (_, v) :: m => nodes v + nodesObj m
end

/-- `skip_whitespaces(str, offset)`, Json.cpp:15-17, with fuel. -/
def skipGo (str : Str) : Nat → Nat → Job Nat
  | 0, _ => free .diverge
  | f + 1, off => do
    let c ← rd str off
    let b ← free (isspace c)
    if b then skipGo str f (off + 1) else free (.ok off)

/-- `skip_whitespaces(str, offset)`, Json.cpp:15-17; returns the new offset. -/
def skip (str : Str) (off : Nat) : Job Nat := skipGo str (str.length + 2) off

/-- The loop Json.cpp:120-130, `n` characters from `off` on. -/
def hexGo (str : Str) : Nat → Nat → Job Str
  | 0, _ => free (.ok [])
  | n + 1, off => do
    let c ← rd str off
    if isHex c then
      let h ← hexGo str n (off + 1)
      free (.ok (c :: h))
    else free .exit

/-- The loop of `parse_string`, Json.cpp:91-141; `off` is the offset of `c`. -/
def stringGo (str : Str) : Nat → Nat → Str → Job (Str × Nat)
  | 0, _, _ => free .diverge
  | f + 1, off, val => do
    let c ← rd str off
    if c = byte '"' then free (.ok (val, off + 1))
    else if c = byte '\\' then
      let e ← rd str (off + 1)
      if e = byte 'u' then
        let hex ← hexGo str 4 (off + 2)
        stringGo str f (off + 6) (val ++ bytes ['\\', 'u'] ++ hex)
      else stringGo str f (off + 2) (val ++ [unescape e])
    else stringGo str f (off + 1) (val ++ [c])

/-- `parse_string(str, offset)`, Json.cpp:88-144.  The assignment `String = val` (Json.h:248-254) returns a copy of the
`JSONObject`. -/
def parseString (str : Str) (off : Nat) : Job (Value × Nat) := do
  let (val, off) ← stringGo str (str.length + 2) (off + 1) []
  copied 1
  free (.ok (.str val, off))

/-- The loop Json.cpp:152-162: returns `val`, `isDouble`, `c` and `offset`. -/
def numGo (str : Str) : Nat → Nat → Str → Bool → Job (Str × Bool × Byte × Nat)
  | 0, _, _, _ => free .diverge
  | f + 1, off, val, isDouble => do
    let c ← rd str off
    if c = byte '-' ∨ isDigit c then numGo str f (off + 1) (val ++ [c]) isDouble
    else if c = byte '.' then numGo str f (off + 1) (val ++ [c]) true
    else free (.ok (val, isDouble, c, off + 1))

/-- The loop Json.cpp:171-183: returns `exp_str`, `c` and `offset`. -/
def expGo (str : Str) : Nat → Nat → Str → Job (Str × Byte × Nat)
  | 0, _, _ => free .diverge
  | f + 1, off, e => do
    let c ← rd str off
    if isDigit c then expGo str f (off + 1) (e ++ [c])
    else do
      let b ← free (notEnd c)
      if b then free .exit else free (.ok (e, c, off))

/-- `parse_number(str, offset)`, Json.cpp:146-197.  Each of the assignments Json.cpp:190-195 (`operator=`, Json.h:219-226,
233-240) returns a copy of the `JSONObject`. -/
def parseNumber (str : Str) (off : Nat) : Job (Value × Nat) := do
  let (val, isDouble, c, off) ← numGo str (str.length + 2) off [] false
  let (expStr, exp, c, off) ← (
    if c = byte 'E' ∨ c = byte 'e' then do
      if off = str.length then free .exit else
      let s ← rd str off
      let (expStr, c, off) ← expGo str (str.length + 2) (off + 1) (if s = byte '-' then [s] else [])
      let q ← free (castDouble expStr)
      let exp ← free (Cpp.int q.num)
      free (.ok (expStr, exp, c, off))
    else do
      let b ← free (notEnd c)
      if b then free .exit else free (.ok (([], 0, c, off) : Str × Int × Byte × Nat)))
  let off := if c ≠ 0 then off - 1 else off
  copied 1
  if isDouble ∨ expStr ≠ [] then free (do .ok (.float ((← castDouble val) * (10 : ℚ) ^ exp), off))
  else free (do .ok (.int (← castInt val), off))

/-- `parse_bool(str, offset)`, Json.cpp:199-211; the assignments (Json.h:205-211) return a copy of the `JSONObject`. -/
def parseBool (str : Str) (off : Nat) : Job (Value × Nat) := do
  let s ← sub str off 4
  if s = bytes ['t', 'r', 'u', 'e'] then do
    copied 1
    free (.ok (.bool true, off + 4))
  else do
    let s ← sub str off 5
    if s = bytes ['f', 'a', 'l', 's', 'e'] then do
      copied 1
      free (.ok (.bool false, off + 5))
    else do
      let _ ← sub str off 5
      free .exit

/-- `parse_null(str, offset)`, Json.cpp:213-219. -/
def parseNull (str : Str) (off : Nat) : Job (Value × Nat) := do
  let s ← sub str off 4
  if s = bytes ['n', 'u', 'l', 'l'] then free (.ok (.null, off + 4)) else do
    let _ ← sub str off 4
    free .exit

mutual
/-- `parse_next(str, offset)`, Json.cpp:221-242, with the beginnings of `parse_array`, Json.cpp:58-67, and `parse_object`,
Json.cpp:19-27.  The results are moved. -/
def parseNext (str : Str) : Nat → Nat → Job (Value × Nat)
  | 0, _ => free .diverge
  | f + 1, off => do
    let off ← skip str off
    let value ← rd str off
    if value = byte '[' then
      let off ← skip str (off + 1)
      let c ← rd str off
      if c = byte ']' then free (.ok (.arr [], off + 1)) else
      let (l, off) ← arrLoop str f off
      free (.ok (.arr l, off))
    else if value = byte '{' then
      let off ← skip str (off + 1)
      let c ← rd str off
      if c = byte '}' then free (.ok (.obj [], off + 1)) else
      let (m, off) ← objLoop str f off []
      free (.ok (.obj m, off))
    else if value = byte '"' then parseString str off
    else if value = byte 't' ∨ value = byte 'f' then parseBool str off
    else if value = byte 'n' then parseNull str off
    else if isDigit value ∨ value = byte '-' then parseNumber str off
    else free .exit

/-- The loop of `parse_array`, Json.cpp:69-83.  `Array[index++] = parse_next(str, offset)` moves the element
(Json.cpp:325-332). -/
def arrLoop (str : Str) : Nat → Nat → Job (List Value × Nat)
  | 0, _ => free .diverge
  | f + 1, off => do
    let (v, off) ← parseNext str f off
    let off ← skip str off
    let c ← rd str off
    if c = byte ',' then
      let (l, off) ← arrLoop str f (off + 1)
      free (.ok (v :: l, off))
    else do
      let c ← rd str off
      if c = byte ']' then free (.ok ([v], off + 1))
      else do
        let _ ← rd str off
        free .exit

/-- The loop of `parse_object`, Json.cpp:29-53; `m` is the object so far.  `Object[Key.toString()] = Value` copies `Value`
(Json.cpp:334-353). -/
def objLoop (str : Str) : Nat → Nat → List (Str × Value) → Job (List (Str × Value) × Nat)
  | 0, _, _ => free .diverge
  | f + 1, off, m => do
    let (key, off) ← parseNext str f off
    let off ← skip str off
    let c ← rd str off
    if c ≠ byte ':' then do
      let _ ← rd str off
      free .exit
    else
    let off ← skip str (off + 1)
    let (v, off) ← parseNext str f off
    copied (nodes v)
    let m := put key.toString v m
    let off ← skip str off
    let c ← rd str off
    if c = byte ',' then objLoop str f (off + 1) m
    else do
      let c ← rd str off
      if c = byte '}' then free (.ok (m, off + 1))
      else do
        let _ ← rd str off
        free .exit
end

/-- `loadJSON(str)`, Json.cpp:484-487. -/
def loadJSON (str : Str) : Job Value := do
  let (v, _) ← parseNext str (2 * str.length + 3) 0
  free (.ok v)

end Json.Work
