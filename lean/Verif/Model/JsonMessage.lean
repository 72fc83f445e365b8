import Verif.Model.Json

/-!
# Model of the error messages of `loadJSON`, /repo/src/json/Json.cpp

The parser of Model/Json.lean once more, with the text given to `error` as part of the outcome.  `error(msg)`
(utils/error.h:17-22) writes ``Error occurs in `f`, `` with the name `f` of the function (its form depends on the compiler and
is left out), then `msg` and the end of the line, and ends the program.  The functions without messages (`skip`, `numGo`,
`notEnd`, `castInt`, `castDouble`, `isHex`, `isDigit`) are those of Model/Json.lean.
-/

namespace Json.Message
open Cpp

/-- The outcome of a function of the parser: as in `Cpp.Out`, and the message if the program ends through `error(msg)`. -/
inductive Step (α : Type) where
  /-- normal return -/
  | ok (a : α)
  /-- the program ended through `error(msg)`, utils/error.h:17-22 -/
  | stop (msg : Str)
  /-- undefined behaviour -/
  | ub
  /-- the fuel was used up -/
  | diverge

/-- Sequencing of statements, as `Cpp.Out.bind`. -/
def Step.bind {α β : Type} : Step α → (α → Step β) → Step β
  | .ok a, f => f a
  | .stop m, _ => .stop m
  | .ub, _ => .ub
  | .diverge, _ => .diverge

instance : Monad Step where
  pure := Step.ok
  bind := Step.bind

/-- A function without a message of its own; none of those used here ends the program. -/
def Step.lift {α : Type} : Out α → Step α
  | .ok a => .ok a
  | .exit => .stop []
  | .ub => .ub
  | .diverge => .diverge

instance : MonadLift Out Step where
  monadLift := Step.lift

/-- The outcome without the message. -/
def Step.drop {α : Type} : Step α → Out α
  | .ok a => .ok a
  | .stop _ => .exit
  | .ub => .ub
  | .diverge => .diverge

/-- `"…, found '" + found + "'"`, Json.cpp:33-34, 49-50, 80-81, 126-128, 177-178, 186, 206-207, 216, 241: `what`, the
characters found and an apostrophe. -/
def say (what : String) (found : Str) : Str := bytes what.toList ++ found ++ [byte '\'']

/-- The loop Json.cpp:120-130, `n` characters from `off` on; the message Json.cpp:126-128. -/
def hexGo (str : Str) : Nat → Nat → Step Str
  | 0, _ => .ok []
  | n + 1, off => do
    let c ← strAt str off
    if isHex c then .ok (c :: (← hexGo str n (off + 1)))
    else .stop (say "String: Expected hex character in unicode escape, found '" [c])

/-- The loop of `parse_string`, Json.cpp:91-141; `off` is the offset of `c`. -/
def stringGo (str : Str) : Nat → Nat → Str → Step (Str × Nat)
  | 0, _, _ => .diverge
  | f + 1, off, val => do
    let c ← strAt str off
    if c = byte '"' then .ok (val, off + 1)
    else if c = byte '\\' then
      let e ← strAt str (off + 1 : Nat)
      if e = byte 'u' then
        let hex ← hexGo str 4 (off + 2)
        stringGo str f (off + 6) (val ++ bytes ['\\', 'u'] ++ hex)
      else stringGo str f (off + 2) (val ++ [unescape e])
    else stringGo str f (off + 1) (val ++ [c])

/-- `parse_string(str, offset)`, Json.cpp:88-144. -/
def parseString (str : Str) (off : Nat) : Step (Value × Nat) := do
  let (val, off) ← stringGo str (str.length + 2) (off + 1) []
  .ok (.str val, off)

/-- The loop Json.cpp:171-183: returns `exp_str`, `c` and `offset`; the message Json.cpp:177-178. -/
def expGo (str : Str) : Nat → Nat → Str → Step (Str × Byte × Nat)
  | 0, _, _ => .diverge
  | f + 1, off, e => do
    let c ← strAt str off
    if isDigit c then expGo str f (off + 1) (e ++ [c])
    else if ← notEnd c then .stop (say "Number: Expected a number for exponent, found '" [c])
    else .ok (e, c, off)

/-- `parse_number(str, offset)`, Json.cpp:146-197; the messages Json.cpp:165, 186. -/
def parseNumber (str : Str) (off : Nat) : Step (Value × Nat) := do
  let (val, isDouble, c, off) ← numGo str (str.length + 2) off [] false
  let (expStr, exp, c, off) ← (
    if c = byte 'E' ∨ c = byte 'e' then do
      if off = str.length then
        .stop (bytes "Number: Expected a number for exponent, nothing remaining.".toList) else
      let s ← strAt str off
      let (expStr, c, off) ← expGo str (str.length + 2) (off + 1) (if s = byte '-' then [s] else [])
      let exp ← Cpp.int (← castDouble expStr).num
      .ok (expStr, exp, c, off)
    else do
      if ← notEnd c then .stop (say "Number: unexpected character '" [c])
      else .ok (([], 0, c, off) : Str × Int × Byte × Nat))
  let off := if c ≠ 0 then off - 1 else off
  if isDouble ∨ expStr ≠ [] then .ok (.float ((← castDouble val) * (10 : ℚ) ^ exp), off)
  else .ok (.int (← castInt val), off)

/-- `parse_bool(str, offset)`, Json.cpp:199-211; the message Json.cpp:206-207. -/
def parseBool (str : Str) (off : Nat) : Step (Value × Nat) :=
  if (str.drop off).take 4 = bytes ['t', 'r', 'u', 'e'] then .ok (.bool true, off + 4)
  else if (str.drop off).take 5 = bytes ['f', 'a', 'l', 's', 'e'] then .ok (.bool false, off + 5)
  else .stop (say "Bool: Expected 'true' or 'false', found '" ((str.drop off).take 5))

/-- `parse_null(str, offset)`, Json.cpp:213-219; the message Json.cpp:216. -/
def parseNull (str : Str) (off : Nat) : Step (Value × Nat) :=
  if (str.drop off).take 4 = bytes ['n', 'u', 'l', 'l'] then .ok (.null, off + 4)
  else .stop (say "Null: Expected 'null', found '" ((str.drop off).take 4))

mutual
/-- `parse_next(str, offset)`, Json.cpp:221-242, with the beginnings of `parse_array`, Json.cpp:58-67, and `parse_object`,
Json.cpp:19-27; the message Json.cpp:241. -/
def parseNext (str : Str) : Nat → Nat → Step (Value × Nat)
  | 0, _ => .diverge
  | f + 1, off => do
    let off ← skip str off
    let value ← strAt str off
    if value = byte '[' then
      let off ← skip str (off + 1)
      let c ← strAt str off
      if c = byte ']' then .ok (.arr [], off + 1) else
      let (l, off) ← arrLoop str f off
      .ok (.arr l, off)
    else if value = byte '{' then
      let off ← skip str (off + 1)
      let c ← strAt str off
      if c = byte '}' then .ok (.obj [], off + 1) else
      let (m, off) ← objLoop str f off []
      .ok (.obj m, off)
    else if value = byte '"' then parseString str off
    else if value = byte 't' ∨ value = byte 'f' then parseBool str off
    else if value = byte 'n' then parseNull str off
    else if isDigit value ∨ value = byte '-' then parseNumber str off
    else .stop (say "Parse: Unknown starting character '" [value])

/-- The loop of `parse_array`, Json.cpp:69-83; the message Json.cpp:80-81. -/
def arrLoop (str : Str) : Nat → Nat → Step (List Value × Nat)
  | 0, _ => .diverge
  | f + 1, off => do
    let (v, off) ← parseNext str f off
    let off ← skip str off
    let c ← strAt str off
    if c = byte ',' then
      let (l, off) ← arrLoop str f (off + 1)
      .ok (v :: l, off)
    else if c = byte ']' then .ok ([v], off + 1)
    else .stop (say "Array: Expected ',' or ']', found '" [c])

/-- The loop of `parse_object`, Json.cpp:29-53; `m` is the object so far; the messages Json.cpp:33-34, 49-50. -/
def objLoop (str : Str) : Nat → Nat → List (Str × Value) → Step (List (Str × Value) × Nat)
  | 0, _, _ => .diverge
  | f + 1, off, m => do
    let (key, off) ← parseNext str f off
    let off ← skip str off
    let c ← strAt str off
    if c ≠ byte ':' then .stop (say "Object: Expected colon, found '" [c]) else
    let off ← skip str (off + 1)
    let (v, off) ← parseNext str f off
    let m := put key.toString v m
    let off ← skip str off
    let c ← strAt str off
    if c = byte ',' then objLoop str f (off + 1) m
    else if c = byte '}' then .ok (m, off + 1)
    else .stop (say "Object: Expected comma, found '" [c])
end

/-- `loadJSON(str)`, Json.cpp:484-487. -/
def loadJSON (str : Str) : Step Value := do
  let (v, _) ← parseNext str (2 * str.length + 3) 0
  .ok v

end Json.Message
