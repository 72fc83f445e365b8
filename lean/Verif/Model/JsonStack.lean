import Verif.Model.Json

/-! # Model of `loadJSON` on a machine with a stack of limited size

`parse_next`, `parse_array` and `parse_object` (Json.cpp:13-242) call one another.  The functions below are those of
`Model/Json.lean` with one more argument `D`: the number of further calls of `parse_next` that fit on the stack.  A call for
which there is no room is undefined (`ub`); in practice the process is killed.  Only the frames of `parse_next` (each with
the frame of the `parse_array` or `parse_object` that made the call) are counted; the other functions do not recurse. -/

namespace Json
open Cpp

mutual
/-- `parse_next(str, offset)`, Json.cpp:221-242, with the beginnings of `parse_array`, Json.cpp:58-67, and `parse_object`,
Json.cpp:19-27, with room for `D` calls of `parse_next`, this one included. -/
def parseNextD (str : Str) : Nat → Nat → Nat → Out (Value × Nat)
  | 0, _, _ => .diverge
  | _ + 1, 0, _ => .ub
  | f + 1, D + 1, off => do
    let off ← skip str off
    let value ← strAt str off
    if value = byte '[' then
      let off ← skip str (off + 1)
      if (← strAt str off) = byte ']' then .ok (.arr [], off + 1) else
      let (l, off) ← arrLoopD str f D off
      .ok (.arr l, off)
    else if value = byte '{' then
      let off ← skip str (off + 1)
      if (← strAt str off) = byte '}' then .ok (.obj [], off + 1) else
      let (m, off) ← objLoopD str f D off []
      .ok (.obj m, off)
    else if value = byte '"' then parseString str off
    else if value = byte 't' ∨ value = byte 'f' then parseBool str off
    else if value = byte 'n' then parseNull str off
    else if isDigit value ∨ value = byte '-' then parseNumber str off
    else .exit

/-- The loop of `parse_array`, Json.cpp:69-83. -/
def arrLoopD (str : Str) : Nat → Nat → Nat → Out (List Value × Nat)
  | 0, _, _ => .diverge
  | f + 1, D, off => do
    let (v, off) ← parseNextD str f D off
    let off ← skip str off
    let c ← strAt str off
    if c = byte ',' then
      let (l, off) ← arrLoopD str f D (off + 1)
      .ok (v :: l, off)
    else if c = byte ']' then .ok ([v], off + 1)
    else .exit

/-- The loop of `parse_object`, Json.cpp:29-53; `m` is the object so far. -/
def objLoopD (str : Str) : Nat → Nat → Nat → List (Str × Value) → Out (List (Str × Value) × Nat)
  | 0, _, _, _ => .diverge
  | f + 1, D, off, m => do
    let (key, off) ← parseNextD str f D off
    let off ← skip str off
    if (← strAt str off) ≠ byte ':' then .exit else
    let off ← skip str (off + 1)
    let (v, off) ← parseNextD str f D off
    let m := put key.toString v m
    let off ← skip str off
    let c ← strAt str off
    if c = byte ',' then objLoopD str f D (off + 1) m
    else if c = byte '}' then .ok (m, off + 1)
    else .exit
end

/-- `loadJSON(str)`, Json.cpp:484-487, with room for `D` calls of `parse_next`. -/
def loadJSOND (D : Nat) (str : Str) : Out Value := do
  let (v, _) ← parseNextD str (2 * str.length + 3) D 0
  .ok v

end Json
