import Verif.Model.Json

/-! # Model of writing, copying and destroying a `JSONObject` on a machine with a stack of limited size

`dump`, the copy constructor and the destructor of `JSONObject` call themselves for every element.  The argument `D` is the
number of further nested calls for which there is room on the stack; a call without room is undefined (`ub`), in practice the
process is killed.  Calls of the standard library in between (which do not nest further) are part of the frame. -/

namespace Json
open Cpp

mutual
/-- `dump(depth, tab)`, Json.cpp:429-469, with room for `D` nested calls, this one included. -/
def dumpD (tab : Str) : Nat → Int → Value → Out Str
  | 0, _, _ => .ub
  | _ + 1, _, .null => .ok (bytes ['n', 'u', 'l', 'l'])
  | D + 1, depth, .obj m => do
    let s ← dumpObjD tab D depth m
    .ok (bytes ['{', '\n'] ++ s ++ bytes ['\n'] ++ (padding depth tab).drop 2 ++ bytes ['}'])
  | D + 1, depth, .arr l => do
    let s ← dumpArrD tab D depth l
    .ok (bytes ['['] ++ s ++ bytes [']'])
  | _ + 1, _, .str s => .ok (bytes ['"'] ++ jsonEscape s ++ bytes ['"'])
  | _ + 1, _, .float q => .ok (decFloat q)
  | _ + 1, _, .int i => .ok (decInt i)
  | _ + 1, _, .bool b => .ok (if b then bytes ['t', 'r', 'u', 'e'] else bytes ['f', 'a', 'l', 's', 'e'])

/-- The loop Json.cpp:451-455. -/
def dumpArrD (tab : Str) : Nat → Int → List Value → Out Str
  | _, _, [] => .ok []
  | D, depth, [v] => dumpD tab D (depth + 1) v
  | D, depth, v :: l => do
    let s ← dumpD tab D (depth + 1) v
    let t ← dumpArrD tab D depth l
    .ok (s ++ bytes [',', ' '] ++ t)

/-- The loop Json.cpp:440-444. -/
def dumpObjD (tab : Str) : Nat → Int → List (Str × Value) → Out Str
  | _, _, [] => .ok []
  | D, depth, [(k, v)] => do
    let s ← dumpD tab D (depth + 1) v
    .ok (padding depth tab ++ bytes ['"'] ++ k ++ bytes ['"', ' ', ':', ' '] ++ s)
  | D, depth, (k, v) :: m => do
    let s ← dumpD tab D (depth + 1) v
    let t ← dumpObjD tab D depth m
    .ok (padding depth tab ++ bytes ['"'] ++ k ++ bytes ['"', ' ', ':', ' '] ++ s ++ bytes [',', '\n'] ++ t)
end

mutual
/-- `JSONObject(const JSONObject&)`, Json.cpp:306-323, and the same in `operator=(const JSONObject&)`, Json.cpp:334-352: the
containers are made from ranges, which copies every element; with room for `D` nested copies. -/
def copyD : Nat → Value → Out Value
  | 0, _ => .ub
  | D + 1, .obj m => do .ok (.obj (← copyObjD D m))
  | D + 1, .arr l => do .ok (.arr (← copyArrD D l))
  | _ + 1, .null => .ok .null
  | _ + 1, .str s => .ok (.str s)
  | _ + 1, .float q => .ok (.float q)
  | _ + 1, .int i => .ok (.int i)
  | _ + 1, .bool b => .ok (.bool b)

/-- The range constructor of `std::deque`, Json.cpp:313-314. -/
def copyArrD : Nat → List Value → Out (List Value)
  | _, [] => .ok []
  | D, v :: l => do
    let w ← copyD D v
    .ok (w :: (← copyArrD D l))

/-- The range constructor of `std::map`, Json.cpp:309-310; the keys come in order. -/
def copyObjD : Nat → List (Str × Value) → Out (List (Str × Value))
  | _, [] => .ok []
  | D, (k, v) :: m => do
    let w ← copyD D v
    .ok ((k, w) :: (← copyObjD D m))
end

mutual
/-- `~JSONObject()`, Json.cpp:258, with `clearData`, Json.cpp:291-304: `delete` destroys every element; with room for `D` nested
calls. -/
def destroyD : Nat → Value → Out Unit
  | 0, _ => .ub
  | D + 1, .obj m => destroyObjD D m
  | D + 1, .arr l => destroyArrD D l
  | _ + 1, .null => .ok ()
  | _ + 1, .str _ => .ok ()
  | _ + 1, .float _ => .ok ()
  | _ + 1, .int _ => .ok ()
  | _ + 1, .bool _ => .ok ()

/-- `delete Data.List`, Json.cpp:297. -/
def destroyArrD : Nat → List Value → Out Unit
  | _, [] => .ok ()
  | D, v :: l => do
    destroyD D v
    destroyArrD D l

/-- `delete Data.Map`, Json.cpp:294. -/
def destroyObjD : Nat → List (Str × Value) → Out Unit
  | _, [] => .ok ()
  | D, (_, v) :: m => do
    destroyD D v
    destroyObjD D m
end

end Json
