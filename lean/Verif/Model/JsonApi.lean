import Verif.Model.Json

/-!
# Model of the access functions of `JSONObject`, /repo/src/json/Json.cpp:244-397, /repo/src/include/json/Json.h:316-336

A `JSONObject` is its value; a reference to an element is a path from the object that holds it.  Sizes are below 2^31.
-/

namespace Json
open Cpp

/-- `setType(Type::Object)`, Json.cpp:260-289: the map, which is new unless there was one. -/
def asObj : Value → List (Str × Value)
  | .obj m => m
  | _ => []

/-- `setType(Type::Array)`, Json.cpp:260-289. -/
def asArr : Value → List Value
  | .arr l => l
  | _ => []

/-- One subscript: `[key]` or `[index]`. -/
inductive Step where
  | key (k : Str)
  | idx (i : Int)
  deriving DecidableEq

/-- The element with a key, `Map->operator[](key)`, which is a new null if there was none. -/
def mapAt (m : List (Str × Value)) (k : Str) : Value := (m.lookup k).getD .null

/-- `v[s1][s2]… = x`: `operator[](key)`, Json.cpp:355-364, `operator[](index)`, Json.cpp:366-370, and at the end an
assignment.  A negative index is passed on as a huge `size_t`. -/
def update (x : Value) : List Step → Value → Out Value
  | [], _ => .ok x
  | .key k :: p, v => do .ok (.obj (put k (← update x p (mapAt (asObj v) k)) (asObj v)))
  | .idx i :: p, v => do
    let l := asArr v
    let l ← (if i ≥ l.length then do .ok (l ++ List.replicate ((← Cpp.int (i + 1)).toNat - l.length) .null) else .ok l)
    if i < 0 then .ub else
    .ok (.arr (l.set i.toNat (← update x p (l.getD i.toNat .null))))

/-- The element a use of the non-const `v[s1][s2]…` (or `at`, Json.cpp:372, 378) refers to. -/
def peek : List Step → Value → Out Value
  | [], v => .ok v
  | .key k :: p, v => peek p (mapAt (asObj v) k)
  | .idx i :: p, v => do
    if i ≥ (asArr v).length then let _ ← Cpp.int (i + 1)
    if i < 0 then .ub else peek p ((asArr v).getD i.toNat .null)

/-- A read access `… = v[s1][s2]…` to a non-const `v`: the element and the object afterwards. -/
def read (p : List Step) (v : Value) : Out (Value × Value) := do
  let e ← peek p v
  .ok (e, ← update e p v)

/-- `at(key) const`, Json.cpp:374-376: the element and the object afterwards.  The pointer `Data.Map` is not that of a
map if the object is of another type. -/
def constAtKey (k : Str) : Value → Out (Value × Value)
  | .obj m => .ok (mapAt m k, if m.lookup k = none then .obj (put k .null m) else .obj m)
  | _ => .ub

/-- How a call of the standard library function `deque::at` ends. -/
inductive AtResult where
  | element (v : Value)
  | out_of_range

/-- `at(index) const`, Json.cpp:380-382: `deque::at` throws `std::out_of_range`. -/
def constAtIdx (i : Nat) : Value → Out AtResult
  | .arr l => .ok (match l[i]? with | some v => .element v | none => .out_of_range)
  | _ => .ub

/-- `append(arg)`, Json.h:316-320. -/
def append (x : Value) (v : Value) : Value := .arr (asArr v ++ [x])

/-- `append(args...)`, Json.h:332-336. -/
def appendAll (xs : List Value) (v : Value) : Value := xs.foldl (fun v x => append x v) v

/-- `JSONObject::Array(args...)`, Json.h:547-551. -/
def array (xs : List Value) : Value := appendAll xs (.arr [])

/-- `length()`, Json.cpp:384-386. -/
def length : Value → Int
  | .arr l => l.length
  | _ => -1

/-- `size()`, Json.cpp:393-397. -/
def size : Value → Int
  | .obj m => m.length
  | .arr l => l.length
  | _ => -1

/-- `hasKey(key)`, Json.cpp:388-391. -/
def hasKey (k : Str) : Value → Bool
  | .obj m => (m.lookup k).isSome
  | _ => false

/-- The loop of the constructor from an initializer list, Json.cpp:248-249: an odd number of elements makes `i` run past
the end. -/
def initGo : List Value → Value → Out Value
  | [], v => .ok v
  | [_], _ => .ub
  | k :: x :: l, v => do initGo l (← update x [.key k.toString] v)

/-- The constructor from an initializer list, Json.cpp:246-250. -/
def initList (l : List Value) : Out Value := initGo l (.obj [])

end Json
