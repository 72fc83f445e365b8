import Verif.Model.Json

/-!
# How much text the parts of a JSON value make

Independent of the counters: a value and all values inside it, each with the depth at which it is dumped.
-/

namespace Json.DumpWork.Spec
open Cpp

mutual
/-- A value and all values in it, with their depths. -/
def parts (depth : Int) : Value → List (Int × Value)
  | .arr l => (depth, .arr l) :: partsArr (depth + 1) l
  | .obj m => (depth, .obj m) :: partsObj (depth + 1) m
  | v => [(depth, v)]

/-- The elements of an array. -/
def partsArr (depth : Int) : List Value → List (Int × Value)
  | [] => []
  | v :: l => parts depth v ++ partsArr depth l

/-- The members of an object. -/
def partsObj (depth : Int) : List (Str × Value) → List (Int × Value)
  | [] => []
  | (_, v) :: m => parts depth v ++ partsObj depth m
end

/-- The texts of all parts, one after another: how long they are together. -/
def volume (tab : Str) (depth : Int) (v : Value) : Nat := ((parts depth v).map fun p => (dump tab p.1 p.2).length).sum

/-- The indentations of all parts, of one tab more than the depth: how long they are together. -/
def indents (tab : Str) (depth : Int) (v : Value) : Nat := ((parts depth v).map fun p => (p.1.toNat + 1) * tab.length).sum

mutual
/-- How deep arrays and objects are nested: 0 for other values, 1 for `[]`. -/
def nesting : Value → Nat
  | .arr l => 1 + nestingArr l
  | .obj m => 1 + nestingObj m
  | _ => 0

/-- The deepest element. -/
def nestingArr : List Value → Nat
  | [] => 0
  | v :: l => max (nesting v) (nestingArr l)

/-- The deepest member. -/
def nestingObj : List (Str × Value) → Nat
  | [] => 0
  | (_, v) :: m => max (nesting v) (nestingObj m)
end

/-- The array `[[...[]...]]` with `n` arrays around the innermost one. -/
def arrays : Nat → Value
  | 0 => .arr []
  | n + 1 => .arr [arrays n]

/-- `n` objects around a `null`, each with the key "a". -/
def objects : Nat → Value
  | 0 => .null
  | n + 1 => .obj [(bytes ['a'], objects n)]

end Json.DumpWork.Spec
