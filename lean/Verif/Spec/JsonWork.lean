import Verif.Model.Json

/-!
# What a JSON text contains, and what copying it costs

Independent of the parser: the tree of everything written in a text, with the members of objects that a later member of the
same name replaces.
-/

namespace Json.Work.Spec
open Cpp

mutual
/-- A JSON document as written. -/
inductive Doc
  | null
  | bool (b : Bool)
  | int (i : Int)
  | float (q : ℚ)
  | str (s : Str)
  | arr (l : Items)
  | obj (l : Members)

/-- The elements of an array as written. -/
inductive Items
  | nil
  | cons (d : Doc) (l : Items)

/-- The members of an object as written: key and value. -/
inductive Members
  | nil
  | cons (key val : Doc) (l : Members)
end

mutual
/-- The value of a document. -/
def Doc.value : Doc → Value
  | .null => .null
  | .bool b => .bool b
  | .int i => .int i
  | .float q => .float q
  | .str s => .str s
  | .arr l => .arr l.values
  | .obj l => .obj (l.into [])

/-- The values of the elements. -/
def Items.values : Items → List Value
  | .nil => []
  | .cons d l => d.value :: l.values

/-- The object after the members are assigned one after another. -/
def Members.into : Members → List (Str × Value) → List (Str × Value)
  | .nil, m => m
  | .cons key val l, m => l.into (put key.value.toString val.value m)
end

mutual
/-- The number of values written in a document, keys included. -/
def Doc.parts : Doc → Nat
  | .arr l => 1 + l.parts
  | .obj l => 1 + l.parts
  | _ => 1

/-- The number of values written in the elements of an array. -/
def Items.parts : Items → Nat
  | .nil => 0
  | .cons d l => d.parts + l.parts

/-- The number of values written in the members of an object. -/
def Members.parts : Members → Nat
  | .nil => 0
  | .cons key val l => key.parts + val.parts + l.parts
end

mutual
/-- How deep objects are nested in objects. -/
def Doc.depth : Doc → Nat
  | .arr l => l.depth
  | .obj l => 1 + l.depth
  | _ => 0

/-- The depth of the deepest element. -/
def Items.depth : Items → Nat
  | .nil => 0
  | .cons d l => max d.depth l.depth

/-- The depth of the deepest key or value. -/
def Members.depth : Members → Nat
  | .nil => 0
  | .cons key val l => max (max key.depth val.depth) l.depth
end

mutual
/-- The number of values in a value. -/
def size : Value → Nat
  | .arr l => 1 + sizeArr l
  | .obj m => 1 + sizeObj m
  | _ => 1

/-- The number of values in the elements of an array. -/
def sizeArr : List Value → Nat
  | [] => 0
  | v :: l => size v + sizeArr l

/-- The number of values in the members of an object. -/
def sizeObj : List (Str × Value) → Nat
  | [] => 0
  | (_, v) :: m => size v + sizeObj m
end

mutual
/-- Copies made for a document: one for each `bool`, number and string; and for each member of an object its whole value. -/
def Doc.copies : Doc → Nat
  | .null => 0
  | .arr l => l.copies
  | .obj l => l.copies
  | _ => 1

/-- Copies made for the elements of an array. -/
def Items.copies : Items → Nat
  | .nil => 0
  | .cons d l => d.copies + l.copies

/-- Copies made for the members of an object. -/
def Members.copies : Members → Nat
  | .nil => 0
  | .cons key val l => key.copies + val.copies + size val.value + l.copies
end

end Json.Work.Spec
