import Verif.Model.Json

/-! # How many values are in each other -/

namespace Json.Spec

mutual
/-- The length of the longest chain of values, each an element or a member of the one before; 1 for a value without elements. -/
def levels : Value → Nat
  | .arr l => 1 + levelsArr l
  | .obj m => 1 + levelsObj m
  | _ => 1

/-- The longest chain in an array. -/
def levelsArr : List Value → Nat
  | [] => 0
  | v :: l => max (levels v) (levelsArr l)

/-- The longest chain in an object. -/
def levelsObj : List (Cpp.Str × Value) → Nat
  | [] => 0
  | (_, v) :: m => max (levels v) (levelsObj m)
end

end Json.Spec
