import Verif.Model.BigNum

/-!
# Model of the index operators of `BigNum`, /repo/src/include/math_utils/BigNum.h:60-62
-/

namespace BigNum
open Cpp

/-- `int operator[](const int index) const`, BigNum.h:62, and reading through the reference that line 60 returns:
`elem[index]` without a check.  An index outside the array and a cell without a value are undefined. -/
def digitAt (b : Big) (i : Int) : Out Int := b.elem.get i

/-- `b[i] = d` through the reference that `int& operator[](const int index)` returns, BigNum.h:60: only the cell is
written; `len` stays as it is. -/
def setAt (b : Big) (i d : Int) : Out Big := do
  let e ← b.elem.set i d
  .ok { b with elem := e }

/-- A caller that makes the assignments `b[i] = d` of a list one after the other (BigNum.h:60 each time). -/
def setAll (b : Big) : List (Int × Int) → Out Big
  | [] => .ok b
  | (i, d) :: ws => do setAll (← setAt b i d) ws

end BigNum
