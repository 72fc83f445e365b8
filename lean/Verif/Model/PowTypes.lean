import Verif.Model.MathFns
import Verif.Model.Fraction
import Verif.Model.MatrixHeap
import Verif.Model.Double

/-!
# Model of `genericBinaryPow`, /repo/src/include/math_utils/math_functions.h:409-429, for `Fraction`, `double` and `Matrix`

All three types are constructible from `int`, so the overload of lines 432-450 is not chosen.
-/

namespace PowTypes
open Cpp

/-- `genericBinaryPow(f, exp)` for a `Fraction`, math_functions.h:409-429; `*=` is Fraction.h:78-82 and `BaseType{1}` is the
constructor of Fraction.h:16-17. -/
def fraction (f : Fraction.Frac) (exp : Int) : Out Fraction.Frac := do
  if exp = 0 then Fraction.ofInt 1
  else MathFns.genericBinaryPow f Fraction.mulAssign f exp

/-- `genericBinaryPow(x, exp)` for a `double`, math_functions.h:409-429. -/
def double (x : Dbl) (exp : Int) : Out Dbl := MathFns.genericBinaryPow (.fin 1) (fun a b => .ok (a * b)) x exp

open Matrix Matrix.Mem in
/-- The loop, math_functions.h:421-427, for matrices in memory; `*=` is Matrix.h:80-90. -/
def matrixLoop {α : Type} (ar : Arith α) (result base : Obj) (h : Heap α) (exp : Nat) : Out (Obj × Obj × Heap α) :=
  if exp = 0 then .ok (result, base, h) else do
    let (result, h) ← (if exp % 2 = 1 then timesAssign ar h result base else .ok (result, h))
    let (base, h) ← timesAssign ar h base base
    matrixLoop ar result base h (exp / 2)
termination_by exp

open Matrix Matrix.Mem in
/-- `genericBinaryPow(x, exp)` for a `Matrix` in memory, math_functions.h:409-429: the parameter is a copy of `x`, destroyed at
the end; `BaseType{1}` is `Matrix(1)`, Matrix.h:18; `return base;` copies (Matrix.h:38: there is no move constructor); the copy of
`return result;` is elided. -/
def matrix {α : Type} (ar : Arith α) (h : Heap α) (x : Obj) (exp : Int) : Out (Obj × Heap α) := do
  let (base, h) ← deepCopy h x
  if exp = 0 then
    let (r, h) ← make ar h 1 1
    let h ← clear h base
    .ok (r, h)
  else if exp = 1 then
    let (r, h) ← deepCopy h base
    let h ← clear h base
    .ok (r, h)
  else if exp < 0 then .exit
  else
    let (result, h) ← deepCopy h base
    let (result, base, h) ← matrixLoop ar result base h (exp - 1).toNat
    let h ← clear h base
    .ok (result, h)

end PowTypes
