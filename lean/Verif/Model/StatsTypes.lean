import Verif.Model.Stats
import Verif.Model.FactTypes

/-!
# Model of `sum`, `mean`, `variance` and `sample_variance` for elements of any integer type and of `bool`,
/repo/src/include/math_utils/math_functions.h:57-64, 76-83, 143-161, 212-221, 318-327

The functions themselves are those of `Model/Stats.lean`, which are generic in the element type; here are the element types the
documentation allows ("an arithmetic type (e.g. `int`, `short`, …)") besides `int` and `double`.
-/

namespace Stats
open Cpp GcdTypes

/-- Elements of the integer type `t`: `Type sum = 0` and `sum += arr[i]` (math_functions.h:59-62 and 77-80) compute in the promoted
type and store in `t`; `(double)sum` (math_functions.h:145 and 160) is exact in exact numbers. -/
def Elem.ofType {D : Type} [IntCast D] (t : ITy) : Elem Int D :=
  ⟨0, fun a b => FactTypes.store t (a + b), fun i => (i : D)⟩

/-- Elements of type `bool`: `sum += i` (math_functions.h:61 and 79) adds two `int`s that are 0 or 1 and stores whether the result
is not 0; `(double)sum` (math_functions.h:145 and 160) is 0 or 1. -/
def Elem.bool {D : Type} [IntCast D] : Elem Bool D :=
  ⟨false, fun a b => .ok (decide (((if a then 1 else 0 : Int) + (if b then 1 else 0)) ≠ 0)), fun b => (((if b then 1 else 0 : Int)) : D)⟩

end Stats
