import Verif.Cpp

/-!
# Model of `sum`, `mean`, `variance`, `stddev`, `sample_variance`, `sample_stddev`

/repo/src/include/math_utils/math_functions.h:57-370 and /repo/src/math_utils/statistics.cpp.

The type `D` of floating point numbers is arbitrary: the theorems use exact rationals and binary64
(`Model/Double.lean`).  Each operation rounds by itself (no contraction into fused multiply-add).
An array is the list of all its elements; reading behind the last is undefined.  A container is the
list of what its iteration yields.  The function given to `sum` has no side effects.
-/

namespace Stats
open Cpp

/-- `arr[i]` -/
def read {T : Type} (arr : List T) (i : Nat) : Out T :=
  match arr[i]? with
  | none => .ub
  | some x => .ok x

/-- The loop `for (int i = 0; i < size; i++)` whose body uses `arr[i]`. -/
def forArr {T S : Type} (arr : List T) (size : Int) (body : S → T → Out S) (s : S) : Out S :=
  (List.range size.toNat).foldlM (fun s i => do
    let x ← read arr i
    body s x) s

variable {D : Type} [Add D] [Sub D] [Mul D] [Div D] [IntCast D]

/-- What the templates use of the element type `T`: the constant 0, `+=`, and the conversion to
`double`. -/
structure Elem (T D : Type) where
  /-- `0` -/
  zero : T
  /-- `+=` -/
  add : T → T → Out T
  /-- conversion to `double` -/
  conv : T → D

/-- Elements of type `int`. -/
def Elem.int : Elem Int D := ⟨0, fun a b => Cpp.int (a + b), fun i => (i : D)⟩

/-- Elements of type `double`. -/
def Elem.double : Elem D D := ⟨((0 : Int) : D), fun a b => .ok (a + b), id⟩

/-! ### Arrays -/

/-- `sum(const ArrType*, int)`, math_functions.h:57-64. -/
def sumArr {T : Type} (e : Elem T D) (arr : List T) (size : Int) : Out T := forArr arr size e.add e.zero

/-- `sum(const ArrType*, int, Function)`, math_functions.h:102-110. -/
def sumFnArr {T A : Type} (e : Elem T D) (fn : A → T) (arr : List A) (size : Int) : Out T :=
  forArr arr size (fun s x => e.add s (fn x)) e.zero

/-- `mean(const Type*, int)`, math_functions.h:143-146. -/
def meanArr {T : Type} (e : Elem T D) (arr : List T) (size : Int) : Out D := do
  let s ← sumArr e arr size
  .ok (e.conv s / (size : D))

/-- `variance(const double*, int)`, statistics.cpp:6-14. -/
def varianceDouble (arr : List D) (size : Int) : Out D := do
  let means ← meanArr .double arr size
  let sum_square ← forArr arr size (fun (s : D) x => .ok (s + (x - means) * (x - means))) ((0 : Int) : D)
  .ok (sum_square / (size : D))

/-- `variance(const int*, int)`, statistics.cpp:16-23; `arr[i] * arr[i]` is a product of `int`s. -/
def varianceInt (arr : List Int) (size : Int) : Out D := do
  let sum_square ← forArr arr size (fun (s : D) x => do
    let p ← int (x * x)
    .ok (s + (p : D))) ((0 : Int) : D)
  let means ← meanArr (D := D) .int arr size
  .ok (sum_square / (size : D) - means * means)

/-- `sample_variance(const double*, int)`, statistics.cpp:32-40, and `sample_variance(const int*, int)`,
statistics.cpp:41-49. -/
def sampleVarianceArr {T : Type} (e : Elem T D) (arr : List T) (size : Int) : Out D := do
  let means ← meanArr e arr size
  let sum_square ← forArr arr size
    (fun (s : D) x => .ok (s + (e.conv x - means) * (e.conv x - means))) ((0 : Int) : D)
  let n ← int (size - 1)
  .ok (sum_square / (n : D))

/-- `stddev(const double*, int)`, statistics.cpp:25-27. -/
def stddevDouble (sqrt : D → D) (arr : List D) (size : Int) : Out D := do
  let v ← varianceDouble arr size
  .ok (sqrt v)

/-- `stddev(const int*, int)`, statistics.cpp:28-30. -/
def stddevInt (sqrt : D → D) (arr : List Int) (size : Int) : Out D := do
  let v ← varianceInt arr size
  .ok (sqrt v)

/-- `sample_stddev(const double*, int)` and `sample_stddev(const int*, int)`, statistics.cpp:51-56. -/
def sampleStddevArr {T : Type} (sqrt : D → D) (e : Elem T D) (arr : List T) (size : Int) : Out D := do
  let v ← sampleVarianceArr e arr size
  .ok (sqrt v)

/-! ### Containers -/

/-- `sum(const Container&)`, math_functions.h:76-83. -/
def sumCont {T : Type} (e : Elem T D) (xs : List T) : Out T := xs.foldlM e.add e.zero

/-- `sum(const Container&, Function)`, math_functions.h:125-134. -/
def sumFnCont {T A : Type} (e : Elem T D) (fn : A → T) (xs : List A) : Out T :=
  xs.foldlM (fun s x => e.add s (fn x)) e.zero

/-- `mean(const Container&)`, math_functions.h:158-161. -/
def meanCont {T : Type} (e : Elem T D) (xs : List T) : Out D := do
  let s ← sumCont e xs
  .ok (e.conv s / ((xs.length : Int) : D))

/-- The loop that `variance` and `sample_variance` of containers share, math_functions.h:214-219. -/
def squaresCont {T : Type} (e : Elem T D) (means : D) (xs : List T) : D :=
  xs.foldl (fun s x => s + (e.conv x - means) * (e.conv x - means)) ((0 : Int) : D)

/-- `variance(Container)`, math_functions.h:212-221. -/
def varianceCont {T : Type} (e : Elem T D) (xs : List T) : Out D := do
  let means ← meanCont e xs
  .ok (squaresCont e means xs / ((xs.length : Int) : D))

/-- `arr.size() - 1`: the standard containers count in `size_t`, those of this library in `int`. -/
def sizeMinusOne (unsigned : Bool) (n : Nat) : Int :=
  if unsigned then ((n : Int) - 1) % 2 ^ 64 else (n : Int) - 1

/-- `sample_variance(const Container&)`, math_functions.h:318-327. -/
def sampleVarianceCont {T : Type} (e : Elem T D) (unsigned : Bool) (xs : List T) : Out D := do
  let means ← meanCont e xs
  .ok (squaresCont e means xs / ((sizeMinusOne unsigned xs.length : Int) : D))

/-- `stddev(Container)`, math_functions.h:264-267. -/
def stddevCont {T : Type} (sqrt : D → D) (e : Elem T D) (xs : List T) : Out D := do
  let v ← varianceCont e xs
  .ok (sqrt v)

/-- `sample_stddev(Container)`, math_functions.h:367-370. -/
def sampleStddevCont {T : Type} (sqrt : D → D) (e : Elem T D) (unsigned : Bool) (xs : List T) : Out D := do
  let v ← sampleVarianceCont e unsigned xs
  .ok (sqrt v)

end Stats
