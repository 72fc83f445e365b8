import Verif.Cpp
import Verif.Model.Double
import Mathlib.Analysis.SpecialFunctions.Trigonometric.Basic
import Mathlib.Analysis.SpecialFunctions.Sqrt

/-!
# Model of /repo/src/include/geometry and /repo/src/geometry/Line.cpp

The type `D` of floating point numbers is arbitrary: exact reals, or binary64 (`Cpp.Dbl`).  A point is
the function giving its coordinates `elem[0] … elem[N - 1]`.  Operators that create a point with
`new` return a copy of it and never free it; the monad `M` counts those objects.
Simplification: printing a point (Point.h:135-139) is in Model/DoubleText.lean; copy constructors and assignments
(Point.h:33-40, Line.cpp:18-31) copy all coordinates and are left out.
-/

namespace Geo
open Cpp

/-- The functions of `<cmath>`, the constants and the comparison `!=` that the code uses. -/
structure Fp (D : Type) where
  /-- `std::fabs` -/
  fabs : D → D
  /-- `sqrt` -/
  sqrt : D → D
  /-- `std::cos` -/
  cos : D → D
  /-- `std::sin` -/
  sin : D → D
  /-- `a != b` -/
  ne : D → D → Bool
  /-- `EPS`, Point.h:11 and Line.cpp:5: 1e-6 -/
  eps : D
  /-- `PI`, Circle.h:9: 3.1415926 -/
  pi : D

/-- Exact arithmetic. -/
noncomputable def Fp.real : Fp ℝ :=
  ⟨fun x => |x|, Real.sqrt, Real.cos, Real.sin, fun a b => decide (a ≠ b), 1 / 10 ^ 6,
    31415926 / 10 ^ 7⟩

/-- binary64 with correctly rounded functions; NaN differs from everything, itself included. -/
noncomputable def Fp.dbl : Fp Dbl where
  fabs
    | .fin q => .fin |q|
    | .inf _ => .inf false
    | .nan => .nan
  sqrt
    | .fin q => if q < 0 then .nan else .round (Real.sqrt (q : ℝ))
    | .inf false => .inf false
    | _ => .nan
  cos
    | .fin q => .round (Real.cos (q : ℝ))
    | _ => .nan
  sin
    | .fin q => .round (Real.sin (q : ℝ))
    | _ => .nan
  ne a b := decide (a ≠ b ∨ a = .nan)
  eps := .round (1 / 10 ^ 6 : ℚ)
  pi := .round (31415926 / 10 ^ 7 : ℚ)

/-- `Point<N>` (`GVector<N>` is the same type), Point.h:13-170: the coordinates. -/
abbrev Point (N : Nat) (D : Type) := Fin N → D

/-- A computation and the number of points allocated with `new` so far (none is ever freed). -/
abbrev M := StateM Nat

variable {D : Type} [Add D] [Sub D] [Mul D] [Div D] [IntCast D] [LT D] [DecidableLT D] {N : Nat}

/-- `Point& ret = *(new Point); …; return ret;`: a copy is returned, the object remains. -/
def fresh (p : Point N D) : M (Point N D) := do
  modify (· + 1)
  pure p

/-- `Point()`, Point.h:16. -/
def zero : Point N D := fun _ => ((0 : Int) : D)

/-- `Point(x, y)`, Point.h:23-26. -/
def mk2 (x y : D) : Point 2 D := ![x, y]

/-- `operator[]` (reading), Point.h:43-45: no check of the index. -/
def get (p : Point N D) (i : Int) : Out D :=
  if h : 0 ≤ i ∧ i < N then .ok (p ⟨i.toNat, by omega⟩) else .ub

/-- `p[i] = x`, Point.h:43. -/
def set (p : Point N D) (i : Int) (x : D) : Out (Point N D) :=
  if h : 0 ≤ i ∧ i < N then .ok (Function.update p ⟨i.toNat, by omega⟩ x) else .ub

/-- `operator+`, Point.h:48-52. -/
def add (p q : Point N D) : M (Point N D) := fresh fun i => p i + q i

/-- `operator-`, Point.h:54-58. -/
def sub (p q : Point N D) : M (Point N D) := fresh fun i => p i - q i

/-- `operator*(double)`, Point.h:77-81, and the version with the operands exchanged, Point.h:83-85. -/
def smul (p : Point N D) (c : D) : M (Point N D) := fresh fun i => p i * c

/-- `operator/(double)`, Point.h:92-96. -/
def sdiv (p : Point N D) (c : D) : M (Point N D) := fresh fun i => p i / c

/-- The argument `Point const& other` of an assignment operator: another point or the point itself. -/
inductive PRef (N : Nat) (D : Type) where
  | other (q : Point N D)
  | self

/-- `other.elem[i]`, while the point itself is `p`. -/
def PRef.at (r : PRef N D) (p : Point N D) (i : Fin N) : D :=
  match r with
  | other q => q i
  | self => p i

/-- The argument `double const& constant` of an assignment operator: a number or a coordinate of the
point itself (`p *= p[0]`). -/
inductive CRef (N : Nat) (D : Type) where
  | val (c : D)
  | elem (i : Fin N)

/-- The value of `constant`, while the point itself is `p`. -/
def CRef.at (r : CRef N D) (p : Point N D) : D :=
  match r with
  | val c => c
  | elem i => p i

/-- `operator+=`, Point.h:60-63. -/
def addAssign (p : Point N D) (o : PRef N D) : Point N D :=
  (List.finRange N).foldl (fun p i => Function.update p i (p i + o.at p i)) p

/-- `operator-=`, Point.h:65-68. -/
def subAssign (p : Point N D) (o : PRef N D) : Point N D :=
  (List.finRange N).foldl (fun p i => Function.update p i (p i - o.at p i)) p

/-- `operator*=`, Point.h:87-90: `constant` is read in every step. -/
def mulAssign (p : Point N D) (c : CRef N D) : Point N D :=
  (List.finRange N).foldl (fun p i => Function.update p i (p i * c.at p)) p

/-- `operator/=`, Point.h:98-101. -/
def divAssign (p : Point N D) (c : CRef N D) : Point N D :=
  (List.finRange N).foldl (fun p i => Function.update p i (p i / c.at p)) p

/-- The dot product: `operator*`, Point.h:71-75, and `dot`, Point.h:141-145. -/
def dot (p q : Point N D) : D :=
  (List.finRange N).foldl (fun ret i => ret + p i * q i) ((0 : Int) : D)

/-- `operator==`, Point.h:103-107. -/
def eq (F : Fp D) (p q : Point N D) : Bool :=
  (List.finRange N).all fun i => !decide (F.eps < F.fabs (p i - q i))

/-- The loop of `<`, `<=`, `>`, `>=`: the first coordinates that differ decide, `dflt` if there are
none.  Point.h:112-114 etc. -/
def cmpLoop (F : Fp D) (rel : D → D → Bool) (dflt : Bool) (p q : Point N D) : List (Fin N) → Bool
  | [] => dflt
  | i :: is => if F.ne (p i) (q i) then rel (p i) (q i) else cmpLoop F rel dflt p q is

/-- `operator<`, Point.h:111-115. -/
def lt (F : Fp D) (p q : Point N D) : Bool :=
  cmpLoop F (fun a b => decide (a < b)) false p q (List.finRange N)

/-- `operator<=`, Point.h:117-121. -/
def le (F : Fp D) (p q : Point N D) : Bool :=
  cmpLoop F (fun a b => decide (a < b)) true p q (List.finRange N)

/-- `operator>`, Point.h:123-127. -/
def gt (F : Fp D) (p q : Point N D) : Bool :=
  cmpLoop F (fun a b => decide (b < a)) false p q (List.finRange N)

/-- `operator>=`, Point.h:129-133. -/
def ge (F : Fp D) (p q : Point N D) : Bool :=
  cmpLoop F (fun a b => decide (b < a)) true p q (List.finRange N)

/-- `cross`, Point.h:148-151. -/
def cross (v w : Point 2 D) : D := v 0 * w 1 - v 1 * w 0

/-- `len`, Point.h:153-157. -/
def len (F : Fp D) (p : Point N D) : D :=
  F.sqrt ((List.finRange N).foldl (fun ret i => ret + p i * p i) ((0 : Int) : D))

/-- `normalize`, Point.h:159-162. -/
def normalize (F : Fp D) (p : Point N D) : Point N D :=
  let l := len F p
  (List.finRange N).foldl (fun p i => Function.update p i (p i / l)) p

/-- `Line`, Line.h:8-25: a point and a direction. -/
structure Line (D : Type) where
  /-- `A` -/
  A : Point 2 D
  /-- `v` -/
  v : Point 2 D

/-- `Line::len`, Line.h:16. -/
def Line.len (F : Fp D) (l : Line D) : D := Geo.len F l.v

/-- `dcmp`, Line.cpp:9-12. -/
def dcmp (F : Fp D) (x : D) : Int :=
  if F.fabs x < F.eps then 0 else if ((0 : Int) : D) < x then 1 else -1

/-- `getIntersection`, Line.cpp:33-37. -/
def getIntersection (l1 l2 : Line D) : M (Point 2 D) := do
  let u ← sub l1.A l2.A
  let t := cross l2.v u / cross l1.v l2.v
  let w ← smul l1.v t
  add l1.A w

/-- `disToLine`, Line.cpp:39-42. -/
def disToLine (F : Fp D) (P : Point 2 D) (l : Line D) : M D := do
  let v1 := l.v
  let v2 ← sub P l.A
  pure (F.fabs (cross v1 v2 / len F v1))

/-- `disToSegment`, Line.cpp:44-52. -/
def disToSegment (F : Fp D) (P : Point 2 D) (l : Line D) : M D := do
  let v1 := l.v
  let v2 ← sub P l.A
  let w ← sub P l.A
  let v3 ← sub w l.v
  if dcmp F (dot v1 v2) < 0 then pure (len F v2)
  else if 0 < dcmp F (dot v1 v3) then pure (len F v3)
  else pure (F.fabs (cross v1 v2 / len F v1))

/-- `Circle`, Circle.h:11-30. -/
structure Circle (D : Type) where
  /-- `O` -/
  O : Point 2 D
  /-- `r` -/
  r : D

/-- The constructors `Circle(r)`, `Circle()`, Circle.h:13-14, with `Point<2>(0, 0)` as centre. -/
def Circle.ofR (r : D) : Circle D := ⟨mk2 ((0 : Int) : D) ((0 : Int) : D), r⟩

/-- `getArea`, Circle.h:19. -/
def Circle.getArea (F : Fp D) (c : Circle D) : D := F.pi * c.r * c.r

/-- `getPerimeter`, Circle.h:21. -/
def Circle.getPerimeter (F : Fp D) (c : Circle D) : D := ((2 : Int) : D) * F.pi * c.r

/-- `getPoint`, Circle.h:23-25. -/
def Circle.getPoint (F : Fp D) (c : Circle D) (rad : D) : M (Point 2 D) :=
  add c.O (mk2 (c.r * F.cos rad) (c.r * F.sin rad))

end Geo
