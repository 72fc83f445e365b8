import Verif.Model.Random
import Mathlib.Analysis.SpecialFunctions.Pow.Real
import Mathlib.Analysis.SpecialFunctions.Sqrt

/-!
# Model of /repo/src/random: the continuous samplers

As in `Model/Random.lean` the type `D` of floating point numbers is arbitrary.  The functions of
`<cmath>` and the conversion to `int` are the fields of `Libm`.
-/

namespace Rand
open Cpp

/-- The functions of `<cmath>` that the samplers use, `M_E`, and the conversion `(int)x`, which is
undefined if the truncated number is no `int`. -/
structure Libm (D : Type) where
  /-- `std::log` -/
  log : D → D
  /-- `std::exp` -/
  exp : D → D
  /-- `std::sqrt` -/
  sqrt : D → D
  /-- `std::floor` -/
  floor : D → D
  /-- `std::pow` -/
  pow : D → D → D
  /-- `(int)x` -/
  toInt : D → Out Int
  /-- `M_E` -/
  e : D

/-- `(int)x` for a number. -/
def truncInt {K : Type} [Field K] [LinearOrder K] [FloorRing K] (x : K) : Out Int :=
  int (if 0 ≤ x then ⌊x⌋ else ⌈x⌉)

/-- The functions in exact arithmetic.  (`Real.log 0 = 0`: theorems exclude that case.) -/
noncomputable def Libm.real : Libm ℝ :=
  ⟨Real.log, Real.exp, Real.sqrt, fun x => (⌊x⌋ : ℝ), fun x y => x ^ y, truncInt, Real.exp 1⟩

/-- The functions in binary64, correctly rounded; `std::log(0)` is minus infinity. -/
noncomputable def Libm.dbl : Libm Dbl where
  log
    | .fin q => if q = 0 then .inf true else if q < 0 then .nan else .round (Real.log (q : ℝ))
    | .inf false => .inf false
    | _ => .nan
  exp := Dbl.exp
  sqrt
    | .fin q => if q < 0 then .nan else .round (Real.sqrt (q : ℝ))
    | .inf false => .inf false
    | _ => .nan
  floor
    | .fin q => .fin (⌊q⌋ : ℚ)
    | x => x
  pow
    | .fin x, .fin y =>
      if x = 0 then (if y < 0 then .inf false else if y = 0 then .fin 1 else .fin 0)
      else if 0 < x ∨ y = (⌊y⌋ : ℚ) then .round ((x : ℝ) ^ (y : ℝ)) else .nan
    | .fin x, .inf s => if |x| = 1 then .fin 1 else if s = decide (|x| < 1) then .inf false else .fin 0
    | .inf s, .fin y =>
      if y = 0 then .fin 1 else if y < 0 then .fin 0
      else .inf (s && decide (y = (⌊y⌋ : ℚ) ∧ ⌊y⌋ % 2 = 1))
    | .inf _, .inf t => if t then .fin 0 else .inf false
    | .fin x, .nan => if x = 1 then .fin 1 else .nan
    | .nan, .fin y => if y = 0 then .fin 1 else .nan
    | _, _ => .nan
  toInt
    | .fin q => truncInt q
    | _ => .ub
  e := .round (Real.exp 1)

variable {E : Engine} {D : Type} [Add D] [Sub D] [Neg D] [Mul D] [Div D] [IntCast D] [LT D] [LE D]
  [DecidableLT D] [DecidableLE D]

/-! ### GammaDistribution, ExponentialDistribution, ChiSquaredDistribution -/

/-- The members of GammaDistribution.h:61-62. -/
structure Gamma (D : Type) where
  /-- `k_` -/
  k : D
  /-- `theta_` -/
  theta : D

/-- `GammaDistribution(k, theta)`, GammaDistribution.cpp:11-17. -/
def gammaInit (k theta : D) : Out (Gamma D) :=
  if k ≤ ((0 : Int) : D) ∨ theta ≤ ((0 : Int) : D) then .exit else .ok ⟨k, theta⟩

/-- `ExponentialDistribution(lambda)`, ExponentialDistribution.h:31-32; `next` is inherited. -/
def exponentialInit (lambda : D) : Out (Gamma D) := gammaInit ((1 : Int) : D) (((1 : Int) : D) / lambda)

/-- `ChiSquaredDistribution(r)`, ChiSquaredDistribution.h:28; `next` is inherited. -/
def chiSquaredInit (r : D) : Out (Gamma D) := gammaInit (r / ((2 : Int) : D)) ((2 : Int) : D)

/-- `1 - randomGenerator->nextDouble()` -/
def oneMinus : R E D := do
  let u : D ← nextDouble0
  pure (((1 : Int) : D) - u)

/-- The loop GammaDistribution.cpp:21-24 for `n` rounds. -/
def gammaSum (m : Libm D) : Nat → D → R E D
  | 0, s => pure s
  | n + 1, s => do
    let rnd ← oneMinus
    gammaSum m n (s + m.log rnd)

/-- The acceptance-rejection loop GammaDistribution.cpp:37-48; `fuel` bounds the rounds. -/
def gammaReject (m : Libm D) (delta : D) : Nat → R E D
  | 0 => StateT.lift .diverge
  | fuel + 1 => do
    let one : D := ((1 : Int) : D)
    let u ← oneMinus
    let v ← oneMinus
    let w ← oneMinus
    let (ksi, ita) := if u ≤ m.e / (m.e + delta) then
        (m.pow v (one / delta), w * m.pow (m.pow v (one / delta)) (delta - one))
      else (one - m.log v, w * m.exp (-(one - m.log v)))
    if m.pow ksi (delta - one) * m.exp (-ksi) < ita then gammaReject m delta fuel else pure ksi

/-- `GammaDistribution::next()`, GammaDistribution.cpp:19-51 (`==` is `≤` and `≥`). -/
def gammaNext (m : Libm D) (fuel : Nat) (d : Gamma D) : R E D := do
  let n ← StateT.lift (m.toInt d.k)
  let sum ← gammaSum m n.toNat ((0 : Int) : D)
  let delta := d.k - m.floor d.k
  if delta ≤ ((0 : Int) : D) ∧ ((0 : Int) : D) ≤ delta then
    pure (d.theta * -sum)
  else
    let ksi ← gammaReject m delta fuel
    pure (d.theta * (ksi - sum))

/-! ### NormalDistribution -/

/-- The members of NormalDistribution.h:65-68; `spareResult` has no value at first. -/
structure Normal (D : Type) where
  /-- `mean_` -/
  mean : D
  /-- `stddev_` -/
  stddev : D
  /-- `spareResult` -/
  spareResult : Option D
  /-- `hasSpare` -/
  hasSpare : Bool

/-- `NormalDistribution(mean, stddev)`, NormalDistribution.cpp:7-13. -/
def normalInit (mean stddev : D) : Out (Normal D) :=
  if stddev ≤ ((0 : Int) : D) then .exit else .ok ⟨mean, stddev, none, false⟩

/-- The loop NormalDistribution.cpp:25-32: the accepted `u`, `v` and their `sum`; `fuel` bounds the
rounds. -/
def normalReject : Nat → R E (D × D × D)
  | 0 => StateT.lift .diverge
  | fuel + 1 => do
    let u : D ← nextDouble2 (-((1 : Int) : D)) ((1 : Int) : D)
    let v : D ← nextDouble2 (-((1 : Int) : D)) ((1 : Int) : D)
    let sum := u * u + v * v
    if (sum ≤ ((0 : Int) : D) ∧ ((0 : Int) : D) ≤ sum) ∨ ((1 : Int) : D) < sum then normalReject fuel
    else pure (u, v, sum)

/-- `NormalDistribution::next()`, NormalDistribution.cpp:15-39: the result and the new object. -/
def normalNext (m : Libm D) (fuel : Nat) (d : Normal D) : R E (D × Normal D) :=
  if d.hasSpare then
    match d.spareResult with
    | none => StateT.lift .ub
    | some x => pure (x * d.stddev + d.mean, { d with hasSpare := false })
  else do
    let (u, v, sum) ← normalReject fuel
    let result := m.sqrt (-((2 : Int) : D) * m.log sum / sum)
    pure (u * result * d.stddev + d.mean, { d with spareResult := some (v * result), hasSpare := true })

/-! ### StudentTDistribution -/

/-- `StudentTDistribution(r)`, StudentTDistribution.cpp:10-15. -/
def studentTInit (r : D) : Out D := if r ≤ ((0 : Int) : D) then .exit else .ok r

/-- `StudentTDistribution::next()`, StudentTDistribution.cpp:17-21.  The order in which the two
operands of `*` are evaluated is unspecified: `left` says that the left one comes first. -/
def studentTNext (m : Libm D) (fuel : Nat) (left : Bool) (r : D) : R E D := do
  let normal ← StateT.lift (normalInit ((0 : Int) : D) ((1 : Int) : D))
  let chi2 ← StateT.lift (chiSquaredInit r)
  if left then
    let (x, _) ← normalNext m fuel normal
    let y ← gammaNext m fuel chi2
    pure (x * m.sqrt (r / y))
  else
    let y ← gammaNext m fuel chi2
    let (x, _) ← normalNext m fuel normal
    pure (x * m.sqrt (r / y))

end Rand
