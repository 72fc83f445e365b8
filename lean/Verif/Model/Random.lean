import Verif.Cpp
import Verif.Model.Double
import Verif.Model.MathFns

/-!
# Model of /repo/src/random: the generator and the discrete samplers

The functions are written for an arbitrary type `D` of floating point numbers with its operations:
`Cpp.Dbl` is IEEE binary64; a linearly ordered field is exact arithmetic.  `std::pow` and `std::exp`
are parameters.

The engine `std::mt19937_64` (a part of the standard library) is any machine that can be seeded with
a 64-bit number and that yields 64-bit numbers; nothing else is assumed about it, so every theorem
holds for all sequences of outputs.  `std::time` and the global generator of random_functions.cpp
(lines 9-17), whose functions only forward, are not modelled.
-/

namespace Rand
open Cpp

/-- A seedable engine with 64-bit outputs, `std::mt19937_64` of Random.h:85. -/
structure Engine where
  /-- the state -/
  σ : Type
  /-- `seed(s)` -/
  seed : Fin (2 ^ 64) → σ
  /-- `operator()` -/
  draw : σ → Fin (2 ^ 64) × σ

/-- Code that uses a generator. -/
abbrev R (E : Engine) := StateT E.σ Out

variable {E : Engine}

/-- `randomGenerator()` -/
def draw : R E Int := fun s => .ok (((E.draw s).1.val : Int), (E.draw s).2)

/-- `std::uint64_t(seed)` for an `int`. -/
def uint64 (i : Int) : Fin (2 ^ 64) := Fin.ofNat _ (i % 2 ^ 64).toNat

/-- `Random(int seed)`, Random.cpp:10. -/
def new (E : Engine) (seed : Int) : E.σ := E.seed (uint64 seed)

/-- `setSeed(seed)`, Random.cpp:41. -/
def setSeed (seed : Int) : R E Unit := fun _ => .ok ((), E.seed (uint64 seed))

/-- `nextInt(min, max)`, Random.cpp:12-15: the difference is an `int` operation, the remainder one
on 64-bit unsigned numbers, the conversion of the remainder to `int` wraps, the sum is an `int`
operation. -/
def nextInt2 (min max : Int) : R E Int := do
  if max ≤ min then StateT.lift .exit else
  let g ← draw
  let d ← StateT.lift (int (max - min))
  StateT.lift (int (toInt (g % d).toNat + min))

/-- `nextInt()`, Random.cpp:17-20: `std::uint64_t(intMax) + 1 - intMin` is computed modulo `2^64`. -/
def nextInt0 : R E Int := do
  let g ← draw
  let d : Int := (INT_MAX + 1 - INT_MIN) % 2 ^ 64
  StateT.lift (int (toInt (g % d).toNat + INT_MIN))

/-- `nextInt(max)`, Random.cpp:22-25. -/
def nextInt1 (max : Int) : R E Int :=
  if max ≤ 0 then StateT.lift .exit else nextInt2 0 max

/-- `nextBool()`, Random.cpp:39. -/
def nextBool : R E Bool := do
  let i ← nextInt1 2
  pure (decide (i ≠ 0))

section
variable {D : Type} [Add D] [Sub D] [Neg D] [Mul D] [Div D] [IntCast D] [LT D] [LE D] [DecidableLT D]
  [DecidableLE D]

/-- `nextDouble(min, max)`, Random.cpp:27-30. -/
def nextDouble2 (min max : D) : R E D := do
  if max < min then StateT.lift .exit else
  let g ← draw
  pure ((g : D) / ((2 ^ 64 - 1 : Int) : D) * (max - min) + min)

/-- `nextDouble(max)`, Random.cpp:32-35. -/
def nextDouble1 (max : D) : R E D :=
  if max < ((0 : Int) : D) then StateT.lift .exit else nextDouble2 ((0 : Int) : D) max

/-- `nextDouble()`, Random.cpp:37. -/
def nextDouble0 : R E D := nextDouble2 ((0 : Int) : D) ((1 : Int) : D)

/-! ### Uniform distributions -/

/-- `UniformDistribution(min, max)` and `next()`, UniformDistribution.cpp:7-17. -/
def uniformInit (min max : D) : Out (D × D) := if max < min then .exit else .ok (min, max)
/-- `UniformDistribution::next()`, UniformDistribution.cpp:15-17. -/
def uniformNext (d : D × D) : R E D := nextDouble2 d.1 d.2

/-- `UniformIntDistribution(min, max)`, UniformIntDistribution.cpp:7-13. -/
def uniformIntInit (min max : Int) : Out (Int × Int) := if min ≥ max then .exit else .ok (min, max)
/-- `UniformIntDistribution::next()`, UniformIntDistribution.cpp:15-17. -/
def uniformIntNext (d : Int × Int) : R E Int := nextInt2 d.1 d.2

/-! ### BernoulliDistribution -/

/-- `BernoulliDistribution(p)`, BernoulliDistribution.cpp:5-10. -/
def bernoulliInit (p : D) : Out D :=
  if p < ((0 : Int) : D) ∨ ((1 : Int) : D) < p then .exit else .ok p

/-- `BernoulliDistribution::next()`, BernoulliDistribution.cpp:11-17. -/
def bernoulliNext (p : D) : R E Bool := do
  let u : D ← nextDouble0
  pure (decide (u < p))

/-! ### BinomialDistribution -/

/-- The members `n_` and `lookup_table` of BinomialDistribution.h:63-65 (`p_` is not used again). -/
structure Binomial (D : Type) where
  n : Int
  table : Arr D

/-- The loop body BinomialDistribution.cpp:19-23; `st` is (`threshold`, `lookup_table`). -/
def binomialStep (pow : D → Nat → D) (n : Nat) (p pc : D) (st : D × Arr D) (i : Nat) :
    Out (D × Arr D) := do
  let b ← MathFns.binomial int n i
  let t := st.1 + (b : D) * pow p i * pow pc (n - i)
  let a ← st.2.set i t
  .ok (t, a)

/-- `BinomialDistribution(n, p)`, BinomialDistribution.cpp:8-25. -/
def binomialInit (pow : D → Nat → D) (n : Int) (p : D) : Out (Binomial D) := do
  if n < 0 ∨ p < ((0 : Int) : D) ∨ ((1 : Int) : D) < p then .exit else
  let size ← int (n + 1)
  let table : Arr D := Arr.new size.toNat
  let pc : D := ((1 : Int) : D) - p
  let (_, table) ← (List.range n.toNat).foldlM (binomialStep pow n.toNat p pc) (((0 : Int) : D), table)
  let table ← table.set n ((1 : Int) : D)
  .ok ⟨n, table⟩

/-- The loop BinomialDistribution.cpp:29-31 from `i` on with `m` rounds left; line 32. -/
def binomialScan (b : Binomial D) (u : D) : Nat → Nat → Out Int
  | 0, _ => .ok b.n
  | m + 1, i => do
    let t ← b.table.get (i : Int)
    if u < t then .ok i else binomialScan b u m (i + 1)

/-- `BinomialDistribution::next()`, BinomialDistribution.cpp:27-33. -/
def binomialNext (b : Binomial D) : R E Int := do
  let u : D ← nextDouble0
  StateT.lift (binomialScan b u b.n.toNat 0)

/-! ### NegativeBinomialDistribution and GeometricDistribution -/

/-- The members of NegativeBinomialDistribution.h:68-71. -/
structure NegBinomial (D : Type) where
  r : Int
  p : D
  pPowr : D

/-- `NegativeBinomialDistribution(r, p)`, NegativeBinomialDistribution.cpp:8-15;
`genericBinaryPow` is that of math_functions.h:409-429. -/
def negBinomialInit (r : Int) (p : D) : Out (NegBinomial D) := do
  if r ≤ 0 ∨ p ≤ ((0 : Int) : D) ∨ ((1 : Int) : D) < p then .exit else
  let q ← MathFns.genericBinaryPow ((1 : Int) : D) (fun x y => .ok (x * y)) p r
  .ok ⟨r, p, q⟩

/-- The loop NegativeBinomialDistribution.cpp:24-29.  The fuel is never used up: `result` overflows
before (`negBinomialLoop_ne_diverge`). -/
def negBinomialLoop (r : Int) (pc u : D) : Nat → Int → D → D → Out Int
  | 0, _, _, _ => .diverge
  | fuel + 1, result, probability, threshold =>
    if threshold ≤ u then do
      let result ← int (result + 1)
      let s ← int (r + result)
      let s ← int (s - 1)
      let probability := probability * (pc * (s : D) / (result : D))
      negBinomialLoop r pc u fuel result probability (threshold + probability)
    else .ok result

/-- `NegativeBinomialDistribution::next()`, NegativeBinomialDistribution.cpp:17-30. -/
def negBinomialNext (b : NegBinomial D) : R E Int := do
  let u : D ← nextDouble0
  StateT.lift (negBinomialLoop b.r (((1 : Int) : D) - b.p) u (2 ^ 31) 0 b.pPowr b.pPowr)

/-- `GeometricDistribution(p)`, GeometricDistribution.h:32-33; `next` is inherited. -/
def geometricInit (p : D) : Out (NegBinomial D) := negBinomialInit 1 p

/-! ### PoissonDistribution -/

/-- The members of PoissonDistribution.h:54-55. -/
structure Poisson (D : Type) where
  lambda : D
  expLambda : D

/-- `PoissonDistribution(lambda)`, PoissonDistribution.cpp:7-13. -/
def poissonInit (exp : D → D) (lambda : D) : Out (Poisson D) :=
  if lambda ≤ ((0 : Int) : D) then .exit else .ok ⟨lambda, exp (-lambda)⟩

/-- The loop PoissonDistribution.cpp:20-25; for the fuel see `negBinomialLoop`. -/
def poissonLoop (lambda u : D) : Nat → Int → D → D → Out Int
  | 0, _, _, _ => .diverge
  | fuel + 1, result, probability, threshold =>
    if threshold ≤ u then do
      let result ← int (result + 1)
      let probability := probability * (lambda / (result : D))
      poissonLoop lambda u fuel result probability (threshold + probability)
    else .ok result

/-- `PoissonDistribution::next()`, PoissonDistribution.cpp:15-26. -/
def poissonNext (b : Poisson D) : R E Int := do
  let u : D ← nextDouble0
  StateT.lift (poissonLoop b.lambda u (2 ^ 31) 0 b.expLambda b.expLambda)

end
end Rand
