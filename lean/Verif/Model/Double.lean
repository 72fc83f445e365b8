import Mathlib.Data.Int.Log
import Mathlib.Algebra.Order.Floor.Ring
import Mathlib.Data.Rat.Floor
import Mathlib.Analysis.SpecialFunctions.Exp

/-!
# IEEE 754 binary64 arithmetic

The type `double` of the code under /repo/src/random (e.g. Random.cpp:27-37): finite values, the two
infinities and NaN, round to nearest with ties to even, gradual underflow.  Not a transcription of a
file of the repository.
Simplification: the two zeros are not distinguished (division by zero takes the sign of the dividend).
-/

namespace Cpp

section
variable {K : Type} [Field K] [LinearOrder K] [FloorRing K]

/-- Rounding to the nearest integer, ties to even. -/
def roundTiesEven (x : K) : Int :=
  let n := ⌊x⌋
  if x - n < 1 / 2 then n else if 1 / 2 < x - n then n + 1 else if n % 2 = 0 then n else n + 1

/-- Exponent of the last bit of the significand of a double close to `x > 0`: 53 significant bits,
but no bit below `2^-1074`. -/
def lastBit (x : K) : Int := max (Int.log 2 x - 52) (-1074)

/-- A non-negative number rounded to 53 significant bits. -/
def flPos (x : K) : ℚ := roundTiesEven (x / 2 ^ lastBit x) * 2 ^ lastBit x

/-- A number rounded to 53 significant bits. -/
def fl (x : K) : ℚ := if x < 0 then -flPos (-x) else flPos x

end

/-- The values of type `double` (one zero, one NaN). -/
inductive Dbl where
  | nan
  | inf (neg : Bool)
  | fin (q : ℚ)
  deriving DecidableEq

namespace Dbl

/-- The double nearest to a number; infinite from `2^1024` on. -/
def round {K : Type} [Field K] [LinearOrder K] [FloorRing K] (x : K) : Dbl :=
  if 2 ^ 1024 ≤ |fl x| then .inf (decide (x < 0)) else .fin (fl x)

/-- `a + b` -/
def add : Dbl → Dbl → Dbl
  | fin a, fin b => round (a + b)
  | inf s, fin _ => inf s
  | fin _, inf s => inf s
  | inf s, inf t => if s = t then inf s else nan
  | _, _ => nan

/-- `-a` -/
def neg : Dbl → Dbl
  | fin a => fin (-a)
  | inf s => inf !s
  | nan => nan

/-- `a * b` -/
def mul : Dbl → Dbl → Dbl
  | fin a, fin b => round (a * b)
  | inf s, fin b => if b = 0 then nan else inf (s ^^ decide (b < 0))
  | fin a, inf t => if a = 0 then nan else inf (decide (a < 0) ^^ t)
  | inf s, inf t => inf (s ^^ t)
  | _, _ => nan

/-- `a / b` -/
def div : Dbl → Dbl → Dbl
  | fin a, fin b => if b = 0 then (if a = 0 then nan else inf (decide (a < 0))) else round (a / b)
  | inf s, fin b => inf (s ^^ decide (b < 0))
  | fin _, inf _ => fin 0
  | _, _ => nan

/-- `a < b` -/
def lt : Dbl → Dbl → Bool
  | fin a, fin b => a < b
  | inf s, fin _ => s
  | fin _, inf t => !t
  | inf s, inf t => s && !t
  | _, _ => false

/-- `a <= b` -/
def le : Dbl → Dbl → Bool
  | fin a, fin b => a ≤ b
  | inf s, fin _ => s
  | fin _, inf t => !t
  | inf s, inf t => s || !t
  | _, _ => false

instance : Add Dbl := ⟨add⟩
instance : Neg Dbl := ⟨neg⟩
instance : Sub Dbl := ⟨fun a b => add a (neg b)⟩
instance : Mul Dbl := ⟨mul⟩
instance : Div Dbl := ⟨div⟩
instance : LT Dbl := ⟨fun a b => lt a b = true⟩
instance : LE Dbl := ⟨fun a b => le a b = true⟩
instance : DecidableLT Dbl := fun a b => inferInstanceAs (Decidable (lt a b = true))
instance : DecidableLE Dbl := fun a b => inferInstanceAs (Decidable (le a b = true))
/-- Conversion of an integer to `double`. -/
instance : IntCast Dbl := ⟨fun i => round (i : ℚ)⟩

/-- `std::pow(x, (double)n)` for a finite `x`, correctly rounded. -/
def pow : Dbl → Nat → Dbl
  | fin q, n => round (q ^ n)
  | x, n => if n = 0 then round (1 : ℚ) else (List.range (n - 1)).foldl (fun y _ => mul y x) x

/-- `std::exp`, correctly rounded. -/
noncomputable def exp : Dbl → Dbl
  | fin q => round (Real.exp q)
  | inf false => inf false
  | inf true => fin 0
  | nan => nan

end Dbl
end Cpp
