import Verif.Model.Random
import Mathlib.Data.Rat.Floor
import Mathlib.Data.Nat.Choose.Basic
import Mathlib.Algebra.BigOperators.Group.Finset.Basic
import Mathlib.Data.Finset.Card
import Mathlib.Data.Fintype.Basic
import Mathlib.Analysis.SpecialFunctions.Pow.Real

/-! # Specification of the random part: doubles and distribution functions -/

namespace Rand.Spec
open Cpp

/-- The finite binary64 numbers: 53 bits, exponents from -1074 to 971. -/
def IsDouble (q : ℚ) : Prop :=
  ∃ m k : Int, |m| < 2 ^ 53 ∧ -1074 ≤ k ∧ k ≤ 971 ∧ q = m * 2 ^ k

open Finset in
/-- Cumulative distribution function of the binomial distribution: at most `k` successes in `n`
independent trials which succeed with probability `p`. -/
noncomputable def binomialCdf {K : Type} [Field K] (n : Nat) (p : K) (k : Nat) : K :=
  ∑ i ∈ range (k + 1), (n.choose i : K) * p ^ i * (1 - p) ^ (n - i)

open Finset in
/-- Cumulative distribution function of the negative binomial distribution: at most `k` failures
before the `r`-th success. -/
noncomputable def negBinomialCdf {K : Type} [Field K] (r : Nat) (p : K) (k : Nat) : K :=
  ∑ i ∈ range (k + 1), ((i + r - 1).choose (r - 1) : K) * p ^ r * (1 - p) ^ i

open Finset in
/-- Cumulative distribution function of the Poisson distribution. -/
noncomputable def poissonCdf (lambda : ℝ) (k : Nat) : ℝ :=
  ∑ i ∈ range (k + 1), lambda ^ i * Real.exp (-lambda) / (i.factorial : ℝ)

/-- `k` is the least number with `u < F k`: the value of the inverse of the distribution function
`F` at `u`. -/
def IsQuantile {K : Type} [LT K] (F : Nat → K) (u : K) (k : Nat) : Prop :=
  u < F k ∧ ∀ j < k, ¬ u < F j

/-- The state of the engine after `i` outputs. -/
def stateAt (E : Engine) (s : E.σ) (i : Nat) : E.σ := (fun s => (E.draw s).2)^[i] s

/-- The output number `i` (from 0) of the engine. -/
def outAt (E : Engine) (s : E.σ) (i : Nat) : Nat := (E.draw (stateAt E s i)).1.val

/-- The output number `i` scaled to the unit interval. -/
noncomputable def unitAt (E : Engine) (s : E.σ) (i : Nat) : ℝ := (outAt E s i : ℝ) / (2 ^ 64 - 1)

/-- What is used of `std::log` on `double`: minus infinity at 0; on `[2^-53, 1]` finite, from -64 to
0. -/
def LogOk (log : Dbl → Dbl) : Prop :=
  log (Dbl.fin 0) = Dbl.inf true ∧
  ∀ x : ℚ, 2 ^ (-53 : Int) ≤ x → x ≤ 1 → ∃ y : ℚ, log (Dbl.fin x) = Dbl.fin y ∧ -64 ≤ y ∧ y ≤ 0

/-- The candidate of the method of Ahrens and Dieter for the numbers `u`, `v` in `(0, 1]`: a sample
from the density `(delta e / (e + delta)) * (if x ≤ 1 then x^(delta - 1) else e^(-x))`. -/
noncomputable def adCandidate (delta u v : ℝ) : ℝ :=
  if u ≤ Real.exp 1 / (Real.exp 1 + delta) then v ^ (1 / delta) else 1 - Real.log v

/-- The candidate is accepted with the probability (over `w` in `(0, 1]`) by which
`x^(delta - 1) * e^(-x)` is less than that density (up to the constant factor). -/
noncomputable def adAccepts (delta u v w : ℝ) : Prop :=
  w ≤ if u ≤ Real.exp 1 / (Real.exp 1 + delta) then Real.exp (-adCandidate delta u v)
    else adCandidate delta u v ^ (delta - 1)

end Rand.Spec
