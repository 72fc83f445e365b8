import Verif.Cpp
import Verif.Model.Double
import Mathlib.Algebra.Order.Field.Rat
import Mathlib.Algebra.BigOperators.Group.List.Basic

/-! # Specification: textbook definitions of mean and variance -/

namespace Stats.Spec

/-- (x₁ + ... + xₙ) / n -/
def mean (xs : List ℚ) : ℚ := xs.sum / xs.length

/-- Σ (xᵢ - μ)² -/
def deviation (xs : List ℚ) : ℚ := (xs.map fun x => (x - mean xs) ^ 2).sum

/-- population variance: Σ (xᵢ - μ)² / n -/
def variance (xs : List ℚ) : ℚ := deviation xs / xs.length

/-- sample variance: Σ (xᵢ - μ)² / (n - 1) -/
def sampleVariance (xs : List ℚ) : ℚ := deviation xs / (xs.length - 1)

end Stats.Spec

namespace Stats
open Cpp

/-- every partial sum of a list is an `int` -/
def PartialSums (xs : List Int) : Prop := ∀ k, k ≤ xs.length → IsInt ((xs.take k).sum)

/-- the `int` values as rationals -/
abbrev cast (xs : List Int) : List ℚ := xs.map fun (x : Int) => (x : ℚ)

/-- a number that is not negative, or infinity -/
def Nonneg (x : Dbl) : Prop := (∃ q : ℚ, 0 ≤ q ∧ x = .fin q) ∨ x = .inf false

end Stats
