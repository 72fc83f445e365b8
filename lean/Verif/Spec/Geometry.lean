import Mathlib.Analysis.SpecialFunctions.Sqrt

/-! # Plane geometry over the reals, independent of the model -/

namespace Geo.Spec

/-- Euclidean distance. -/
noncomputable def dist {N : Nat} (p q : Fin N → ℝ) : ℝ := Real.sqrt (∑ i, (p i - q i) ^ 2)

/-- The line through `A` with direction `v`. -/
def line (A v : Fin 2 → ℝ) : Set (Fin 2 → ℝ) := {X | ∃ t : ℝ, ∀ i, X i = A i + t * v i}

/-- The segment from `A` to `A + v`. -/
def segment (A v : Fin 2 → ℝ) : Set (Fin 2 → ℝ) :=
  {X | ∃ t : ℝ, 0 ≤ t ∧ t ≤ 1 ∧ ∀ i, X i = A i + t * v i}

/-- `d` is the distance of `P` from the set `S`: that of a nearest point. -/
def IsDist (S : Set (Fin 2 → ℝ)) (P : Fin 2 → ℝ) (d : ℝ) : Prop :=
  (∃ X ∈ S, dist P X = d) ∧ ∀ X ∈ S, d ≤ dist P X

/-- Two directions are parallel (the zero vector is parallel to everything). -/
def Parallel (v w : Fin 2 → ℝ) : Prop := ∃ a b : ℝ, (a ≠ 0 ∨ b ≠ 0) ∧ ∀ i, a * v i = b * w i

/-- `p` comes before `q` in the lexicographic order. -/
def LexLt {α : Type} [LT α] {N : Nat} (p q : Fin N → α) : Prop :=
  ∃ i, p i < q i ∧ ∀ j < i, p j = q j

end Geo.Spec
