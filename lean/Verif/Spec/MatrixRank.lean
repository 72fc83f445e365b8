import Verif.Spec.Matrix
import Mathlib.LinearAlgebra.Matrix.Rank
import Mathlib.LinearAlgebra.Matrix.Determinant.Basic

/-! # Linear systems, rank and invertibility, for what `reduce` is used for -/

namespace Matrix.Spec

/-- the first `n` rows and `m` columns as a matrix -/
def block {α : Type} (n m : Nat) (f : Nat → Nat → α) : Matrix (Fin n) (Fin m) α := fun i j => f i j

/-- `x` solves the linear system whose equations are the `n` rows: `c` coefficients, then the right-hand side. -/
def SolvesSystem {α : Type} [Ring α] (n c : Nat) (f : Nat → Nat → α) (x : Nat → α) : Prop :=
  ∀ i, i < n → ∑ j ∈ Finset.range c, f i j * x j = f i c

end Matrix.Spec
