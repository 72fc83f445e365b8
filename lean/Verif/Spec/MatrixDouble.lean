import Verif.Spec.Matrix
import Verif.Model.MatrixDouble

/-! # Specification notions for matrices of doubles -/

namespace Matrix.Spec
open Cpp

/-- Row echelon form with leading entries `o`, for values with a zero `z`: the first `k` rows have their
leading entry in column `p i`, these columns increase, and the other rows are zero. -/
def EchelonOf {α : Type} (z o : α) (n m : Nat) (f : Nat → Nat → α) : Prop :=
  ∃ (k : Nat) (p : Nat → Nat), k ≤ n ∧
    (∀ i, i < k → p i < m ∧ f i (p i) = o ∧ ∀ j, j < p i → f i j = z) ∧
    (∀ i i', i < i' → i' < k → p i < p i') ∧
    (∀ i, k ≤ i → i < n → ∀ j, j < m → f i j = z)

/-- The number is a finite double. -/
def IsDouble (q : ℚ) : Prop := Dbl.round q = .fin q

instance (q : ℚ) : Decidable (IsDouble q) := inferInstanceAs (Decidable (Dbl.round q = .fin q))

/-- The number, if it is a double. -/
def ifDouble (q : ℚ) : Out ℚ := if IsDouble q then .ok q else .ub

/-- Exact arithmetic that stops at the first result that is not a double. -/
def representable : Arith ℚ where
  zero := 0
  one := 1
  add x y := ifDouble (x + y)
  sub x y := ifDouble (x - y)
  mul x y := ifDouble (x * y)
  div x y := if y = 0 then .ub else ifDouble (x / y)

/-- The matrix with every entry converted. -/
def convert {α β : Type} (φ : α → β) (A : Mat α) : Mat β := ⟨A.row, A.col, fun i j => φ (A.elem i j), A.alive⟩

end Matrix.Spec
