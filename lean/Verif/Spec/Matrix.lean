import Verif.Model.Matrix
import Mathlib.Algebra.BigOperators.Group.Finset.Basic
import Mathlib.Algebra.BigOperators.Ring.Finset

/-! # Specification notions for matrices -/

namespace Matrix.Spec
open Cpp

/-- `A` is an intact `n × m` matrix with entries `f i j`. -/
structure Holds {α : Type} (A : Mat α) (n m : Nat) (f : Nat → Nat → α) : Prop where
  alive : A.alive = true
  row : A.row = n
  col : A.col = m
  entry : ∀ i, i < n → ∀ j, j < m → A.elem i j = f i j

/-- Arithmetic that gives the exact result whenever it gives one. -/
structure Sound {α : Type} [Ring α] (ar : Arith α) : Prop where
  zero : ar.zero = 0
  one : ar.one = 1
  add : ∀ x y z, ar.add x y = .ok z → z = x + y
  sub : ∀ x y z, ar.sub x y = .ok z → z = x - y
  mul : ∀ x y z, ar.mul x y = .ok z → z = x * y

/-- Entry `(i, j)` of the product of `f` and `g` with inner dimension `l`. -/
def dot {α : Type} [Ring α] (l : Nat) (f g : Nat → Nat → α) (i j : Nat) : α :=
  ∑ k ∈ Finset.range l, f i k * g k j

/-- `x` solves the homogeneous system with coefficient matrix `f`. -/
def Solves {α : Type} [Ring α] (n m : Nat) (f : Nat → Nat → α) (x : Nat → α) : Prop :=
  ∀ i, i < n → ∑ j ∈ Finset.range m, f i j * x j = 0

/-- Row echelon form with leading entries 1: the first `k` rows are non-zero, row `i < k` has its leading
entry, a 1, in column `p i`, these columns increase, and the other rows are zero. -/
def Echelon {α : Type} [Ring α] (n m : Nat) (f : Nat → Nat → α) : Prop :=
  ∃ (k : Nat) (p : Nat → Nat), k ≤ n ∧
    (∀ i, i < k → p i < m ∧ f i (p i) = 1 ∧ ∀ j, j < p i → f i j = 0) ∧
    (∀ i i', i < i' → i' < k → p i < p i') ∧
    (∀ i, k ≤ i → i < n → ∀ j, j < m → f i j = 0)

/-- The entries of a concrete matrix, for the examples. -/
def entries {α : Type} (A : Mat α) : List (List α) :=
  (List.range A.row).map fun i => (List.range A.col).map fun j => A.elem i j

end Matrix.Spec
