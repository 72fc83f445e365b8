import Mathlib.Algebra.Group.Defs

/-! # Specification: products of equal factors in a semigroup -/

namespace MathFns.Spec

/-- `x * x * ... * x` with `n + 1` factors. -/
def iter {S : Type u} [Mul S] (x : S) : Nat → S
  | 0 => x
  | n + 1 => iter x n * x

/-- `g` is a greatest common divisor of `a` and `b` (with respect to divisibility). -/
def IsGcd (g a b : Int) : Prop := g ∣ a ∧ g ∣ b ∧ ∀ d, d ∣ a → d ∣ b → d ∣ g

/-- `m` is a least common multiple of `a` and `b` (with respect to divisibility). -/
def IsLcm (m a b : Int) : Prop := a ∣ m ∧ b ∣ m ∧ ∀ n, a ∣ n → b ∣ n → m ∣ n

end MathFns.Spec
