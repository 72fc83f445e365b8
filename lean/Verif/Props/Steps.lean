import Verif.Proof.Steps

/-! # Property C130: `gcd` and the powers take few steps -/

namespace MathFns
open Cpp

/-- **C130**, `gcd`: if `|b|` is less than the Fibonacci number of index `2k + 2`, the condition of the loop is evaluated
at most `k` times. -/
theorem C130_gcd_fib (k : Nat) (a b : Int) (hb : b ≠ 0) (h : b.natAbs < Nat.fib (2 * k + 2)) :
    gcd a b = gcdRounds k a b := by
  unfold gcd
  rw [if_pos hb]
  rcases gcdRounds_eq k a b with h' | h'
  · have := (gcdRounds_fib k a b hb h').1
    omega
  · exact h'.symm

example : gcd 1000000 54 = gcdRounds 4 1000000 54 := C130_gcd_fib 4 _ _ (by decide) (by decide)

/-- **C130**, `gcd`: 23 evaluations of the condition are enough for any two `int`s. -/
theorem C130_gcd (a b : Int) (h : IsInt b) (hb : b ≠ 0) : gcd a b = gcdRounds 23 a b := by
  refine C130_gcd_fib 23 a b hb ?_
  have h1 := natAbs_le_of_isInt h
  have h2 : Nat.fib (2 * 23 + 2) = 4807526976 := by decide +kernel
  omega

example : gcd 1134903170 1836311903 = gcdRounds 23 1134903170 1836311903 := C130_gcd _ _ (by decide) (by decide)

/-- **C130**, `gcd`: some pairs of `int`s need all of them. -/
theorem C130_gcd_sharp : gcdRounds 22 1134903170 1836311903 = .diverge ∧ gcdRounds 23 1134903170 1836311903 = .ok 1 := by
  decide +kernel

/-- **C130**, powers: `genericBinaryPow(x, e)` depends on at most two products for each binary digit of `e - 1`: if
another multiplication gives the same for these products, it gives the same power. -/
theorem C130_pow (mul : α → α → Out α) (one x : α) (e : Int) : ∃ L : List (α × α), L.length ≤ 2 * (e - 1).toNat.size ∧
    ∀ mul' : α → α → Out α, (∀ p ∈ L, mul' p.1 p.2 = mul p.1 p.2) →
      genericBinaryPow one mul' x e = genericBinaryPow one mul x e ∧
      genericBinaryPow' mul' x e = genericBinaryPow' mul x e := by
  obtain ⟨L, hL, h⟩ := genericLoop_queries mul (e - 1).toNat x x
  refine ⟨L, hL, fun mul' hm => ?_⟩
  unfold genericBinaryPow genericBinaryPow'
  rw [h mul' hm]
  exact ⟨rfl, rfl⟩

example : ∃ L : List (Int × Int), L.length ≤ 20 ∧ ∀ mul' : Int → Int → Out Int,
    (∀ p ∈ L, mul' p.1 p.2 = .ok (p.1 * p.2)) → genericBinaryPow 1 mul' 2 1000 = .ok (2 ^ 1000) := by
  obtain ⟨L, hL, h⟩ := C130_pow (fun x y : Int => .ok (x * y)) 1 2 1000
  refine ⟨L, le_trans hL (by decide +kernel), fun mul' hm => ?_⟩
  rw [(h mul' hm).1]
  decide +kernel

/-- **C130**, powers: 62 products at most, whatever the exponent. -/
theorem C130_pow_int (mul : α → α → Out α) (one x : α) (e : Int) (he : IsInt e) : ∃ L : List (α × α), L.length ≤ 62 ∧
    ∀ mul' : α → α → Out α, (∀ p ∈ L, mul' p.1 p.2 = mul p.1 p.2) →
      genericBinaryPow one mul' x e = genericBinaryPow one mul x e ∧
      genericBinaryPow' mul' x e = genericBinaryPow' mul x e := by
  obtain ⟨L, hL, h⟩ := C130_pow mul one x e
  refine ⟨L, le_trans hL ?_, h⟩
  have : (e - 1).toNat.size ≤ 31 := by
    rw [Nat.size_le]
    unfold IsInt INT_MIN INT_MAX at he
    omega
  omega

example : IsInt INT_MAX := by decide

end MathFns
