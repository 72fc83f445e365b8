import Verif.Proof.Gcd
import Verif.Proof.Pow
import Verif.Proof.Count
import Verif.Spec.MathFns
import Mathlib.Data.Finset.Powerset
import Mathlib.Tactic.NormNum.NatFactorial

/-! # Properties C12, C13, C25, C26, C27: integer functions -/

namespace MathFns
open Cpp

/-! ### gcd -/

/-- C12: for all `int` arguments other than the two pairs of `C12_undefined`, `gcd` returns a greatest
common divisor; it is non-negative if both arguments are. -/
theorem C12_gcd (a b : Int) (ha : IsInt a) (hb : IsInt b)
    (h1 : ¬ (a = INT_MIN ∧ b = -1)) (h2 : ¬ (a = -1 ∧ b = INT_MIN)) :
    ∃ g, gcd a b = .ok g ∧ Spec.IsGcd g a b ∧ (0 ≤ a → 0 ≤ b → 0 ≤ g) := by
  obtain ⟨g, e, _, hg, hp⟩ := gcd_spec a b ha hb h1 h2
  refine ⟨g, e, ⟨?_, ?_, ?_⟩, hp⟩
  · rw [← Int.natAbs_dvd, hg]; exact Int.gcd_dvd_left ..
  · rw [← Int.natAbs_dvd, hg]; exact Int.gcd_dvd_right ..
  · intro d h h'
    rw [← Int.dvd_natAbs, hg]; exact Int.dvd_coe_gcd h h'

example : IsInt 84 ∧ IsInt 30 ∧ ¬ ((84 : Int) = INT_MIN ∧ (30 : Int) = -1) ∧
    ¬ ((84 : Int) = -1 ∧ (30 : Int) = INT_MIN) := by decide
example : gcd 84 30 = .ok 6 := by decide +kernel
-- the sign is not normalised
example : gcd 4 (-6) = .ok (-2) := by decide +kernel

/-- C12: for non-negative arguments the result is the usual gcd; in particular `gcd(0, 0) = 0`. -/
theorem C12_gcd_nonneg (a b : Nat) (ha : IsInt a) (hb : IsInt b) :
    gcd a b = .ok (Nat.gcd a b) := by
  obtain ⟨g, e, _, hg, hp⟩ := gcd_spec a b ha hb (by omega) (by omega)
  have := hp (by omega) (by omega)
  rw [e]
  have h2 : Int.gcd (a : Int) (b : Int) = Nat.gcd a b := by simp
  rw [h2] at hg
  congr 1; omega

example : IsInt (252 : Nat) ∧ IsInt (105 : Nat) := by decide
example : gcd 252 105 = .ok 21 ∧ gcd 0 7 = .ok 7 ∧ gcd 0 0 = .ok 0 := by decide +kernel

/-- C12 fails for two argument pairs: `gcd(INT_MIN, -1)` and `gcd(-1, INT_MIN)` overflow. -/
theorem C12_gcd_refuted : gcd INT_MIN (-1) = .ub ∧ gcd (-1) INT_MIN = .ub := by decide +kernel

/-! ### lcm -/

/-- C13: if the product fits, `lcm` of non-negative arguments, not both 0, is the least common multiple. -/
theorem C13_lcm (a b : Nat) (h0 : ¬ (a = 0 ∧ b = 0)) (ha : IsInt a) (hb : IsInt b)
    (h : IsInt ((a : Int) * b)) :
    ∃ m : Int, lcm a b = .ok m ∧ 0 ≤ m ∧ Spec.IsLcm m a b := by
  have hg := C12_gcd_nonneg a b ha hb
  have hg0 : Nat.gcd a b ≠ 0 := by
    intro h; exact h0 (Nat.gcd_eq_zero_iff.mp h)
  have e : lcm a b = .ok (Nat.lcm a b) := by
    unfold lcm
    rw [int_ok h, Out.ok_bind, hg, Out.ok_bind, quot, if_neg (by exact_mod_cast hg0),
      if_neg (by rintro ⟨_, h⟩; omega), ← Int.natCast_mul, ← Int.ofNat_tdiv]
    rfl
  refine ⟨_, e, by omega, ?_, ?_, ?_⟩
  · exact_mod_cast Nat.dvd_lcm_left a b
  · exact_mod_cast Nat.dvd_lcm_right a b
  · intro n h1 h2
    exact Int.natCast_dvd.mpr (Nat.lcm_dvd (Int.natCast_dvd.mp h1) (Int.natCast_dvd.mp h2))

example : ¬ ((4 : Nat) = 0 ∧ (6 : Nat) = 0) ∧ IsInt (4 : Nat) ∧ IsInt (6 : Nat) ∧
    IsInt (((4 : Nat) : Int) * (6 : Nat)) := by decide
example : lcm 4 6 = .ok 12 ∧ lcm 0 6 = .ok 0 := by decide +kernel

/-- C13: `lcm(0, 0)` divides by zero. -/
theorem C13_lcm_zero : lcm 0 0 = .ub := by decide +kernel

/-- C13: an overflowing product is undefined even if the lcm itself fits. -/
theorem C13_lcm_overflow (a b : Int) (h : ¬ IsInt (a * b)) : lcm a b = .ub := by
  unfold lcm int; rw [if_neg h]; rfl

example : ¬ IsInt ((65536 : Int) * 65536) := by decide

/-! ### binaryPow -/

/-- C25: whatever `binaryPow` returns is the power (base 2 only up to exponent 62). -/
theorem C25_binaryPow_correct_partial (b e x : Int) (hb : b = 2 → e ≤ 62)
    (h : binaryPow int64 b e = .ok x) : 0 ≤ e ∧ x = b ^ e.toNat := by
  unfold binaryPow at h
  by_cases h0 : e = 0
  · rw [if_pos h0] at h; cases h; subst h0; simp
  rw [if_neg h0] at h
  by_cases h1 : e < 0
  · rw [if_pos h1] at h; cases h
  rw [if_neg h1] at h
  refine ⟨by omega, ?_⟩
  by_cases h2 : b = 1
  · rw [if_pos h2] at h; cases h; subst h2; simp
  rw [if_neg h2] at h
  by_cases h3 : b = 2
  · rw [if_pos h3, shiftTwo, if_pos (by have := hb h3; omega)] at h; cases h; rw [h3]
  rw [if_neg h3] at h
  rw [powLoop_correct _ _ _ _ h, one_mul]

/-- C25: for exponents `e > 0` and bases other than 1 and 2 the function is defined exactly if the
square computed last, `b ^ 2^(⌊log₂ e⌋+1)`, fits into `int64`; then it returns `b ^ e`. -/
theorem C25_binaryPow_defined_partial (b : Int) (e : Nat) (he : 0 < e) (h1 : b ≠ 1) (h2 : b ≠ 2) :
    (IsInt64 (b ^ 2 ^ (Nat.log2 e + 1)) → binaryPow int64 b e = .ok (b ^ e)) ∧
    (¬ IsInt64 (b ^ 2 ^ (Nat.log2 e + 1)) → binaryPow int64 b e = .ub) := by
  have hu : binaryPow int64 b e = powLoop int64 1 b e := by
    unfold binaryPow
    rw [if_neg (by omega), if_neg (by omega), if_neg h1, if_neg h2, Int.toNat_natCast]
  rw [hu]
  constructor
  · intro h
    obtain ⟨x, hx⟩ := powLoop_one_defined b e h
    rw [hx, powLoop_correct _ _ _ _ hx, one_mul]
  · intro h
    rcases powLoop_outcome 1 b e with h' | ⟨x, h'⟩
    · exact h'
    · exact absurd (powLoop_range _ _ _ _ (by omega) h') h

example : (0 < 15) ∧ (10 : Int) ≠ 1 ∧ (10 : Int) ≠ 2 ∧
    IsInt64 ((10 : Int) ^ 2 ^ (Nat.log2 15 + 1)) := by decide +kernel
example : binaryPow int64 10 15 = .ok 1000000000000000 := by decide +kernel
example : binaryPow int64 (-3) 5 = .ok (-243) := by decide +kernel

/-- C25: bases 1 and 2, exponent 0 and negative exponents. -/
theorem C25_binaryPow_special_partial :
    (∀ b : Int, binaryPow int64 b 0 = .ok 1) ∧
    (∀ b e : Int, e < 0 → binaryPow int64 b e = .exit) ∧
    (∀ e : Nat, binaryPow int64 1 e = .ok 1) ∧
    (∀ e : Nat, e ≤ 62 → binaryPow int64 2 e = .ok (2 ^ e)) := by
  refine ⟨fun b => by simp [binaryPow], ?_, ?_, ?_⟩
  · intro b e h; unfold binaryPow; rw [if_neg (by omega), if_pos h]
  · intro e; unfold binaryPow
    split
    · rfl
    · rw [if_neg (by omega), if_pos rfl]
  · intro e h; unfold binaryPow
    split
    · have : e = 0 := by omega
      subst this; rfl
    · rw [if_neg (by omega), if_neg (by decide), if_pos rfl, shiftTwo, Int.toNat_natCast, if_pos h]

example : binaryPow int64 7 (-1) = .exit ∧ binaryPow int64 2 62 = .ok 4611686018427387904 := by
  decide +kernel

/-- C25 refuted: `10^16` fits into `int64`, but the last squaring overflows. -/
theorem C25_binaryPow_refuted :
    IsInt64 ((10 : Int) ^ 16) ∧ binaryPow int64 10 16 = .ub := by decide +kernel

/-- C25: with wrapping hardware arithmetic the result is `b ^ e` modulo `2^64`, in the signed
representative, for all bases except 2 with an exponent above 63. -/
theorem C25_binaryPow_wrapping (b : Int) (e : Nat) (h2 : b = 2 → e ≤ 63) :
    binaryPow wrap64 b e = .ok ((b ^ e).bmod (2 ^ 64)) := by
  unfold binaryPow
  by_cases h0 : e = 0
  · subst h0; rw [if_pos (by rfl), pow_zero]; rfl
  rw [if_neg (by omega), if_neg (by omega)]
  by_cases h1 : b = 1
  · rw [if_pos h1, h1, one_pow]; rfl
  rw [if_neg h1]
  by_cases h3 : b = 2
  · have he := h2 h3
    rw [if_pos h3, Int.toNat_natCast, shiftTwo]
    subst h3
    by_cases h4 : e ≤ 62
    · rw [if_pos h4, bmod_of_range]
      have hp : (2 : Int) ^ e ≤ 2 ^ 62 := pow_le_pow_right₀ (by norm_num) h4
      have hq : (0 : Int) < 2 ^ e := by positivity
      exact ⟨le_trans (by norm_num) hq.le, lt_of_le_of_lt hp (by norm_num)⟩
    · have : e = 63 := by omega
      subst this
      rw [if_neg (by decide), if_pos rfl]
      decide +kernel
  · rw [if_neg h3, Int.toNat_natCast, powLoop_wrap 1 b e (by norm_num), one_mul]

example : binaryPow wrap64 10 20 = .ok 7766279631452241920 := by decide +kernel

/-- Even so, powers of two beyond 2^63 are undefined (shift width). -/
theorem C25_binaryPow_wrapping_refuted : binaryPow wrap64 2 64 = .ub := by decide +kernel

/-! ### genericBinaryPow -/

section
variable {α : Type u} {S : Type v} [Semigroup S]

/-- C26: if `*=` on the value type computes the product of a semigroup whenever it returns
(`φ` is the value denoted), then `genericBinaryPow(x, e)` for `e ≥ 1`, when it returns, denotes the
product of `e` factors `x`.  Both overloads. -/
theorem C26_generic_correct (mul : α → α → Out α) (φ : α → S)
    (hmul : ∀ x y z, mul x y = .ok z → φ z = φ x * φ y) (one x y : α) (n : Nat)
    (h : genericBinaryPow one mul x (n + 1) = .ok y ∨ genericBinaryPow' mul x (n + 1) = .ok y) :
    φ y = Spec.iter (φ x) n := by
  have hl : genericLoop mul x x n = .ok y := by
    by_cases hn : n = 0
    · subst hn
      rw [genericLoop_zero]
      rcases h with h | h
      · simpa [genericBinaryPow] using h
      · simpa [genericBinaryPow'] using h
    · rcases h with h | h
      · unfold genericBinaryPow at h
        rw [if_neg (by omega), if_neg (by omega), if_neg (by omega)] at h
        rwa [show ((n : Int) + 1 - 1).toNat = n by omega] at h
      · unfold genericBinaryPow' at h
        rw [if_neg (by omega), if_neg (by omega)] at h
        rwa [show ((n : Int) + 1 - 1).toNat = n by omega] at h
  have := genericLoop_correct mul φ hmul (φ x) 0 0 n x x y rfl rfl hl
  simpa using this

/-- C26: if `*=` always returns, so does `genericBinaryPow` for every `e ≥ 1`. -/
theorem C26_generic_total (mul : α → α → Out α) (ht : ∀ x y, ∃ z, mul x y = .ok z) (one x : α)
    (n : Nat) : (∃ y, genericBinaryPow one mul x (n + 1) = .ok y) ∧
      ∃ y, genericBinaryPow' mul x (n + 1) = .ok y := by
  have h := genericLoop_total mul ht n x x
  constructor
  · unfold genericBinaryPow
    rw [if_neg (by omega)]
    split
    · exact ⟨x, rfl⟩
    · rw [if_neg (by omega), show ((n : Int) + 1 - 1).toNat = n by omega]; exact h
  · unfold genericBinaryPow'
    split
    · exact ⟨x, rfl⟩
    · rw [if_neg (by omega), show ((n : Int) + 1 - 1).toNat = n by omega]; exact h

/-- C26: exponent 0 gives the converted 1 (first overload) or ends the program (second overload);
negative exponents end the program. -/
theorem C26_generic_nonpos (mul : α → α → Out α) (one x : α) :
    genericBinaryPow one mul x 0 = .ok one ∧ genericBinaryPow' mul x 0 = .exit ∧
    ∀ e : Int, e < 0 → genericBinaryPow one mul x e = .exit ∧ genericBinaryPow' mul x e = .exit := by
  refine ⟨by simp [genericBinaryPow], by simp [genericBinaryPow'], fun e he => ⟨?_, ?_⟩⟩
  · unfold genericBinaryPow; rw [if_neg (by omega), if_neg (by omega), if_pos he]
  · unfold genericBinaryPow'; rw [if_neg (by omega), if_pos (by omega)]

end

-- a non-commutative instance: concatenation of strings
example : genericBinaryPow' (fun x y : List Nat => .ok (x ++ y)) [1, 2] 3 =
    .ok [1, 2, 1, 2, 1, 2] := by decide +kernel
example : genericBinaryPow 1 (fun x y : Int => int (x * y)) 3 5 = .ok 243 := by decide +kernel

example : (∀ x y z : Int, int (x * y) = .ok z → id z = id x * id y) ∧
    ∀ x y : List Nat, ∃ z, (Out.ok (x ++ y) : Out (List Nat)) = .ok z :=
  ⟨fun _ _ _ h => (int_eq_ok.mp h).2.symm, fun _ _ => ⟨_, rfl⟩⟩

/-! ### counting -/

/-- C27: `factorial(n) = n!` in `int`, as long as `n!` fits. -/
theorem C27_factorial (n : Nat) (h : IsInt n.factorial) : factorial int n = .ok n.factorial :=
  factorial_eq int INT_MAX fits_int n h.2

/-- C27: `factorial(n) = n!` in `int64_t`. -/
theorem C27_factorial64 (n : Nat) (h : IsInt64 n.factorial) :
    factorial int64 n = .ok n.factorial :=
  factorial_eq int64 INT64_MAX fits_int64 n h.2

example : IsInt (Nat.factorial 12) ∧ IsInt64 (Nat.factorial 20) := by decide +kernel
example : factorial int 12 = .ok 479001600 ∧ factorial int 13 = .ub := by decide +kernel

/-- C27: for `1 ≤ r ≤ n`, `permutation(n, r)` is `n (n-1) ⋯ (n-r+1)`, the number of arrangements of
`r` out of `n` things, as long as it fits.  Missing: `r = 0`. -/
theorem C27_permutation_partial (n r : Nat) (h0 : 0 < r) (hr : r ≤ n)
    (h : IsInt (n.descFactorial r)) :
    permutation int n r = .ok (n.descFactorial r) :=
  permutation_eq int INT_MAX fits_int n r h0 hr h.2

/-- C27: the same for `int64_t`. -/
theorem C27_permutation64_partial (n r : Nat) (h0 : 0 < r) (hr : r ≤ n)
    (h : IsInt64 (n.descFactorial r)) :
    permutation int64 n r = .ok (n.descFactorial r) :=
  permutation_eq int64 INT64_MAX fits_int64 n r h0 hr h.2

example : 0 < 3 ∧ 3 ≤ 10 ∧ IsInt (Nat.descFactorial 10 3) := by decide +kernel
example : permutation int 10 3 = .ok 720 := by decide +kernel

/-- C27 refuted for `r = 0`: there is one empty arrangement, `permutation(n, 0)` returns `n`. -/
theorem C27_permutation_refuted :
    permutation int 5 0 = .ok 5 ∧ Nat.descFactorial 5 0 = 1 ∧
    ∀ n : Nat, permutation int n 0 = .ok n := by
  refine ⟨by decide +kernel, rfl, fun n => ?_⟩
  unfold permutation
  rw [if_neg (by omega)]; rfl

/-- C27: `binomial(n, r)` is the number of `r`-element subsets of an `n`-element set, whenever that
number fits (no intermediate overflow). -/
theorem C27_binomial (n r : Nat) (hr : r ≤ n)
    (h : IsInt ((Finset.range n).powersetCard r).card) :
    binomial int n r = .ok ((Finset.range n).powersetCard r).card := by
  rw [Finset.card_powersetCard, Finset.card_range] at *
  refine binomial_eq int INT_MAX fits_int n r hr h.2 ?_
  by_cases h0 : r = 0
  · exact .inl h0
  by_cases hn : r = n
  · exact .inr (.inl hn)
  have h1 := choose_one_le n r (by omega) (by omega)
  have := h.2
  exact .inr (.inr ⟨by omega, by omega⟩)

/-- C27: the same for `int64_t`, if neither `r` nor `n - r` exceeds the greatest `int`, or if nothing or everything is chosen.
Missing: larger `n - r`, where the `int` counters of the loops overflow. -/
theorem C27_binomial64_partial (n r : Nat) (hr : r ≤ n)
    (hc : r = 0 ∨ r = n ∨ ((r : Int) ≤ INT_MAX ∧ (n : Int) - r ≤ INT_MAX))
    (h : IsInt64 ((Finset.range n).powersetCard r).card) :
    binomial int64 n r = .ok ((Finset.range n).powersetCard r).card := by
  rw [Finset.card_powersetCard, Finset.card_range] at *
  exact binomial_eq int64 INT64_MAX fits_int64 n r hr h.2 (by omega)

example : 20 ≤ 60 ∧ (((20 : Nat) : Int) ≤ INT_MAX ∧ ((60 : Nat) : Int) - (20 : Nat) ≤ INT_MAX) ∧
    IsInt64 ((Finset.range 60).powersetCard 20).card := by
  rw [Finset.card_powersetCard, Finset.card_range]; decide +kernel

/-- C27 refuted for `int64_t`: choosing one or all but one out of more than 2147483648 things is undefined, though the answer
is `n`. -/
theorem C27_binomial64_refuted (n : Nat) (h : 2147483648 < n) :
    binomial int64 n 1 = .ub ∧ binomial int64 n ((n : Int) - 1) = .ub ∧
    ((Finset.range n).powersetCard 1).card = n ∧ ((Finset.range n).powersetCard (n - 1)).card = n := by
  have hM : INT_MAX = 2147483647 := rfl
  have h1 : binomialLoop int64 n 1 = .ub := by
    unfold binomialLoop
    rw [if_neg (by decide), if_pos (by omega)]
  refine ⟨?_, ?_, by simp, ?_⟩
  · unfold binomial
    rw [if_neg (by omega), if_neg (by decide), if_neg (by omega)]
    simpa using h1
  · unfold binomial
    rw [if_neg (by omega), if_neg (by omega), if_pos (by omega), show ((n : Int) - (n - 1)).toNat = 1 by omega]
    simpa using h1
  · rw [Finset.card_powersetCard, Finset.card_range, ← Nat.choose_symm (show n - 1 ≤ n by omega)]
    rw [show n - (n - 1) = 1 by omega]; simp

example : 2147483648 < 4294967296 ∧ IsInt64 4294967296 := by decide +kernel

example : 7 ≤ 10 ∧ IsInt ((Finset.range 10).powersetCard 7).card := by
  rw [Finset.card_powersetCard]; decide +kernel
example : binomial int 10 7 = .ok 120 ∧ binomial int 5 0 = .ok 1 := by decide +kernel

/-- C27: invalid arguments end the program. -/
theorem C27_invalid (n r : Int) :
    (n < 0 → factorial int n = .exit) ∧
    ((n < 0 ∨ r < 0 ∨ r > n) → permutation int n r = .exit ∧ binomial int n r = .exit) := by
  refine ⟨fun h => by simp [factorial, h], fun h => ⟨?_, ?_⟩⟩
  · simp [permutation, h]
  · simp [binomial, h]

end MathFns
