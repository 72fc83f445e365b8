import Verif.Proof.RandomContDouble
import Verif.Props.RandomDiscrete

/-! # Properties of the continuous samplers: C91–C93, C95, C96

`Libm.real` is exact arithmetic; `unitAt E s i` is the output number `i` of the engine divided by
`2^64 - 1`. -/

set_option exponentiation.threshold 2000

namespace Rand.Props
open Cpp Spec Rand

/-! ### C91 -/

/-- **C91, what holds (exact arithmetic).**  `ExponentialDistribution(lambda)` returns, unless the
engine yields its greatest number, the `x ≥ 0` at which the distribution function `1 - exp(-lambda x)`
is the scaled output. -/
theorem C91_exponential_partial (lambda : ℝ) (hl : 0 < lambda) :
    ∃ d, exponentialInit lambda = .ok d ∧ ∀ (E : Engine) (s : E.σ) (fuel : Nat),
      outAt E s 0 < 2 ^ 64 - 1 →
      ∃ x, gammaNext Libm.real fuel d s = .ok (x, (E.draw s).2) ∧ 0 ≤ x ∧
        1 - Real.exp (-lambda * x) = unitAt E s 0 := by
  refine ⟨⟨((1 : Nat) : ℝ), 1 / lambda⟩, ?_, fun E s fuel hg => ?_⟩
  · unfold exponentialInit gammaInit
    rw [if_neg]
    · simp
    · push_cast
      have : 0 < 1 / lambda := by positivity
      rintro (h | h) <;> linarith
  · have hpos : 0 < 1 - unitAt E s 0 := by have := unitAt_lt s 0 hg; linarith
    refine ⟨_, gamma_int_real fuel 1 (by decide) _ s, ?_, ?_⟩
    · rw [Finset.sum_range_one]
      have : Real.log (1 - unitAt E s 0) ≤ 0 :=
        Real.log_nonpos hpos.le (by have := unitAt_nonneg s 0; linarith)
      have : 0 < 1 / lambda := by positivity
      nlinarith
    · rw [Finset.sum_range_one]
      have e : -lambda * (1 / lambda * -Real.log (1 - unitAt E s 0)) = Real.log (1 - unitAt E s 0) := by
        field_simp
      rw [e, Real.exp_log hpos]
      ring

/-- **C91, what holds (exact arithmetic).**  `GammaDistribution(n, theta)` for a whole number `n`
that is an `int` returns `theta` times the sum of `n` independent exponential samples:
`exp(-x / theta)` is the product of `1 - u` over `n` outputs.  The greatest output is excluded. -/
theorem C91_gamma_partial (n : Nat) (h1 : 0 < n) (hn : (n : Int) ≤ INT_MAX) (theta : ℝ) (ht : 0 < theta) :
    ∃ d, gammaInit (n : ℝ) theta = .ok d ∧ ∀ (E : Engine) (s : E.σ) (fuel : Nat),
      (∀ i < n, outAt E s i < 2 ^ 64 - 1) →
      ∃ x, gammaNext Libm.real fuel d s = .ok (x, stateAt E s n) ∧ 0 ≤ x ∧
        Real.exp (-x / theta) = ∏ i ∈ Finset.range n, (1 - unitAt E s i) := by
  refine ⟨⟨n, theta⟩, ?_, fun E s fuel hg => ⟨_, gamma_int_real fuel n hn theta s, ?_, ?_⟩⟩
  · unfold gammaInit
    rw [if_neg]
    have : (0 : ℝ) < n := by exact_mod_cast h1
    push_cast
    rintro (h | h) <;> linarith
  · have : ∑ i ∈ Finset.range n, Real.log (1 - unitAt E s i) ≤ 0 := by
      apply Finset.sum_nonpos
      intro i hi
      have hi := unitAt_lt s i (hg i (Finset.mem_range.1 hi))
      have := unitAt_nonneg s i
      exact Real.log_nonpos (by linarith) (by linarith)
    nlinarith
  · have e : -(theta * -∑ i ∈ Finset.range n, Real.log (1 - unitAt E s i)) / theta
        = ∑ i ∈ Finset.range n, Real.log (1 - unitAt E s i) := by
      field_simp
    rw [e, Real.exp_sum]
    apply Finset.prod_congr rfl
    intro i hi
    have hi := unitAt_lt s i (hg i (Finset.mem_range.1 hi))
    exact Real.exp_log (by linarith)

/-- **C91, refuted.**  `GammaDistribution(2147483648, theta).next()` has undefined behaviour: the
conversion `(int)k_` overflows. -/
theorem C91_int_refuted (theta : ℝ) (ht : 0 < theta) :
    ∃ d, gammaInit (2147483648 : ℝ) theta = .ok d ∧ ∀ (E : Engine) (s : E.σ) (fuel : Nat),
      gammaNext Libm.real fuel d s = .ub := by
  refine ⟨⟨2147483648, theta⟩, ?_, fun E s fuel => ?_⟩
  · unfold gammaInit
    rw [if_neg]
    push_cast
    rintro (h | h) <;> linarith
  · have : Libm.real.toInt (2147483648 : ℝ) = .ub := by
      show truncInt (2147483648 : ℝ) = _
      unfold truncInt
      have : ⌊(2147483648 : ℝ)⌋ = (2147483648 : Int) := by
        have := Int.floor_natCast (R := ℝ) 2147483648
        push_cast at this
        exact this
      rw [if_pos (by norm_num), this]
      decide
    unfold gammaNext
    rw [bind_run, lift_run, this]
    rfl

/-- **C91, what holds (binary64).**  `GammaDistribution(n, theta)` for a whole number `n` that is an
`int`, `0 < theta ≤ 2^900` (in particular `ExponentialDistribution`, `n = 1`) returns a finite number
`q ≥ 0`, if none of the `n` outputs is one of the 1024 greatest.  `log` is any function that is nearly
right (`LogOk`), e.g. the correctly rounded one. -/
theorem C91_finite_partial (m : Libm Dbl) (hm : LogOk m.log) (hi : m.toInt = Libm.dbl.toInt)
    (hfl : m.floor = Libm.dbl.floor) (n : Nat) (h1 : 0 < n) (hn : (n : Int) ≤ INT_MAX) (theta : ℚ)
    (ht : 0 < theta) (ht1 : theta ≤ 2 ^ 900) :
    ∃ d, gammaInit (Dbl.fin n) (Dbl.fin theta) = .ok d ∧ ∀ (E : Engine) (s : E.σ) (fuel : Nat),
      (∀ i < n, outAt E s i < 2 ^ 64 - 1024) →
      ∃ q : ℚ, 0 ≤ q ∧ gammaNext m fuel d s = .ok (Dbl.fin q, stateAt E s n) := by
  have hM : INT_MAX = 2147483647 := rfl
  refine ⟨⟨Dbl.fin n, Dbl.fin theta⟩, ?_, fun E s fuel hs => ?_⟩
  · unfold gammaInit
    rw [zero_dbl, if_neg]
    rw [fin_le, fin_le]
    have : (0 : ℚ) < n := by exact_mod_cast h1
    rintro (h | h) <;> linarith
  · obtain ⟨b, hb, hb0, hb1⟩ := gammaSum_dbl m hm n 0 (by omega) 0 le_rfl (by simp) s hs
    have hnq : ((0 + n : Nat) : ℚ) ≤ 2 ^ 31 := by exact_mod_cast (by omega : 0 + n ≤ 2 ^ 31)
    have hbb : -b ≤ 2 ^ 37 := by linarith
    have h0 : 0 ≤ theta * -b := mul_nonneg ht.le (by linarith)
    refine ⟨fl (theta * -b), fl_nonneg h0, ?_⟩
    rw [gammaNext_dbl m hi hfl fuel n hn _ _ s _ hb]
    have : Dbl.fin theta * -Dbl.fin b = Dbl.fin (fl (theta * -b)) := by
      apply round_fin
      rw [abs_of_nonneg h0]
      calc theta * -b ≤ 2 ^ 900 * 2 ^ 37 := mul_le_mul ht1 hbb (by linarith) (by positivity)
        _ ≤ maxDouble := by unfold maxDouble; norm_num
    rw [this]

/-- **C91, refuted (binary64).**  If one of the outputs used is among the 1024 greatest, the result is
infinite: `nextDouble()` is 1 there, and `std::log(0)` is minus infinity. -/
theorem C91_refuted (m : Libm Dbl) (hm : LogOk m.log) (hi : m.toInt = Libm.dbl.toInt)
    (hfl : m.floor = Libm.dbl.floor) (n : Nat) (h1 : 0 < n) (hn : (n : Int) ≤ INT_MAX) (theta : ℚ)
    (ht : 0 < theta) :
    ∃ d, gammaInit (Dbl.fin n) (Dbl.fin theta) = .ok d ∧ ∀ (E : Engine) (s : E.σ) (fuel : Nat),
      (∃ i < n, 2 ^ 64 - 1024 ≤ outAt E s i) →
      gammaNext m fuel d s = .ok (Dbl.inf false, stateAt E s n) := by
  have hM : INT_MAX = 2147483647 := rfl
  refine ⟨⟨Dbl.fin n, Dbl.fin theta⟩, ?_, fun E s fuel hs => ?_⟩
  · unfold gammaInit
    rw [zero_dbl, if_neg]
    rw [fin_le, fin_le]
    have : (0 : ℚ) < n := by exact_mod_cast h1
    rintro (h | h) <;> linarith
  · rw [gammaNext_dbl m hi hfl fuel n hn _ _ s _
      (gammaSum_dbl_inf m hm n 0 (by omega) 0 le_rfl (by simp) s hs)]
    have : Dbl.fin theta * -Dbl.inf true = Dbl.inf false := by
      show (if theta = 0 then Dbl.nan else Dbl.inf (decide (theta < 0) ^^ false)) = _
      rw [if_neg ht.ne', decide_eq_false (by linarith)]
      rfl
    rw [this]

/-- **C91, refuted.**  `ExponentialDistribution(0)`, which is no distribution, is accepted: `1 / 0` is
infinite and hence positive. -/
theorem C91_zero_refuted : exponentialInit (Dbl.fin 0) = .ok ⟨Dbl.fin 1, Dbl.inf false⟩ := by
  unfold exponentialInit gammaInit
  have e : ((1 : Int) : Dbl) / Dbl.fin 0 = Dbl.inf false := by decide +kernel
  rw [e, one_dbl, zero_dbl, if_neg (by decide +kernel)]

/-- **C91.**  Other invalid parameters end the program. -/
theorem C91_invalid (k theta lambda : ℝ) :
    ((k ≤ 0 ∨ theta ≤ 0) → gammaInit k theta = .exit) ∧
    (lambda < 0 → exponentialInit lambda = .exit) ∧ (lambda ≤ 0 → chiSquaredInit lambda = .exit) ∧
    (lambda ≤ 0 → studentTInit lambda = .exit) := by
  refine ⟨fun h => ?_, fun h => ?_, fun h => ?_, fun h => ?_⟩
  · unfold gammaInit; rw [if_pos (by push_cast; exact h)]
  · unfold exponentialInit gammaInit
    rw [if_pos]
    right
    push_cast
    exact (div_neg_of_pos_of_neg one_pos h).le
  · unfold chiSquaredInit gammaInit
    rw [if_pos]
    left
    push_cast
    linarith
  · unfold studentTInit; rw [if_pos (by push_cast; exact h)]

-- `LogOk` and the other hypotheses
example : LogOk Libm.dbl.log := logOk_dbl
example : outAt counter (5 : Fin (2 ^ 64)) 2 = 7 := by decide +kernel
example : (∀ i < 2, outAt counter (5 : Fin (2 ^ 64)) i < 2 ^ 64 - 1024) ∧
    (∃ i < 2, 2 ^ 64 - 1024 ≤ outAt counter (2 ^ 64 - 1025 : Fin (2 ^ 64)) i) := by decide +kernel

/-! ### C96 -/

/-- **C96, what holds (exact arithmetic).**  For a `k` below `2^31` that is not whole,
`GammaDistribution(k, theta)` returns `theta * (x + y)`.  Here `y ≥ 0` is a sum of `n = ⌊k⌋` exponential
samples, `exp(-y)` is the product of `1 - u` over the first `n` outputs; `x > 0` is the candidate of
Ahrens and Dieter for the shape `k - n` from the first triple of outputs (number `j`) that is
accepted.  The law of `x`: `C96_law`.  Missing: the greatest output, and shapes that do not fit into an
`int`. -/
theorem C96_partial (k theta : ℝ) (hk0 : 0 < k) (hk : k < INT_MAX + 1) (hd : k ≠ (⌊k⌋ : ℝ)) (ht : 0 < theta)
    (E : Engine) (s s0 : E.σ) (n j fuel : Nat) (hn : (n : Int) = ⌊k⌋) (hs0 : s0 = stateAt E s n) (hf : j < fuel)
    (hg : ∀ i < n + 3 * j + 3, outAt E s i < 2 ^ 64 - 1)
    (hr : ∀ i < j, ¬ adAccepts (k - n) (1 - unitAt E s0 (3 * i)) (1 - unitAt E s0 (3 * i + 1))
      (1 - unitAt E s0 (3 * i + 2)))
    (ha : adAccepts (k - n) (1 - unitAt E s0 (3 * j)) (1 - unitAt E s0 (3 * j + 1))
      (1 - unitAt E s0 (3 * j + 2))) :
    ∃ d x y, gammaInit k theta = .ok d ∧ 0 < x ∧ 0 ≤ y ∧
      x = adCandidate (k - n) (1 - unitAt E s0 (3 * j)) (1 - unitAt E s0 (3 * j + 1)) ∧
      Real.exp (-y) = ∏ i ∈ Finset.range n, (1 - unitAt E s i) ∧
      gammaNext Libm.real fuel d s = .ok (theta * (x + y), stateAt E s (n + 3 * j + 3)) := by
  have hnk : ⌊k⌋.toNat = n := by omega
  have hnr : (⌊k⌋ : ℝ) = n := by rw [← hn]; norm_cast
  have hrej := gammaReject_find (k - n) j s0 fuel hf (by
    intro i hi
    rw [hs0, outAt_add]
    exact hg _ (by omega)) hr ha
  have hpos : ∀ i < n, 0 < 1 - unitAt E s i := by
    intro i hi
    have := unitAt_lt s i (hg i (by omega))
    linarith
  refine ⟨⟨k, theta⟩, _, -∑ i ∈ Finset.range n, Real.log (1 - unitAt E s i), ?_, ?_, ?_, rfl, ?_, ?_⟩
  · unfold gammaInit
    rw [if_neg]
    push_cast
    rintro (h | h) <;> linarith
  · have h1 := unitAt_lt s0 (3 * j + 1) (by rw [hs0, outAt_add]; exact hg _ (by omega))
    have h2 := unitAt_nonneg s0 (3 * j + 1)
    unfold adCandidate
    split
    · exact Real.rpow_pos_of_pos (by linarith) _
    · have := Real.log_nonpos (x := 1 - unitAt E s0 (3 * j + 1)) (by linarith) (by linarith)
      linarith
  · rw [neg_nonneg]
    apply Finset.sum_nonpos
    intro i hi
    have h1 := hpos i (Finset.mem_range.1 hi)
    have h2 := unitAt_nonneg s i
    exact Real.log_nonpos h1.le (by linarith)
  · rw [neg_neg, Real.exp_sum]
    apply Finset.prod_congr rfl
    intro i hi
    exact Real.exp_log (hpos i (Finset.mem_range.1 hi))
  · rw [gamma_real fuel k theta _ hk0 hk hd s _ (by rw [hnk, hnr, ← hs0]; exact hrej), hnk, hs0,
      stateAt_add, sub_eq_add_neg]
    have : 3 * j + 3 + n = n + 3 * j + 3 := by omega
    rw [this]

-- shape 3/2: outputs `0, 0, 0, 0` the first triple is accepted
example : ∃ (E : Engine) (s : E.σ), ((1 : Nat) : Int) = ⌊(3 / 2 : ℝ)⌋ ∧ (3 / 2 : ℝ) ≠ ⌊(3 / 2 : ℝ)⌋ ∧
    (∀ i < 1 + 3 * 0 + 3, outAt E s i < 2 ^ 64 - 1) ∧
    adAccepts (3 / 2 - (1 : Nat)) (1 - unitAt E (stateAt E s 1) (3 * 0)) (1 - unitAt E (stateAt E s 1) (3 * 0 + 1))
      (1 - unitAt E (stateAt E s 1) (3 * 0 + 2)) := by
  have hfl : ⌊(3 / 2 : ℝ)⌋ = 1 := by rw [Int.floor_eq_iff]; norm_num
  let E : Engine := ⟨Unit, fun _ => (), fun s => (0, s)⟩
  have ho : ∀ s i, outAt E s i = 0 := fun s i => rfl
  have hu : ∀ s i, unitAt E s i = 0 := by
    intro s i
    unfold unitAt
    rw [ho]; simp
  refine ⟨E, (), by rw [hfl]; rfl, by rw [hfl]; norm_num, fun i _ => by rw [ho]; norm_num, ?_⟩
  rw [hu, hu, hu]
  have hc : ¬ (1 : ℝ) ≤ Real.exp 1 / (Real.exp 1 + 1 / 2) := by
    have := Real.exp_pos 1
    rw [not_le, div_lt_one (by linarith)]
    linarith
  unfold adAccepts adCandidate
  norm_num at hc ⊢
  rw [if_neg (by simpa using hc)]

/-- **C96, refuted.**  For every shape of at least `2^31`, whole or not, the conversion `(int)k_`
overflows, e.g. for `GammaDistribution(2147483648.5, 1)`. -/
theorem C96_refuted :
    ∀ k theta : ℝ, (2147483648 : ℝ) ≤ k → 0 < theta → ∃ d, gammaInit k theta = .ok d ∧
      ∀ (E : Engine) (s : E.σ) (fuel : Nat), gammaNext Libm.real fuel d s = .ub := by
  intro k theta hk ht
  refine ⟨⟨k, theta⟩, ?_, fun E s fuel => ?_⟩
  · unfold gammaInit
    rw [if_neg]
    push_cast
    rintro (h | h) <;> linarith
  · have : Libm.real.toInt k = .ub := by
      show truncInt k = _
      unfold truncInt
      have hf : (2147483648 : Int) ≤ ⌊k⌋ := Int.le_floor.2 (by exact_mod_cast hk)
      rw [if_pos (by linarith)]
      unfold int
      rw [if_neg]
      rintro ⟨_, h⟩
      unfold INT_MAX at h
      omega
    unfold gammaNext
    rw [bind_run, lift_run, this]
    rfl

example : (2147483648 : ℝ) ≤ 2147483648.5 ∧ (0 : ℝ) < 1 := by norm_num

/-! ### C95 -/

/-- **C95.**  If the pair of outputs number `j` is the first whose point `(u, v)` of the square
`[-1, 1]²` lies in the unit disc (not in the centre), then two successive calls of
`NormalDistribution::next()` return the values of the polar method: the standardised results
`(z1, z2)` are the multiple of `(u, v)` with `z1² + z2² = -2 ln(u² + v²)`, and the second call draws
no output. -/
theorem C95_polar (mean stddev : ℝ) (hs : 0 < stddev) (E : Engine) (s : E.σ) (j fuel : Nat)
    (hf : j < fuel) (u v : Nat → ℝ) (hu : ∀ i, u i = 2 * unitAt E s (2 * i) - 1)
    (hv : ∀ i, v i = 2 * unitAt E s (2 * i + 1) - 1)
    (hr : ∀ i < j, u i ^ 2 + v i ^ 2 = 0 ∨ 1 < u i ^ 2 + v i ^ 2)
    (h0 : 0 < u j ^ 2 + v j ^ 2) (h1 : u j ^ 2 + v j ^ 2 ≤ 1) :
    ∃ d d1 d2 z1 z2 c, normalInit mean stddev = .ok d ∧
      normalNext Libm.real fuel d s = .ok ((mean + stddev * z1, d1), stateAt E s (2 * j + 2)) ∧
      (∀ s' : E.σ, normalNext Libm.real fuel d1 s' = .ok ((mean + stddev * z2, d2), s')) ∧
      (∀ s' : E.σ, ∀ fuel', normalNext Libm.real fuel' d2 s' = normalNext Libm.real fuel' d s') ∧
      0 ≤ c ∧ z1 = c * u j ∧ z2 = c * v j ∧
      z1 ^ 2 + z2 ^ 2 = -2 * Real.log (u j ^ 2 + v j ^ 2) := by
  have hrej := normalReject_find j s fuel hf (by intro i hi; rw [← hu, ← hv]; exact hr i hi) (u j) (v j)
    (hu j) (hv j) h0 h1
  have hi : normalInit mean stddev = .ok ⟨mean, stddev, none, false⟩ := by
    unfold normalInit
    rw [if_neg (by push_cast; linarith)]
  refine ⟨_, ⟨mean, stddev, some (v j * Real.sqrt (-2 * Real.log (u j ^ 2 + v j ^ 2) /
      (u j ^ 2 + v j ^ 2))), true⟩, ⟨mean, stddev, some (v j * Real.sqrt (-2 * Real.log (u j ^ 2 + v j ^ 2) /
      (u j ^ 2 + v j ^ 2))), false⟩, Real.sqrt (-2 * Real.log (u j ^ 2 + v j ^ 2) / (u j ^ 2 + v j ^ 2)) * u j,
    Real.sqrt (-2 * Real.log (u j ^ 2 + v j ^ 2) / (u j ^ 2 + v j ^ 2)) * v j,
    Real.sqrt (-2 * Real.log (u j ^ 2 + v j ^ 2) / (u j ^ 2 + v j ^ 2)), hi, ?_, ?_, ?_,
    Real.sqrt_nonneg _, rfl, rfl, ?_⟩
  · rw [normalNext_real fuel mean stddev none s _ _ _ _ hrej]
    congr 3
    ring
  · intro s'
    change Out.ok ((_ * stddev + mean, _), s') = _
    congr 3
    ring
  · intro s' fuel'
    rfl
  · have hl : Real.log (u j ^ 2 + v j ^ 2) ≤ 0 := Real.log_nonpos h0.le h1
    rw [mul_pow, mul_pow, ← mul_add, Real.sq_sqrt (div_nonneg (by linarith) h0.le),
      div_mul_cancel₀ _ h0.ne']

/-- **C95.**  If the engine never yields a pair in the disc, `next()` does not return. -/
theorem C95_diverge (mean stddev : ℝ) (E : Engine) (s : E.σ) (fuel : Nat)
    (hr : ∀ i < fuel, (2 * unitAt E s (2 * i) - 1) ^ 2 + (2 * unitAt E s (2 * i + 1) - 1) ^ 2 = 0 ∨
      1 < (2 * unitAt E s (2 * i) - 1) ^ 2 + (2 * unitAt E s (2 * i + 1) - 1) ^ 2) :
    normalNext Libm.real fuel ⟨mean, stddev, none, false⟩ s = .diverge := by
  unfold normalNext
  rw [if_neg (by simp), bind_run, normalReject_none s fuel hr]
  rfl

/-- **C95.**  A standard deviation that is not positive ends the program. -/
theorem C95_invalid (mean stddev : ℝ) (h : stddev ≤ 0) : normalInit mean stddev = .exit := by
  unfold normalInit
  rw [if_pos (by push_cast; exact h)]

/-! ### C92 -/

/-- **C92, what holds.**  After `setSeed(seed)` everything computed from the generator, by any code
`f`, is what a new `Random(seed)` gives. -/
theorem C92_partial (E : Engine) (s : E.σ) (seed : Int) {α : Type} (f : R E α) :
    (do setSeed seed; f : R E α) s = f (new E seed) := rfl

/-- **C92, refuted.**  A `NormalDistribution` does not repeat its values after the generator is
seeded again: it returns the spare value computed before. -/
theorem C92_refuted :
    ∃ (E : Engine) (seed : Int) (d d1 d2 : Normal ℝ) (s1 : E.σ) (x y : ℝ), normalInit 0 1 = .ok d ∧
      normalNext Libm.real 1 d (new E seed) = .ok ((x, d1), s1) ∧
      (do setSeed seed; normalNext Libm.real 1 d1 : R E (ℝ × Normal ℝ)) s1 = .ok ((y, d2), new E seed) ∧
      x ≠ y := by
  let E : Engine := ⟨Nat, fun _ => 0, fun s => (if s % 2 = 0 then 3 * 2 ^ 62 else 2 ^ 62, s + 1)⟩
  have h30 : ((3 * 2 ^ 62 : Fin (2 ^ 64))).val = 3 * 2 ^ 62 := by decide +kernel
  have h10 : ((2 ^ 62 : Fin (2 ^ 64))).val = 2 ^ 62 := by decide +kernel
  have hu : unitAt E (new E 7) 0 = (3 * 2 ^ 62 : ℝ) / (2 ^ 64 - 1) := by
    show (((3 * 2 ^ 62 : Fin (2 ^ 64)).val : Nat) : ℝ) / _ = _
    rw [h30]; norm_num
  have hv : unitAt E (new E 7) 1 = (2 ^ 62 : ℝ) / (2 ^ 64 - 1) := by
    show (((2 ^ 62 : Fin (2 ^ 64)).val : Nat) : ℝ) / _ = _
    rw [h10]; norm_num
  obtain ⟨d, d1, d2, z1, z2, c, hd, hx, hy, _, hc, e1, e2, e3⟩ := C95_polar 0 1 (by norm_num) E (new E 7) 0 1
    (by omega) (fun i => 2 * unitAt E (new E 7) (2 * i) - 1) (fun i => 2 * unitAt E (new E 7) (2 * i + 1) - 1)
    (fun _ => rfl) (fun _ => rfl) (by omega)
    (by show 0 < (2 * unitAt E (new E 7) 0 - 1) ^ 2 + (2 * unitAt E (new E 7) 1 - 1) ^ 2
        rw [hu, hv]; norm_num)
    (by show (2 * unitAt E (new E 7) 0 - 1) ^ 2 + (2 * unitAt E (new E 7) 1 - 1) ^ 2 ≤ 1
        rw [hu, hv]; norm_num)
  refine ⟨E, 7, d, d1, d2, _, _, _, hd, hx, hy (new E 7), ?_⟩
  change z1 = c * (2 * unitAt E (new E 7) 0 - 1) at e1
  change z2 = c * (2 * unitAt E (new E 7) 1 - 1) at e2
  change z1 ^ 2 + z2 ^ 2 = -2 * Real.log ((2 * unitAt E (new E 7) 0 - 1) ^ 2 +
    (2 * unitAt E (new E 7) 1 - 1) ^ 2) at e3
  rw [hu] at e1 e3
  rw [hv] at e2 e3
  have hl : Real.log ((2 * ((3 * 2 ^ 62 : ℝ) / (2 ^ 64 - 1)) - 1) ^ 2 +
    (2 * ((2 ^ 62 : ℝ) / (2 ^ 64 - 1)) - 1) ^ 2) < 0 := Real.log_neg (by norm_num) (by norm_num)
  have hc0 : c ≠ 0 := by
    rintro rfl
    rw [e1, e2] at e3
    linarith
  intro h
  have h2 : z1 = z2 := by linarith
  rw [e1, e2] at h2
  have := mul_left_cancel₀ hc0 h2
  norm_num at this

example : uint64 (-1) = 2 ^ 64 - 1 := by decide +kernel

/-! ### C93 -/

/-- **C93, refuted.**  The value of `StudentTDistribution(2).next()` depends on the order in which the
compiler evaluates the operands of `*`: for some engine the two orders give different values. -/
theorem C93_refuted :
    ∃ (E : Engine) (s : E.σ) (x y : ℝ), x ≠ y ∧
      studentTNext Libm.real 1 true 2 s = .ok (x, stateAt E s 3) ∧
      studentTNext Libm.real 1 false 2 s = .ok (y, stateAt E s 3) := by
  let E : Engine := ⟨Nat, fun _ => 0, fun s => (if s = 0 then 3 * 2 ^ 62 else 2 ^ 62, s + 1)⟩
  have h30 : ((3 * 2 ^ 62 : Fin (2 ^ 64))).val = 3 * 2 ^ 62 := by decide +kernel
  have h10 : ((2 ^ 62 : Fin (2 ^ 64))).val = 2 ^ 62 := by decide +kernel
  let s : E.σ := (0 : Nat)
  have hu0 : unitAt E s 0 = (3 * 2 ^ 62 : ℝ) / (2 ^ 64 - 1) := by
    show (((3 * 2 ^ 62 : Fin (2 ^ 64)).val : Nat) : ℝ) / _ = _
    rw [h30]; norm_num
  have hu1 : unitAt E s 1 = (2 ^ 62 : ℝ) / (2 ^ 64 - 1) := by
    show (((2 ^ 62 : Fin (2 ^ 64)).val : Nat) : ℝ) / _ = _
    rw [h10]; norm_num
  have hu2 : unitAt E s 2 = (2 ^ 62 : ℝ) / (2 ^ 64 - 1) := by
    show (((2 ^ 62 : Fin (2 ^ 64)).val : Nat) : ℝ) / _ = _
    rw [h10]; norm_num
  have e1 : unitAt E (stateAt E s 1) 0 = unitAt E s 1 := rfl
  have e2 : unitAt E (stateAt E s 1) 1 = unitAt E s 2 := rfl
  have e3 : unitAt E (stateAt E s 2) 0 = unitAt E s 2 := rfl
  have hn1 := normalReject_step 0 s _ _ rfl rfl
  rw [hu0, hu1, if_neg (by norm_num)] at hn1
  have hn2 := normalReject_step 0 (stateAt E s 1) _ _ rfl rfl
  rw [e1, e2, hu1, hu2, if_neg (by norm_num)] at hn2
  have r1 := studentT_left 1 1 (by omega) (by decide) s _ _ _ _ hn1
  have r2 := studentT_right 1 1 (by omega) (by decide) s _ _ _ _ hn2
  rw [Nat.cast_one, mul_one] at r1 r2
  refine ⟨E, s, _, _, ?_, r1, r2⟩
  · simp only [Finset.sum_range_one, e3, hu0, hu2]
    apply ne_of_gt
    have hpos : ∀ a b : ℝ, 0 < a → a < 1 → 0 < b → b < 1 →
        0 < Real.sqrt (-2 * Real.log a / a) ∧ 0 < Real.sqrt (2 / (2 * -Real.log b)) := by
      intro a b ha0 ha1 hb0 hb1
      have h1 := Real.log_neg ha0 ha1
      have h2 := Real.log_neg hb0 hb1
      constructor
      · exact Real.sqrt_pos.2 (div_pos (by linarith) ha0)
      · exact Real.sqrt_pos.2 (div_pos (by norm_num) (by linarith))
    obtain ⟨p1, q1⟩ := hpos ((2 * ((3 * 2 ^ 62 : ℝ) / (2 ^ 64 - 1)) - 1) * (2 * ((3 * 2 ^ 62 : ℝ) / (2 ^ 64 - 1)) - 1) +
      (2 * ((2 ^ 62 : ℝ) / (2 ^ 64 - 1)) - 1) * (2 * ((2 ^ 62 : ℝ) / (2 ^ 64 - 1)) - 1)) (1 - (2 ^ 62 : ℝ) / (2 ^ 64 - 1))
      (by norm_num) (by norm_num) (by norm_num) (by norm_num)
    obtain ⟨p2, q2⟩ := hpos ((2 * ((2 ^ 62 : ℝ) / (2 ^ 64 - 1)) - 1) * (2 * ((2 ^ 62 : ℝ) / (2 ^ 64 - 1)) - 1) +
      (2 * ((2 ^ 62 : ℝ) / (2 ^ 64 - 1)) - 1) * (2 * ((2 ^ 62 : ℝ) / (2 ^ 64 - 1)) - 1)) (1 - (3 * 2 ^ 62 : ℝ) / (2 ^ 64 - 1))
      (by norm_num) (by norm_num) (by norm_num) (by norm_num)
    have hneg : 2 * ((2 ^ 62 : ℝ) / (2 ^ 64 - 1)) - 1 < 0 := by norm_num
    have hposi : 0 < 2 * ((3 * 2 ^ 62 : ℝ) / (2 ^ 64 - 1)) - 1 := by norm_num
    exact lt_trans (mul_neg_of_neg_of_pos (mul_neg_of_neg_of_pos hneg p2) q2)
      (mul_pos (mul_pos hposi p1) q1)

/-- **C93, what holds.**  For an even number `2 n` of degrees of freedom and operands evaluated from
left to right, the result is `z * sqrt(2 n / y)`, where `z` is the standard normal value of the polar
method for the first accepted pair of outputs (number `j`) and `y > 0` the chi-squared value of the
following `n` outputs: `exp(-y / 2)` is the product of their `1 - u`. -/
theorem C93_partial (n : Nat) (h1 : 0 < n) (hn : (n : Int) ≤ INT_MAX) (E : Engine) (s : E.σ) (j fuel : Nat)
    (hf : j < fuel) (u v : Nat → ℝ) (hu : ∀ i, u i = 2 * unitAt E s (2 * i) - 1)
    (hv : ∀ i, v i = 2 * unitAt E s (2 * i + 1) - 1)
    (hr : ∀ i < j, u i ^ 2 + v i ^ 2 = 0 ∨ 1 < u i ^ 2 + v i ^ 2)
    (h0 : 0 < u j ^ 2 + v j ^ 2) (hle : u j ^ 2 + v j ^ 2 ≤ 1)
    (hg : ∀ i < n, outAt E (stateAt E s (2 * j + 2)) i < 2 ^ 64 - 1)
    (hg0 : ∃ i < n, 0 < outAt E (stateAt E s (2 * j + 2)) i) :
    ∃ z y d d1, 0 < y ∧ normalInit (0 : ℝ) 1 = .ok d ∧
      normalNext Libm.real fuel d s = .ok ((z, d1), stateAt E s (2 * j + 2)) ∧
      Real.exp (-y / 2) = ∏ i ∈ Finset.range n, (1 - unitAt E (stateAt E s (2 * j + 2)) i) ∧
      studentTNext Libm.real fuel true (2 * (n : ℝ)) s =
        .ok (z * Real.sqrt (2 * n / y), stateAt E (stateAt E s (2 * j + 2)) n) := by
  have hrej := normalReject_find j s fuel hf (by intro i hi; rw [← hu, ← hv]; exact hr i hi) (u j) (v j)
    (hu j) (hv j) h0 hle
  have hni := normalInit_std
  push_cast at hni
  have hnn := normalNext_real fuel 0 1 none s _ _ _ _ hrej
  rw [mul_one, add_zero] at hnn
  refine ⟨_, 2 * -(∑ i ∈ Finset.range n, Real.log (1 - unitAt E (stateAt E s (2 * j + 2)) i)), _, _, ?_, hni,
    hnn, ?_, studentT_left fuel n h1 hn s _ _ _ _ hrej⟩
  · have hlt : ∀ i < n, unitAt E (stateAt E s (2 * j + 2)) i < 1 := fun i hi => unitAt_lt _ _ (hg i hi)
    have : ∑ i ∈ Finset.range n, Real.log (1 - unitAt E (stateAt E s (2 * j + 2)) i) < 0 := by
      apply Finset.sum_neg'
      · intro i hi
        have h1 := hlt i (Finset.mem_range.1 hi)
        have h2 := unitAt_nonneg (stateAt E s (2 * j + 2)) i
        exact Real.log_nonpos (by linarith) (by linarith)
      · obtain ⟨i, hi, hpos⟩ := hg0
        refine ⟨i, Finset.mem_range.2 hi, ?_⟩
        have h1 := hlt i hi
        have h2 : 0 < unitAt E (stateAt E s (2 * j + 2)) i := by
          unfold unitAt
          have : (0 : ℝ) < (outAt E (stateAt E s (2 * j + 2)) i : ℝ) := by exact_mod_cast hpos
          exact div_pos this (by norm_num)
        exact Real.log_neg (by linarith) (by linarith)
    linarith
  · have e : -(2 * -(∑ i ∈ Finset.range n, Real.log (1 - unitAt E (stateAt E s (2 * j + 2)) i))) / 2
        = ∑ i ∈ Finset.range n, Real.log (1 - unitAt E (stateAt E s (2 * j + 2)) i) := by ring
    rw [e, Real.exp_sum]
    apply Finset.prod_congr rfl
    intro i hi
    have hi := unitAt_lt _ i (hg i (Finset.mem_range.1 hi))
    exact Real.exp_log (by linarith)

-- the hypotheses of C95 and C93 for the counting engine started at 2^63: (u, v) is close to (0, 0)
example : 0 < (2 * unitAt counter (2 ^ 63 : Fin (2 ^ 64)) 0 - 1) ^ 2 +
      (2 * unitAt counter (2 ^ 63 : Fin (2 ^ 64)) 1 - 1) ^ 2 ∧
    (2 * unitAt counter (2 ^ 63 : Fin (2 ^ 64)) 0 - 1) ^ 2 +
      (2 * unitAt counter (2 ^ 63 : Fin (2 ^ 64)) 1 - 1) ^ 2 ≤ 1 ∧
    outAt counter (2 ^ 63 : Fin (2 ^ 64)) 2 < 2 ^ 64 - 1 ∧ 0 < outAt counter (2 ^ 63 : Fin (2 ^ 64)) 2 := by
  have h0 : outAt counter (2 ^ 63 : Fin (2 ^ 64)) 0 = 2 ^ 63 := by decide +kernel
  have h1 : outAt counter (2 ^ 63 : Fin (2 ^ 64)) 1 = 2 ^ 63 + 1 := by decide +kernel
  have h2 : outAt counter (2 ^ 63 : Fin (2 ^ 64)) 2 = 2 ^ 63 + 2 := by decide +kernel
  unfold unitAt
  rw [h0, h1, h2]
  norm_num

end Rand.Props
