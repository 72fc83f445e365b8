import Verif.Proof.RandomQuantile
import Mathlib.Probability.Distributions.Poisson.Basic
import Mathlib.Probability.Distributions.Geometric
import Mathlib.Probability.Distributions.Binomial

/-! # C127: the samplers have the laws they are named after

Exact arithmetic.  The procedures of `Spec/RandomLaw.lean` (`gammaSmp`, `normalSmp`, ...) are functions of
a sequence of numbers of `[0, 1]`.  Every theorem says two things about one of them: the code follows it
(`Agrees`: whenever the code returns, result and engine state are those of the procedure for the outputs
of the engine divided by `2^64 - 1`), and on a sequence of independent uniform numbers it yields the law
(`Samples`).  When the code returns is said by C62, C91, C95 and C96. -/

namespace Rand.Props
open MeasureTheory ProbabilityTheory Spec Cpp Rand

/-- **C127.**  `GammaDistribution(k, theta)` follows the gamma law of shape `k` and scale `theta`. -/
theorem C127_gamma (k theta : ℝ) (hk : 0 < k) (ht : 0 < theta) :
    ∃ d, gammaInit k theta = .ok d ∧
      (∀ (E : Engine) (fuel : Nat), Agrees (gammaNext Libm.real fuel d : R E ℝ) (gammaSmp k theta)) ∧
      Samples (gammaSmp k theta) (gammaMeasure k (1 / theta)) := by
  refine ⟨⟨k, theta⟩, ?_, fun E fuel => agrees_gamma fuel k theta hk, samples_gamma hk ht⟩
  unfold gammaInit
  rw [if_neg]
  push_cast
  rintro (h | h) <;> linarith

/-- **C127.**  `ExponentialDistribution(lambda)` follows the exponential law of rate `lambda`. -/
theorem C127_exponential (lambda : ℝ) (hl : 0 < lambda) :
    ∃ d, exponentialInit lambda = .ok d ∧
      (∀ (E : Engine) (fuel : Nat), Agrees (gammaNext Libm.real fuel d : R E ℝ) (gammaSmp 1 (1 / lambda))) ∧
      Samples (gammaSmp 1 (1 / lambda)) (expMeasure lambda) := by
  obtain ⟨d, h1, h2, h3⟩ := C127_gamma 1 (1 / lambda) one_pos (by positivity)
  refine ⟨d, ?_, h2, ?_⟩
  · unfold exponentialInit
    rw [← h1]
    push_cast
    rfl
  · rw [one_div_one_div] at h3
    exact h3

/-- **C127.**  `ChiSquaredDistribution(r)` follows the chi-squared law of `r` degrees of freedom, i.e. the
gamma law of shape `r / 2` and rate `1 / 2`. -/
theorem C127_chiSquared (r : ℝ) (hr : 0 < r) :
    ∃ d, chiSquaredInit r = .ok d ∧
      (∀ (E : Engine) (fuel : Nat), Agrees (gammaNext Libm.real fuel d : R E ℝ) (gammaSmp (r / 2) 2)) ∧
      Samples (gammaSmp (r / 2) 2) (gammaMeasure (r / 2) (1 / 2)) := by
  obtain ⟨d, h1, h2, h3⟩ := C127_gamma (r / 2) 2 (by positivity) two_pos
  refine ⟨d, ?_, h2, h3⟩
  unfold chiSquaredInit
  rw [← h1]
  push_cast
  rfl

/-- **C127.**  Two successive results of a new `NormalDistribution(mean, stddev)` are independent and
normal with this mean and the variance `stddev^2`.  (After two calls the object is as new: C95.) -/
theorem C127_normal (mean stddev : ℝ) (hs : 0 < stddev) :
    ∃ d, normalInit mean stddev = .ok d ∧
      (∀ (E : Engine) (fuel : Nat), Agrees (do
        let p ← normalNext Libm.real fuel d
        let q ← normalNext Libm.real fuel p.2
        pure (p.1, q.1) : R E (ℝ × ℝ)) (normalSmp mean stddev)) ∧
      Samples (normalSmp mean stddev)
        ((gaussianReal mean (stddev ^ 2).toNNReal).prod (gaussianReal mean (stddev ^ 2).toNNReal)) := by
  refine ⟨⟨mean, stddev, none, false⟩, ?_, fun E fuel => agrees_normal fuel mean stddev, samples_normal mean⟩
  unfold normalInit
  rw [if_neg]
  push_cast
  linarith

/-- **C127.**  `StudentTDistribution(r)` follows the law of `x * sqrt(r / y)` for independent `x`, standard
normal, and `y`, chi-squared with `r` degrees of freedom; in whichever order the compiler evaluates the
two calls. -/
theorem C127_studentT (r : ℝ) (hr : 0 < r) (left : Bool) :
    ∃ d, studentTInit r = .ok d ∧
      (∀ (E : Engine) (fuel : Nat), Agrees (studentTNext Libm.real fuel left d : R E ℝ) (studentTSmp left r)) ∧
      Samples (studentTSmp left r) (((gaussianReal 0 1).prod (gammaMeasure (r / 2) (1 / 2))).map
        fun p => p.1 * Real.sqrt (r / p.2)) := by
  refine ⟨r, ?_, fun E fuel => agrees_studentT fuel left r hr, samples_studentT hr left⟩
  unfold studentTInit
  rw [if_neg]
  push_cast
  linarith

/-- **C127.**  `UniformDistribution(min, max)` is uniform on the interval. -/
theorem C127_uniform (min max : ℝ) (h : min < max) :
    ∃ d, uniformInit min max = .ok d ∧
      (∀ E : Engine, Agrees (uniformNext d : R E ℝ) (uniformSmp min max)) ∧
      Samples (uniformSmp min max) (ENNReal.ofReal (1 / (max - min)) • volume.restrict (Set.Icc min max)) := by
  refine ⟨(min, max), ?_, fun E => agrees_uniform min max h.le, samples_uniform h⟩
  unfold uniformInit
  rw [if_neg (not_lt.2 h.le)]

/-- **C127.**  `BernoulliDistribution(p)` is `true` with probability `p`. -/
theorem C127_bernoulli (p : ℝ) (h0 : 0 ≤ p) (h1 : p ≤ 1) :
    ∃ d, bernoulliInit p = .ok d ∧ (∀ E : Engine, Agrees (bernoulliNext d : R E Bool) (belowSmp p)) ∧
      Samples (belowSmp p)
        (ENNReal.ofReal p • Measure.dirac true + ENNReal.ofReal (1 - p) • Measure.dirac false) := by
  refine ⟨p, ?_, fun E => agrees_bernoulli p, samples_below h0 h1⟩
  unfold bernoulliInit
  rw [if_neg]
  push_cast
  rintro (h | h) <;> linarith

/-- **C127.**  `PoissonDistribution(lambda)` follows the Poisson law. -/
theorem C127_poisson (lambda : NNReal) (hl : 0 < lambda) :
    ∃ d, poissonInit Real.exp (lambda : ℝ) = .ok d ∧
      (∀ E : Engine, Agrees (poissonNext d : R E Int) (quantileSmp (poissonCdf lambda))) ∧
      Samples (quantileSmp (poissonCdf lambda)) ((poissonMeasure lambda).map fun k : ℕ => (k : ℤ)) := by
  have hl' : (0 : ℝ) < lambda := hl
  refine ⟨⟨lambda, Real.exp (-lambda)⟩, ?_, fun E => agrees_poisson lambda, ?_⟩
  · unfold poissonInit
    rw [if_neg]
    push_cast
    linarith
  · have h := samples_quantile _ (fun k : ℕ => by positivity) (poisson_hasSum lambda)
    have e : massLaw (fun k : ℕ => (lambda : ℝ) ^ k * Real.exp (-lambda) / (k.factorial : ℝ)) =
        (poissonMeasure lambda).map fun k : ℕ => (k : ℤ) := by
      unfold massLaw poissonMeasure
      rw [Measure.map_sum (measurable_from_top.aemeasurable)]
      congr 1
      funext k
      rw [Measure.map_smul, Measure.map_dirac' measurable_from_top, mul_comm (Real.exp _)]
    rw [e] at h
    exact h

/-- **C127.**  `BinomialDistribution(n, p)` follows the binomial law, if `n` is at most 33 (beyond, the
constructor overflows: C62). -/
theorem C127_binomial (n : Nat) (hn : n ≤ 33) (p : unitInterval) :
    ∃ d, binomialInit (fun x i => x ^ i) n (p : ℝ) = .ok d ∧
      (∀ E : Engine, Agrees (binomialNext d : R E Int) (quantileSmp (binomialCdf n (p : ℝ)))) ∧
      Samples (quantileSmp (binomialCdf n (p : ℝ))) ((binomial n p).map fun k : ℕ => (k : ℤ)) := by
  obtain ⟨d, hd, hrun⟩ := C62_binomial_partial n hn (p : ℝ) p.2.1 p.2.2
  refine ⟨d, hd, fun E => agrees_quantile fun s v s' h => ?_, ?_⟩
  · obtain ⟨k, _, hr, hq, _⟩ := hrun E s _ _ (nextDouble0_real s)
    rw [hr] at h
    cases h
    exact ⟨rfl, fun hu => ⟨k, rfl, hq hu⟩⟩
  · have hp : 0 ≤ 1 - (p : ℝ) := by have := p.2.2; linarith
    have hp0 := p.2.1
    have h := samples_quantile _ (fun k : ℕ => by positivity) (binomial_hasSum n (p : ℝ))
    have e : massLaw (fun k : ℕ => (n.choose k : ℝ) * (p : ℝ) ^ k * (1 - (p : ℝ)) ^ (n - k)) =
        (binomial n p).map fun k : ℕ => (k : ℤ) := by
      have : binomial n p = Measure.sum fun k : ℕ => (binomial n p) {k} • Measure.dirac k :=
        (Measure.sum_smul_dirac _).symm
      rw [this]
      unfold massLaw
      rw [Measure.map_sum (measurable_from_top.aemeasurable)]
      congr 1
      funext k
      rw [Measure.map_smul, Measure.map_dirac' measurable_from_top, binomial_singleton]
    rw [e] at h
    exact h

/-- **C127.**  `NegativeBinomialDistribution(r, p)` gives `k` the probability
`choose(k + r - 1, r - 1) p^r (1 - p)^k`. -/
theorem C127_negBinomial (r : Nat) (hr : 0 < r) (p : ℝ) (h0 : 0 < p) (h1 : p ≤ 1) :
    ∃ d, negBinomialInit r p = .ok d ∧
      (∀ E : Engine, Agrees (negBinomialNext d : R E Int) (quantileSmp (negBinomialCdf r p))) ∧
      Samples (quantileSmp (negBinomialCdf r p))
        (massLaw fun k => ((k + r - 1).choose (r - 1) : ℝ) * p ^ r * (1 - p) ^ k) := by
  refine ⟨⟨r, p, p ^ r⟩, ?_, fun E => agrees_negBinomial r hr p, ?_⟩
  · unfold negBinomialInit
    rw [if_neg (by push_cast; rintro (h | h | h); exact absurd h (by omega); linarith; linarith),
      genericBinaryPow_eq p r hr]
    rfl
  · have hp : 0 ≤ 1 - p := by linarith
    exact samples_quantile _ (fun k : ℕ => by positivity) (negBinomial_hasSum r hr p h0 h1)

/-- **C127.**  `GeometricDistribution(p)` follows the geometric law: the number of failures before the
first success. -/
theorem C127_geometric (p : unitInterval) (h0 : 0 < p) :
    ∃ d, geometricInit (p : ℝ) = .ok d ∧
      (∀ E : Engine, Agrees (negBinomialNext d : R E Int) (quantileSmp (negBinomialCdf 1 (p : ℝ)))) ∧
      Samples (quantileSmp (negBinomialCdf 1 (p : ℝ))) ((geometricMeasure p).map fun k : ℕ => (k : ℤ)) := by
  obtain ⟨d, h1, h2, h3⟩ := C127_negBinomial 1 one_pos (p : ℝ) h0 p.2.2
  refine ⟨d, h1, h2, ?_⟩
  have e : massLaw (fun k : ℕ => ((k + 1 - 1).choose (1 - 1) : ℝ) * (p : ℝ) ^ 1 * (1 - (p : ℝ)) ^ k) =
      (geometricMeasure p).map fun k : ℕ => (k : ℤ) := by
    rw [geometricMeasure_eq h0.ne']
    unfold massLaw
    rw [Measure.map_sum (measurable_from_top.aemeasurable)]
    congr 1
    funext k
    rw [Measure.map_smul, Measure.map_dirac' measurable_from_top]
    congr 2
    simp
    ring
  rw [e] at h3
  exact h3

/-- **C96, the law of the fractional part.**  The first accepted candidate of the method of Ahrens and
Dieter follows the gamma law of shape `delta`. -/
theorem C96_law (delta : ℝ) (h0 : 0 < delta) (h1 : delta < 1) : Samples (adSmp delta) (gammaMeasure delta 1) :=
  samples_ad h0 h1

example : Samples (adSmp (1 / 2)) (gammaMeasure (1 / 2) 1) := C96_law (1 / 2) (by norm_num) (by norm_num)

/-- **C127.**  The results of calling a sampler again and again are independent and all have its law: for
every procedure `F` with a law `ν`, and every code `f` that follows `F`, `n` calls of `f` yield the first
`n` results of repeating `F`; and these are independent with the law `ν`. -/
theorem C127_iid {β : Type} [MeasurableSpace β] (F : Smp β) (ν : Measure β) [IsProbabilityMeasure ν]
    (h : Samples F ν) :
    (∀ (E : Engine) (f : R E β), Agrees f F → ∀ n, Agrees (calls f n) fun ω =>
      ((List.range n).map (results F ω), (fun ω => (F ω).2)^[n] ω)) ∧
    ideal.map (results F) = Measure.infinitePi fun _ => ν := by
  refine ⟨fun E f hf n => ?_, h.iid⟩
  induction n with
  | zero => exact agrees_pure []
  | succ n ih =>
    have hb := hf.bind fun x => ih.bind fun l => agrees_pure (E := E) (x :: l)
    have e : (fun ω => ((List.range (n + 1)).map (results F ω), (fun ω => (F ω).2)^[n + 1] ω)) = fun ω =>
        ((F ω).1 :: (List.range n).map (results F (F ω).2), (fun ω => (F ω).2)^[n] (F ω).2) := by
      funext ω
      rw [List.range_succ_eq_map, List.map_cons, List.map_map]
      rfl
    rw [e]
    exact hb

/-! ### Examples -/

/-- A gamma sampler with a shape that is not whole, and the mean of what it returns. -/
example : ∃ d, gammaInit (5 / 2 : ℝ) 3 = .ok d ∧
    (∀ (E : Engine) (fuel : Nat), Agrees (gammaNext Libm.real fuel d : R E ℝ) (gammaSmp (5 / 2) 3)) ∧
    Samples (gammaSmp (5 / 2) 3) (gammaMeasure (5 / 2) (1 / 3)) :=
  C127_gamma (5 / 2) 3 (by norm_num) (by norm_num)

/-- The code does return: an engine whose outputs are all `2^63`. -/
example : ∃ (E : Engine) (s : E.σ) (x : ℝ) (s' : E.σ),
    gammaNext Libm.real 0 ⟨((1 : Nat) : ℝ), 1 / 2⟩ s = .ok (x, s') := by
  let E : Engine := ⟨Unit, fun _ => (), fun _ => (2 ^ 63, ())⟩
  exact ⟨E, (), _, _, gamma_int_real (E := E) 0 1 (by decide) (1 / 2) ()⟩

/-- The probability that `GeometricDistribution(1/2)` returns 2 is 1/8. -/
example : ideal.map (fun ω => (quantileSmp (negBinomialCdf 1 (1 / 2 : ℝ)) ω).1) {2} = ENNReal.ofReal (1 / 8) := by
  obtain ⟨d, _, _, h⟩ := C127_negBinomial 1 one_pos (1 / 2) (by norm_num) (by norm_num)
  have := massLaw_prob _ (fun k => by positivity) (negBinomial_hasSum 1 one_pos (1 / 2) (by norm_num) (by norm_num))
  rw [h.map_fst, massLaw, Measure.sum_apply _ (measurableSet_singleton _), tsum_eq_single 2]
  · rw [Measure.smul_apply, Measure.dirac_apply' _ (measurableSet_singleton _), Set.indicator_of_mem (by simp)]
    norm_num
  · intro j hj
    rw [Measure.smul_apply, Measure.dirac_apply' _ (measurableSet_singleton _), Set.indicator_of_notMem, smul_zero]
    rw [Set.mem_singleton_iff]
    omega

/-- The standard normal sampler. -/
example : Samples (normalSmp 0 1) ((gaussianReal 0 1).prod (gaussianReal 0 1)) := by
  obtain ⟨_, _, _, h⟩ := C127_normal 0 1 one_pos
  simpa using h

/-- Two throws of a fair coin show `true` with probability 1/4. -/
example : ideal {ω | results (belowSmp (1 / 2)) ω 0 = true ∧ results (belowSmp (1 / 2)) ω 1 = true} =
    ENNReal.ofReal (1 / 4) := by
  obtain ⟨_, _, _, h⟩ := C127_bernoulli (1 / 2) (by norm_num) (by norm_num)
  have hp : IsProbabilityMeasure (ENNReal.ofReal (1 / 2) • Measure.dirac true +
      ENNReal.ofReal (1 - 1 / 2) • Measure.dirac false) := by
    constructor
    rw [Measure.add_apply, Measure.smul_apply, Measure.smul_apply, measure_univ, measure_univ, smul_eq_mul,
      smul_eq_mul, mul_one, mul_one, ← ENNReal.ofReal_add (by norm_num) (by norm_num)]
    norm_num
  have h2 := (h.first 2 (fun _ => {true}) (fun _ => measurableSet_singleton _) Set.univ MeasurableSet.univ).2
  have e : {ω | (∀ i < 2, results (belowSmp (1 / 2)) ω i ∈ ({true} : Set Bool)) ∧
      (fun ω => (belowSmp (1 / 2) ω).2)^[2] ω ∈ Set.univ} =
      {ω | results (belowSmp (1 / 2)) ω 0 = true ∧ results (belowSmp (1 / 2)) ω 1 = true} := by
    ext ω
    constructor
    · rintro ⟨a, _⟩
      exact ⟨a 0 (by omega), a 1 (by omega)⟩
    · rintro ⟨a, b⟩
      refine ⟨fun i hi => ?_, trivial⟩
      obtain rfl | rfl : i = 0 ∨ i = 1 := by omega
      · exact a
      · exact b
  rw [e] at h2
  rw [h2, Finset.prod_range_succ, Finset.prod_range_one]
  have e3 : (ENNReal.ofReal (1 / 2) • Measure.dirac true + ENNReal.ofReal (1 - 1 / 2) • Measure.dirac false)
      ({true} : Set Bool) = ENNReal.ofReal (1 / 2) := by simp
  rw [e3, measure_univ, mul_one, ← ENNReal.ofReal_mul (by norm_num)]
  norm_num

end Rand.Props
