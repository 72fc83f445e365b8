import Verif.Proof.RandomUse
import Mathlib.Analysis.Real.Pi.Bounds

/-! # C186: how many outputs of the engine a sampler takes

Exact arithmetic.  `Takes f N` (Spec/RandomUse.lean) says that the code takes as many outputs as the function
`N` of the outputs says; `meanOf N` is the mean of this number when the outputs are independent and uniform. -/

namespace Rand.Props
open MeasureTheory ProbabilityTheory Spec Cpp Rand

/-- **C186.**  Two successive results of a new `NormalDistribution(mean, stddev)` together take two outputs for
each point of the square that is tried.  More than `n` points are tried with probability `(1 - pi/4)^n`;
on average `8/pi` outputs are taken, `4/pi` for each result. -/
theorem C186_normal (mean stddev : ℝ) (hs : 0 < stddev) :
    ∃ d, normalInit mean stddev = .ok d ∧
      (∀ E : Engine, Takes (fun fuel => (do
        let p ← normalNext Libm.real fuel d
        let q ← normalNext Libm.real fuel p.2
        pure (p.1, q.1) : R E (ℝ × ℝ))) normalUse) ∧
      (∀ n : ℕ, ideal {ω | ((2 * n : ℕ) : ℕ∞) < normalUse ω} = ENNReal.ofReal ((1 - Real.pi / 4) ^ n)) ∧
      meanOf normalUse = ENNReal.ofReal (8 / Real.pi) := by
  refine ⟨⟨mean, stddev, none, false⟩, ?_, fun E => ?_, fun n => ?_, mean_normal⟩
  · unfold normalInit
    rw [if_neg]
    push_cast
    linarith
  · have h := (takes_normalReject (E := E)).bind (L := fun ω => (normalSmp 0 1 ω).2)
      (fun ω m hm => normalUse_left (mean := 0) (sd := 1) hm)
      (g := fun _ v => pure (v.1 * Libm.real.sqrt (-((2 : Int) : ℝ) * Libm.real.log v.2.2 / v.2.2) * stddev + mean,
        v.2.1 * Libm.real.sqrt (-((2 : Int) : ℝ) * Libm.real.log v.2.2 / v.2.2) * stddev + mean))
      (M := fun _ => 0) fun x => takes_pure _
    simp only [add_zero] at h
    convert h using 2 with fuel
    show ((normalReject fuel >>= fun v => _) >>= _) = _
    rw [bind_assoc]
    rfl
  · obtain ⟨μ, _, h1, h2⟩ := square_law
    have h := (rounds_tail h1 measurableSet_disc n).2
    have e : {ω | ((2 * n : ℕ) : ℕ∞) < normalUse ω} = {ω | (n : ℕ∞) < rounds square disc ω} := by
      ext ω
      show ((2 * n : ℕ) : ℕ∞) < 2 * rounds square disc ω ↔ (n : ℕ∞) < rounds square disc ω
      rcases rounds_cases square disc ω with ⟨j, _, _, h3⟩ | ⟨_, h3⟩
      · rw [h3]
        constructor
        · intro h
          have : 2 * n < 2 * (j + 1) := by exact_mod_cast h
          exact_mod_cast (by omega : n < j + 1)
        · intro h
          have : n < j + 1 := by exact_mod_cast h
          exact_mod_cast (by omega : 2 * n < 2 * (j + 1))
      · rw [h3, ENat.mul_top (by simp)]
        simp only [ENat.natCast_lt_top]
    have hp : Real.pi / 4 ≤ 1 := by linarith [Real.pi_le_four]
    rw [e, h, h2, ENNReal.ofReal_pow (by linarith), ENNReal.ofReal_sub _ (by positivity), ENNReal.ofReal_one]

/-- **C186.**  `GammaDistribution(k, theta)` with a shape that fits into an `int` takes one output for each unit
of the shape, and if the shape is not whole, with the rest `d`, three for each candidate tried; on average
`3 (e + d) / (e Gamma(1 + d))`, fewer than 6. -/
theorem C186_gamma (k theta : ℝ) (hk : 0 < k) (hk2 : k < INT_MAX + 1) (ht : 0 < theta) :
    ∃ d, gammaInit k theta = .ok d ∧
      (∀ E : Engine, Takes (fun fuel => (gammaNext Libm.real fuel d : R E ℝ)) (gammaUse k)) ∧
      meanOf (gammaUse k) = (⌊k⌋.toNat : ENNReal) + (if k = ⌊k⌋ then 0 else
        ENNReal.ofReal (3 * (Real.exp 1 + (k - ⌊k⌋)) / (Real.exp 1 * Real.Gamma (1 + (k - ⌊k⌋))))) ∧
      meanOf (gammaUse k) < (⌊k⌋.toNat : ENNReal) + 6 := by
  refine ⟨⟨k, theta⟩, ?_, fun E => takes_gamma hk hk2, mean_gamma k, ?_⟩
  · unfold gammaInit
    rw [if_neg]
    push_cast
    rintro (h | h) <;> linarith
  · rw [mean_gamma]
    refine ENNReal.add_lt_add_left (by simp) ?_
    by_cases hd : k = ⌊k⌋
    · rw [if_pos hd]
      norm_num
    · rw [if_neg hd]
      have h1 : 0 < k - ⌊k⌋ := lt_of_le_of_ne (by linarith [Int.floor_le k]) (fun h => hd (by linarith))
      have h2 : k - ⌊k⌋ < 1 := by linarith [Int.lt_floor_add_one k]
      have hG := gamma_low h1 h2
      have hpi := Real.pi_gt_three
      have he := Real.exp_one_gt_d9
      rw [← ENNReal.ofReal_ofNat 6, ENNReal.ofReal_lt_ofReal_iff (by norm_num), div_lt_iff₀ (by nlinarith)]
      nlinarith

/-- **C186.**  `ExponentialDistribution(lambda)` takes one output. -/
theorem C186_exponential (lambda : ℝ) (hl : 0 < lambda) :
    ∃ d, exponentialInit lambda = .ok d ∧
      ∀ E : Engine, Takes (fun fuel => (gammaNext Libm.real fuel d : R E ℝ)) fun _ => 1 := by
  have hm : INT_MAX = 2147483647 := rfl
  obtain ⟨d, h1, h2, -⟩ := C186_gamma 1 (1 / lambda) one_pos (by rw [hm]; norm_num) (by positivity)
  refine ⟨d, ?_, fun E => ?_⟩
  · unfold exponentialInit
    rw [← h1]
    push_cast
    rfl
  · have h := h2 E
    have e : gammaUse 1 = fun _ => 1 := by
      funext ω
      unfold gammaUse
      simp
    rwa [e] at h

/-- **C186.**  `StudentTDistribution(r)` makes a new normal sampler for each result, so that the second number
of the polar method is lost: it takes `8/pi` outputs on average and those of the gamma sampler of shape
`r / 2`; in whichever order the compiler evaluates the two calls. -/
theorem C186_studentT (r : ℝ) (hr : 0 < r) (hr2 : r / 2 < INT_MAX + 1) (left : Bool) :
    ∃ d, studentTInit r = .ok d ∧
      (∀ E : Engine, Takes (fun fuel => (studentTNext Libm.real fuel left d : R E ℝ)) (studentTUse left r)) ∧
      meanOf (studentTUse left r) = ENNReal.ofReal (8 / Real.pi) + meanOf (gammaUse (r / 2)) := by
  refine ⟨r, ?_, fun E => takes_studentT hr hr2 left, by rw [mean_studentT hr, mean_normal]⟩
  unfold studentTInit
  rw [if_neg]
  push_cast
  linarith

/-- **C186.**  All other samplers take one output for each result, whatever the arithmetic (`D`, for example
`double`), the parameters and the state of the object. -/
theorem C186_one {D : Type} [Add D] [Sub D] [Neg D] [Mul D] [Div D] [IntCast D] [LT D] [LE D] [DecidableLT D]
    [DecidableLE D] (E : Engine) :
    (∀ d : D × D, TakesOne (uniformNext d : R E D)) ∧ (∀ d : Int × Int, TakesOne (uniformIntNext d : R E Int)) ∧
    (∀ p : D, TakesOne (bernoulliNext p : R E Bool)) ∧ (∀ b : Binomial D, TakesOne (binomialNext b : R E Int)) ∧
    (∀ b : NegBinomial D, TakesOne (negBinomialNext b : R E Int)) ∧
    (∀ b : Poisson D, TakesOne (poissonNext b : R E Int)) :=
  ⟨fun _ => one_nextDouble2 _ _, fun _ => one_nextInt2 _ _,
    fun p => one_then (one_nextDouble2 _ _) fun u => .ok (decide (u < p)),
    fun _ => one_then (one_nextDouble2 _ _) _, fun _ => one_then (one_nextDouble2 _ _) _,
    fun _ => one_then (one_nextDouble2 _ _) _⟩

/-! ### Examples -/

/-- An engine: the first two outputs are 0, all others `2^63`. -/
def demo : Engine := ⟨ℕ, fun _ => 0, fun n => (if n < 2 then 0 else 2 ^ 63, n + 1)⟩

/-- Its first state. -/
def demo0 : demo.σ := (0 : ℕ)

theorem demo_unit : unitAt demo demo0 = fun i => if i < 2 then 0 else 2 ^ 63 / (2 ^ 64 - 1) := by
  have hs : ∀ i : ℕ, stateAt demo demo0 i = i := by
    intro i
    induction i with
    | zero => rfl
    | succ i ih =>
      unfold stateAt at ih ⊢
      rw [Function.iterate_succ_apply', ih]
      rfl
  funext i
  unfold unitAt outAt
  rw [hs]
  by_cases hi : i < 2
  · simp [demo, hi]
  · rw [if_neg hi]
    have : ((demo.draw i).1.val : ℝ) = 2 ^ 63 := by
      have : (demo.draw i).1 = 2 ^ 63 := if_neg hi
      rw [this, show ((2 ^ 63 : Fin (2 ^ 64)).val) = 2 ^ 63 from by decide +kernel]
      norm_num
    rw [this]

/-- The first point `(-1, -1)` is rejected, the second is taken: four outputs. -/
example : normalUse (unitAt demo demo0) = 4 ∧ ∀ i < 4, outAt demo demo0 i < 2 ^ 64 - 1 := by
  constructor
  · have : rounds square disc (unitAt demo demo0) = ((1 + 1 : ℕ) : ℕ∞) := by
      refine rounds_eq ?_ fun i hi => ?_
      · rw [square_results, demo_unit]
        constructor <;> norm_num
      · obtain rfl : i = 0 := by omega
        rw [square_results, demo_unit]
        rintro ⟨_, h⟩
        norm_num at h
    unfold normalUse
    rw [this]
    rfl
  · decide +kernel

/-- A gamma sampler with a shape that is not whole takes fewer than 8 outputs on average. -/
example : meanOf (gammaUse (5 / 2)) < 8 := by
  have hm : INT_MAX = 2147483647 := rfl
  obtain ⟨_, _, _, _, h⟩ := C186_gamma (5 / 2) 1 (by norm_num) (by rw [hm]; norm_num) one_pos
  have e : ⌊(5 / 2 : ℝ)⌋ = 2 := by rw [Int.floor_eq_iff]; norm_num
  rw [e, show Int.toNat 2 = 2 from rfl] at h
  norm_num at h
  exact h

/-- One degree of freedom: the chi-squared sampler has the shape 1/2. -/
example : ∃ d, studentTInit (1 : ℝ) = .ok d ∧
    (∀ E : Engine, Takes (fun fuel => (studentTNext Libm.real fuel true d : R E ℝ)) (studentTUse true 1)) ∧
    meanOf (studentTUse true 1) = ENNReal.ofReal (8 / Real.pi) + meanOf (gammaUse (1 / 2)) := by
  have hm : INT_MAX = 2147483647 := rfl
  exact C186_studentT 1 one_pos (by rw [hm]; norm_num) true

/-- A Bernoulli sampler takes an output and returns. -/
example : (bernoulliNext (1 / 2 : ℝ) : R demo Bool) demo0 = .ok (true, stateAt demo demo0 1) := by
  unfold bernoulliNext
  rw [bind_run, nextDouble0_real]
  simp only [Out.bind, pure_run]
  have : ((demo.draw demo0).1.val : ℝ) = 0 := by simp [demo, demo0]
  rw [this]
  norm_num
  rfl

end Rand.Props
