import Verif.Proof.RandomDiscrete
import Verif.Props.Random
import Mathlib.Analysis.SpecialFunctions.Exponential
import Mathlib.Analysis.Complex.ExponentialBounds

/-! # Properties of the discrete samplers: C62, C89, C90

In a theorem about exact arithmetic the numbers are those of a linearly ordered field `K`; `Dbl` is
binary64.  `nextDouble0 s = .ok (u, s')` says that `nextDouble()` yields `u` in the state `s` of the
engine. -/

set_option exponentiation.threshold 2000

namespace Rand.Props
open Cpp Spec Rand

section
variable {K : Type} [Field K] [LinearOrder K] [IsStrictOrderedRing K]

/-! ### C62 -/

/-- **C62, what holds (exact arithmetic).**  For `n ≤ 33`, `BinomialDistribution(n, p)` returns a
number from 0 to `n`: the inverse of the distribution function at `u` (and `n` for `u ≥ 1`). -/
theorem C62_binomial_partial (n : Nat) (hn : n ≤ 33) (p : K) (h0 : 0 ≤ p) (h1 : p ≤ 1) :
    ∃ b, binomialInit (fun x i => x ^ i) n p = .ok b ∧
      ∀ (E : Engine) (s s' : E.σ) (u : K), nextDouble0 s = .ok (u, s') →
        ∃ k : Nat, k ≤ n ∧ binomialNext b s = .ok ((k : Int), s') ∧
          (u < 1 → IsQuantile (binomialCdf n p) u k) ∧ (1 ≤ u → k = n) := by
  have hM : INT_MAX = 2147483647 := rfl
  obtain ⟨b, hb, hbn, hbt, _⟩ := binomialInit_ok (fun (x : K) i => x ^ i) n (by omega) p
    (by push_cast; rintro (h | h) <;> linarith) (fun i => (n.choose i : Int))
    (fun i hi => binomial_le_33 n hn i hi.le) (binomialCdf n p)
    (fun k => ∑ i ∈ Finset.range k, (n.choose i : K) * p ^ i * (1 - p) ^ (n - i))
    (by simp) (by intro i hi; rw [Finset.sum_range_succ]; push_cast; rfl) (fun i hi => rfl)
  refine ⟨b, hb, fun E s s' u hu => ?_⟩
  obtain ⟨k, _, h2, h3, h4, h5⟩ := binomialScan_spec b u n hbn _ hbt n 0 (by omega)
  refine ⟨k, h2, ?_, ?_, ?_⟩
  · unfold binomialNext
    rw [bind_run, hu]
    simp only [Out.bind]
    rw [lift_run, hbn, Int.toNat_natCast, h3]
    rfl
  · intro hu1
    refine ⟨?_, fun j hj => h4 j (by omega) hj⟩
    rcases Nat.eq_or_lt_of_le h2 with rfl | h
    · rwa [binomialCdf_last]
    · exact h5 h
  · intro hu1
    by_contra hk
    have := h5 (by omega)
    have := binomialCdf_le_one n p h0 h1 k h2
    linarith

/-- **C62, what holds (exact arithmetic).**  `NegativeBinomialDistribution(r, p)` (and
`GeometricDistribution(p)`, with `r = 1`) returns the inverse `k` of the distribution function at
`u`, if `r + k` fits into an `int`. -/
theorem C62_negBinomial_partial (r : Nat) (hr : 0 < r) (p : K) (h0 : 0 < p) (h1 : p ≤ 1) :
    ∃ b, negBinomialInit r p = .ok b ∧ (r = 1 → geometricInit p = .ok b) ∧
      ∀ (E : Engine) (s s' : E.σ) (u : K) (k : Nat), nextDouble0 s = .ok (u, s') →
        IsQuantile (negBinomialCdf r p) u k → (r + k : Int) ≤ INT_MAX →
        negBinomialNext b s = .ok ((k : Int), s') := by
  have hi : negBinomialInit r p = .ok ⟨r, p, p ^ r⟩ := by
    unfold negBinomialInit
    rw [if_neg (by push_cast; rintro (h | h | h); exact absurd h (by omega); linarith; linarith),
      genericBinaryPow_eq p r hr]
    rfl
  refine ⟨⟨r, p, p ^ r⟩, hi, ?_, ?_⟩
  · rintro rfl; exact hi
  · intro E s s' u k hu ⟨hk1, hk2⟩ hk
    have hM : INT_MAX = 2147483647 := rfl
    unfold negBinomialNext
    rw [bind_run, hu]
    simp only [Out.bind]
    obtain ⟨e1, e2⟩ := negCdf_zero r p
    have := negBinomialLoop_find (r : Int) (1 - p) u (negPmf r p) (negBinomialCdf r p)
      (fun j => negPmf_succ r hr p j) (negCdf_succ r p) (by omega) k hk (by simpa using hk1)
      (fun j hj => by simpa using hk2 j hj) 0 (by omega) (2 ^ 31) (by omega)
    rw [e1, e2] at this
    rw [lift_run]
    push_cast at this ⊢
    rw [this]
    rfl

end

/-- **C62.**  Such a `k` exists for every `u < 1` (negative binomial distribution). -/
theorem C62_negBinomial_exists_partial (r : Nat) (hr : 0 < r) (p : ℝ) (h0 : 0 < p) (h1 : p ≤ 1) (u : ℝ)
    (hu : u < 1) : ∃ k, IsQuantile (negBinomialCdf r p) u k :=
  exists_quantile _ (negCdf_tendsto r hr p h0 h1) u hu

/-- **C62, what holds (exact arithmetic).**  `PoissonDistribution(lambda)` returns the inverse `k` of
the distribution function at `u`, which exists for every `u < 1`, if `k` fits into an `int`. -/
theorem C62_poisson_partial (lambda : ℝ) (h0 : 0 < lambda) :
    ∃ b, poissonInit Real.exp lambda = .ok b ∧
      ∀ (E : Engine) (s s' : E.σ) (u : ℝ), nextDouble0 s = .ok (u, s') →
        (u < 1 → ∃ k, IsQuantile (poissonCdf lambda) u k) ∧
        ∀ k : Nat, IsQuantile (poissonCdf lambda) u k → (k : Int) ≤ INT_MAX →
          poissonNext b s = .ok ((k : Int), s') := by
  have hi : poissonInit Real.exp lambda = .ok ⟨lambda, Real.exp (-lambda)⟩ := by
    unfold poissonInit
    rw [if_neg (by push_cast; linarith)]
  refine ⟨_, hi, fun E s s' u hu => ⟨exists_quantile _ (poiCdf_tendsto lambda) u, ?_⟩⟩
  intro k ⟨hk1, hk2⟩ hk
  have hM : INT_MAX = 2147483647 := rfl
  unfold poissonNext
  rw [bind_run, hu]
  simp only [Out.bind]
  have := poissonLoop_find lambda u (poiPmf lambda) (poissonCdf lambda)
    (fun j => poiPmf_succ lambda j) (poiCdf_succ lambda) k hk (by simpa using hk1)
    (fun j hj => by simpa using hk2 j hj) 0 (by omega) (2 ^ 31) (by omega)
  have e1 : poissonCdf lambda 0 = Real.exp (-lambda) := by simp [poissonCdf]
  have e2 : poiPmf lambda 0 = Real.exp (-lambda) := by simp [poiPmf]
  rw [e1, e2] at this
  rw [Nat.cast_zero] at this
  rw [lift_run, this]
  rfl

/-! ### C62 in binary64 -/

/-- **C62, refuted.**  `BinomialDistribution(34, p)` has undefined behaviour for every `p` from 0 to 1
(and every kind of arithmetic): the binomial coefficient of 34 and 16 does not fit into an `int`. -/
theorem C62_binomial_refuted {D : Type} [Add D] [Sub D] [Neg D] [Mul D] [Div D] [IntCast D] [LT D]
    [LE D] [DecidableLT D] [DecidableLE D] (pow : D → Nat → D) (p : D)
    (h0 : ¬ p < ((0 : Int) : D)) (h1 : ¬ ((1 : Int) : D) < p) : binomialInit pow 34 p = .ub := by
  unfold binomialInit
  rw [if_neg (by rintro (h | h | h); exact absurd h (by decide); exact h0 h; exact h1 h),
    int_ok (by decide)]
  simp only [Out.ok_bind]
  obtain ⟨st, e, _⟩ := foldlM_range_inv (binomialStep pow (34 : Int).toNat p (((1 : Int) : D) - p))
    (fun _ st => st.2.size = 35) 16 (((0 : Int) : D), Arr.new ((34 : Int) + 1).toNat) rfl
    (by
      intro k hk st h
      unfold binomialStep
      have hc : ∀ k : Fin 16, ∃ c, MathFns.binomial int ((34 : Int).toNat : Int) ((k.val : Nat) : Int) = .ok c := by
        intro k
        rw [show (((34 : Int).toNat : Nat) : Int) = ((34 : Nat) : Int) from rfl]
        have hb : ∀ k : Fin 16, IsInt ((34 : Nat).choose k.val : Int) := by decide +kernel
        refine ⟨_, MathFns.C27_binomial 34 k.val (by omega) ?_⟩
        rw [Finset.card_powersetCard, Finset.card_range]
        exact hb k
      obtain ⟨c, hc⟩ := hc ⟨k, hk⟩
      rw [hc]
      simp only [Out.ok_bind]
      unfold Arr.set
      rw [if_pos ⟨by omega, by omega⟩]
      exact ⟨_, rfl, h⟩)
  have hr : List.range (34 : Int).toNat = List.range 16 ++ 16 :: (List.range' 17 17) := by decide +kernel
  rw [hr, List.foldlM_append, e]
  simp only [Out.ok_bind, List.foldlM_cons]
  have : MathFns.binomial int ((34 : Int).toNat : Int) ((16 : Nat) : Int) = .ub := by decide +kernel
  unfold binomialStep
  rw [this]
  rfl

/-- **C62, refuted (binary64).**  `PoissonDistribution(800).next()` never returns, whatever the
generator yields: `std::exp(-800)` is 0, so all probabilities are 0, and `result` overflows.  The
correctly rounded `exp` is 0 there. -/
theorem C62_poisson_refuted (exp : Dbl → Dbl) (he : exp (Dbl.fin (-800)) = Dbl.fin 0) :
    Dbl.exp (Dbl.fin (-800)) = Dbl.fin 0 ∧
    ∃ b, poissonInit exp (Dbl.fin 800) = .ok b ∧ ∀ (E : Engine) (s : E.σ), poissonNext b s = .ub := by
  constructor
  · show Dbl.round (Real.exp ((-800 : ℚ) : ℝ)) = _
    have h1 : Real.exp ((-800 : ℚ) : ℝ) < 2 ^ (-1075 : Int) := by
      have e : ((-800 : ℚ) : ℝ) = -((800 : ℕ) * 1 : ℝ) := by norm_num
      rw [e, Real.exp_neg, Real.exp_nat_mul, zpow_neg]
      apply inv_strictAnti₀ (by positivity)
      calc (2 : ℝ) ^ (1075 : Int) = 2 ^ 1075 := by norm_cast
        _ < (27 / 10) ^ 800 := by norm_num
        _ ≤ Real.exp 1 ^ 800 := by
          apply pow_le_pow_left₀ (by norm_num)
          have := Real.exp_one_gt_d9
          linarith
    have h2 := fl_tiny (Real.exp_pos _).le h1
    unfold Dbl.round
    rw [h2]
    simp
  · have h0 : ((0 : Int) : Dbl) = Dbl.fin 0 := by decide +kernel
    have hi : poissonInit exp (Dbl.fin 800) = .ok ⟨Dbl.fin 800, Dbl.fin 0⟩ := by
      unfold poissonInit
      rw [h0, if_neg (by rw [fin_le]; norm_num)]
      show Out.ok (Poisson.mk _ (exp (Dbl.fin (-800)))) = _
      rw [he]
    refine ⟨_, hi, fun E s => ?_⟩
    have hM : INT_MAX = 2147483647 := rfl
    obtain ⟨q, hq, hq0, _, _⟩ := C61_unit_partial E s
    unfold poissonNext
    rw [bind_run, hq]
    simp only [Out.bind]
    rw [lift_run, poissonLoop_ub (Dbl.fin 800) (Dbl.fin q)
      (fun _ prob thr => prob = Dbl.fin 0 ∧ thr = Dbl.fin 0) ?_ (2 ^ 31) 0 (by omega) (by omega)
      (by omega) _ _ ⟨rfl, rfl⟩]
    · rfl
    · rintro k _ _ hk ⟨rfl, rfl⟩
      rw [fin_le]
      refine ⟨hq0, fun hk1 => ?_⟩
      obtain ⟨d, hd⟩ := ratio_fin' 800 (k + 1) (by norm_num) (by omega) (by omega)
      rw [hd]
      rw [zero_mul_fin]
      exact ⟨rfl, by decide +kernel⟩

/-- **C62, refuted (binary64).**  `NegativeBinomialDistribution(1100, 0.5).next()` never returns,
whatever the generator yields: `0.5^1100` is 0 in binary64. -/
theorem C62_negBinomial_refuted :
    ∃ b, negBinomialInit 1100 (Dbl.fin (1 / 2)) = .ok b ∧
      ∀ (E : Engine) (s : E.σ), negBinomialNext b s = .ub := by
  have hi : negBinomialInit 1100 (Dbl.fin (1 / 2)) = .ok ⟨1100, Dbl.fin (1 / 2), Dbl.fin 0⟩ := by
    unfold negBinomialInit
    rw [if_neg (by decide +kernel)]
    have : MathFns.genericBinaryPow ((1 : Int) : Dbl) (fun x y => .ok (x * y)) (Dbl.fin (1 / 2)) 1100
        = .ok (Dbl.fin 0) := by decide +kernel
    rw [this]
    rfl
  refine ⟨_, hi, fun E s => ?_⟩
  have hM : INT_MAX = 2147483647 := rfl
  obtain ⟨q, hq, hq0, _, _⟩ := C61_unit_partial E s
  unfold negBinomialNext
  rw [bind_run, hq]
  simp only [Out.bind]
  have hpc : ((1 : Int) : Dbl) - Dbl.fin (1 / 2) = Dbl.fin (1 / 2) := by decide +kernel
  rw [hpc, lift_run, negBinomialLoop_ub 1100 (Dbl.fin (1 / 2)) (Dbl.fin q)
    (fun _ prob thr => prob = Dbl.fin 0 ∧ thr = Dbl.fin 0) ?_ (by omega) (2 ^ 31) 0 (by omega) (by omega)
    (by omega) _ _ ⟨rfl, rfl⟩]
  · rfl
  · rintro k _ _ hk ⟨rfl, rfl⟩
    rw [fin_le]
    refine ⟨hq0, fun hk1 hk2 => ?_⟩
    obtain ⟨d, hd⟩ := ratio_fin (1 / 2) (1100 + (k + 1) - 1) (k + 1) (by norm_num) (by norm_num)
      (by omega) (by omega) (by omega) (by omega)
    rw [hd]
    rw [zero_mul_fin]
    exact ⟨rfl, by decide +kernel⟩

/-- **C62.**  Invalid parameters end the program. -/
theorem C62_invalid {K : Type} [Field K] [LinearOrder K] [IsStrictOrderedRing K] (pow : K → Nat → K)
    (exp : K → K) (n : Int) (p : K) :
    ((n < 0 ∨ p < 0 ∨ 1 < p) → binomialInit pow n p = .exit) ∧
    ((n ≤ 0 ∨ p ≤ 0 ∨ 1 < p) → negBinomialInit n p = .exit) ∧
    (p ≤ 0 → poissonInit exp p = .exit) := by
  refine ⟨fun h => ?_, fun h => ?_, fun h => ?_⟩
  · unfold binomialInit; rw [if_pos (by push_cast; exact h)]
  · unfold negBinomialInit; rw [if_pos (by push_cast; exact h)]
  · unfold poissonInit; rw [if_pos (by push_cast; exact h)]

/-! ### C89 -/

/-- **C89, refuted (exact arithmetic).**  If the engine yields `2^64 - 1`, `NegativeBinomialDistribution`
and `PoissonDistribution` do not return, for any parameters: `nextDouble()` is 1, no value of the
distribution function is greater, and `result` overflows. -/
theorem C89_exact_refuted (r : Nat) (hr : 0 < r) (p : ℝ) (h0 : 0 < p) (h1 : p ≤ 1) (lambda : ℝ)
    (hl : 0 < lambda) :
    (∃ b, negBinomialInit r p = .ok b ∧ ∀ (E : Engine) (s : E.σ), (E.draw s).1.val = 2 ^ 64 - 1 →
      negBinomialNext b s = .ub) ∧
    (∃ b, poissonInit Real.exp lambda = .ok b ∧ ∀ (E : Engine) (s : E.σ),
      (E.draw s).1.val = 2 ^ 64 - 1 → poissonNext b s = .ub) := by
  have hone : ∀ (E : Engine) (s : E.σ), (E.draw s).1.val = 2 ^ 64 - 1 →
      nextDouble0 s = .ok ((1 : ℝ), (E.draw s).2) := by
    intro E s hg
    rw [nextDouble0_real, hg]
    congr 2
    norm_num
  constructor
  · obtain ⟨b, hb, h⟩ := negBinomial_none r hr p h0 h1
    exact ⟨b, hb, fun E s hg => h E s _ 1 (hone E s hg) (negCdf_le_one r hr p h0 h1)⟩
  · obtain ⟨b, hb, h⟩ := poisson_none lambda hl
    exact ⟨b, hb, fun E s hg => h E s _ 1 (hone E s hg) (poiCdf_le_one lambda hl)⟩

/-- **C89, refuted (binary64).**  `GeometricDistribution(1).next()`, which ought to be 0, does not
return for the 1024 greatest outputs of the engine. -/
theorem C89_refuted :
    ∃ b, geometricInit (Dbl.fin 1) = .ok b ∧ ∀ (E : Engine) (s : E.σ),
      (negBinomialNext b s = .ok (0, (E.draw s).2) ↔ (E.draw s).1.val < 2 ^ 64 - 1024) ∧
      (2 ^ 64 - 1024 ≤ (E.draw s).1.val → negBinomialNext b s = .ub) := by
  have hi : geometricInit (Dbl.fin 1) = .ok ⟨1, Dbl.fin 1, Dbl.fin 1⟩ := by
    unfold geometricInit negBinomialInit
    rw [if_neg (by decide +kernel)]
    rfl
  refine ⟨_, hi, fun E s => ?_⟩
  have hM : INT_MAX = 2147483647 := rfl
  obtain ⟨q, hq, hq0, hq1, hq2⟩ := C61_unit_partial E s
  have hrun : negBinomialNext ⟨1, Dbl.fin 1, Dbl.fin 1⟩ s = StateT.lift (negBinomialLoop 1
      (((1 : Int) : Dbl) - Dbl.fin 1) (Dbl.fin q) (2 ^ 31) 0 (Dbl.fin 1) (Dbl.fin 1)) (E.draw s).2 := by
    unfold negBinomialNext
    rw [bind_run, hq]
    rfl
  have hub : 2 ^ 64 - 1024 ≤ (E.draw s).1.val → negBinomialNext ⟨1, Dbl.fin 1, Dbl.fin 1⟩ s = .ub := by
    intro hg
    have hqe := hq2.2 hg
    have hpc : ((1 : Int) : Dbl) - Dbl.fin 1 = Dbl.fin 0 := by decide +kernel
    rw [hrun, hpc, lift_run, negBinomialLoop_ub 1 (Dbl.fin 0) (Dbl.fin q)
      (fun _ prob thr => (∃ q, prob = Dbl.fin q) ∧ thr = Dbl.fin 1) ?_ (by omega) (2 ^ 31) 0 (by omega)
      (by omega) (by omega) _ _ ⟨⟨1, rfl⟩, rfl⟩]
    · rfl
    · rintro k _ _ hk ⟨⟨x, rfl⟩, rfl⟩
      rw [fin_le]
      refine ⟨hqe.ge, fun hk1 hk2 => ?_⟩
      rw [intCast_fin (1 + (k + 1) - 1) (int_le_max _ (by omega) (by omega)), zero_mul_fin,
        intCast_fin (k + 1) (int_le_max _ (by omega) (by omega)),
        div_fin _ _ (one_le_fl _ (by omega)) (by norm_num), zero_div,
        show fl (0 : ℚ) = 0 by decide +kernel, mul_zero_fin]
      exact ⟨⟨0, rfl⟩, by decide +kernel⟩
  refine ⟨⟨fun h => ?_, fun h => ?_⟩, hub⟩
  · by_contra hc
    rw [hub (by omega)] at h
    cases h
  · have hlt : ¬ (Dbl.fin 1 ≤ Dbl.fin q) := by
      rw [fin_le]
      intro hc
      have := hq2.1 (le_antisymm hq1 hc)
      omega
    rw [hrun, lift_run, show (2 ^ 31 : Nat) = (2 ^ 31 - 1) + 1 from rfl]
    unfold negBinomialLoop
    rw [if_neg hlt]
    rfl

/-- **C89, what holds.**  In every kind of arithmetic: a `BinomialDistribution` that could be
constructed returns a number from 0 to `n` for every output of the engine. -/
theorem C89_binomial_partial {D : Type} [Add D] [Sub D] [Neg D] [Mul D] [Div D] [IntCast D] [LT D]
    [LE D] [DecidableLT D] [DecidableLE D] (pow : D → Nat → D) (n : Int) (p : D) (b : Binomial D)
    (h : binomialInit pow n p = .ok b) (E : Engine) (s s' : E.σ) (u : D)
    (hu : nextDouble0 s = .ok (u, s')) :
    ∃ k, binomialNext b s = .ok (k, s') ∧ 0 ≤ k ∧ k ≤ n := by
  obtain ⟨hn, hbn, ht⟩ := binomialInit_inv pow n p b h
  classical
  choose T hT using ht
  obtain ⟨k, _, h2, h3, _, _⟩ := binomialScan_spec b u n.toNat (by rw [hbn]; omega)
    (fun i => if h : (i : Int) < n then T i h else u)
    (by intro i hi; rw [dif_pos (by omega)]; exact hT i (by omega)) n.toNat 0 (by omega)
  refine ⟨k, ?_, by omega, by omega⟩
  unfold binomialNext
  rw [bind_run, hu]
  simp only [Out.bind]
  rw [lift_run, hbn, h3]
  rfl

/-! ### C90 -/

/-- **C90, what holds (binary64).**  For a double `p` from 0 to 1, `BernoulliDistribution(p).next()`
always returns, and the number `c` of the outputs of the engine for which it is `true` differs from
`p * 2^64` by at most `1 + c / 2^53`. -/
theorem C90_partial (p : ℚ) (h0 : 0 ≤ p) (h1 : p ≤ 1) :
    bernoulliInit (Dbl.fin p) = .ok (Dbl.fin p) ∧
    (∀ (E : Engine) (s : E.σ), ∃ b, bernoulliNext (Dbl.fin p) s = .ok (b, (E.draw s).2)) ∧
    ∃ c : Nat, c = Nat.card {g : Fin (2 ^ 64) // ∀ (E : Engine) (s : E.σ), (E.draw s).1 = g →
        bernoulliNext (Dbl.fin p) s = .ok (true, (E.draw s).2)} ∧
      |(c : ℚ) - p * 2 ^ 64| ≤ 1 + (c : ℚ) / 2 ^ 53 := by
  have e0 : ((0 : Int) : Dbl) = Dbl.fin 0 := by decide +kernel
  have e1 : ((1 : Int) : Dbl) = Dbl.fin 1 := by decide +kernel
  have hrun : ∀ (E : Engine) (s : E.σ), bernoulliNext (Dbl.fin p) s
      = .ok (decide (unif (E.draw s).1.val < p), (E.draw s).2) := by
    intro E s
    unfold bernoulliNext nextDouble0
    rw [bind_run, e0, e1, nextDouble2_run 0 1 (by norm_num) (by norm_num) (by norm_num), ndVal_one]
    simp only [Out.bind]
    rw [pure_run, decide_eq_decide.2 (fin_lt _ _)]
  refine ⟨?_, fun E s => ⟨_, hrun E s⟩, _, rfl, ?_⟩
  · unfold bernoulliInit
    rw [e0, e1, if_neg]
    rw [fin_lt, fin_lt]
    rintro (h | h) <;> linarith
  obtain ⟨c, hc, hg⟩ := exists_cut (2 ^ 64) (fun g => unif g < p)
    (fun a b h hb => (unif_mono h).trans_lt hb)
  have e : Nat.card {g : Fin (2 ^ 64) // ∀ (E : Engine) (s : E.σ), (E.draw s).1 = g →
        bernoulliNext (Dbl.fin p) s = .ok (true, (E.draw s).2)}
      = Nat.card {g : Fin (2 ^ 64) // unif g.val < p} := by
    refine Nat.card_congr (Equiv.subtypeEquivRight fun g => ?_)
    constructor
    · intro h
      have := h ⟨Unit, fun _ => (), fun _ => (g, ())⟩ () rfl
      rw [hrun] at this
      simpa using this
    · intro h E s hgs
      rw [hrun, hgs, decide_eq_true h]
  rw [e, card_cut (2 ^ 64) c hc _ hg]
  have hc0 : (0 : ℚ) ≤ c := by positivity
  have hcq : (c : ℚ) ≤ 2 ^ 64 := by exact_mod_cast hc
  rw [abs_le]
  constructor
  · rcases Nat.lt_or_eq_of_le hc with h | h
    · have h2 := mt (hg c h).1 (lt_irrefl c)
      unfold unif at h2
      rw [not_lt, le_div_iff₀ (by positivity)] at h2
      have h3 := (abs_le.1 (fl_nat_rel c)).2
      linarith
    · have : (c : ℚ) = 2 ^ 64 := by exact_mod_cast h
      rw [this]
      linarith
  · rcases Nat.eq_zero_or_pos c with h | h
    · subst h
      have : 0 ≤ p * 2 ^ 64 := by positivity
      rw [Nat.cast_zero]
      linarith
    · have h2 := (hg (c - 1) (by omega)).2 (by omega)
      unfold unif at h2
      rw [div_lt_iff₀ (by positivity)] at h2
      have h3 := (abs_le.1 (fl_nat_rel (c - 1))).1
      have h4 : ((c - 1 : Nat) : ℚ) = c - 1 := by rw [Nat.cast_sub h, Nat.cast_one]
      rw [h4] at h2 h3
      have : ((c : ℚ) - 1) / 2 ^ 53 ≤ c / 2 ^ 53 := by
        apply div_le_div_of_nonneg_right (by linarith) (by positivity)
      linarith

/-- **C90, refuted.**  `BernoulliDistribution(1).next()` is `false` for the 1024 greatest outputs of
the engine; `BernoulliDistribution(0).next()` is never `true`. -/
theorem C90_refuted (E : Engine) (s : E.σ) :
    (bernoulliNext (Dbl.fin 1) s = .ok (false, (E.draw s).2) ↔ 2 ^ 64 - 1024 ≤ (E.draw s).1.val) ∧
    bernoulliNext (Dbl.fin 0) s = .ok (false, (E.draw s).2) := by
  obtain ⟨q, hq, hq0, hq1, hq2⟩ := C61_unit_partial E s
  have hrun : ∀ p, bernoulliNext (Dbl.fin p) s = .ok (decide (q < p), (E.draw s).2) := by
    intro p
    unfold bernoulliNext
    rw [bind_run, hq]
    simp only [Out.bind]
    rw [pure_run, decide_eq_decide.2 (fin_lt _ _)]
  rw [hrun, hrun, ← hq2]
  constructor
  · simp only [Out.ok.injEq, Prod.mk.injEq, decide_eq_false_iff_not, not_lt, and_true]
    exact ⟨fun h => le_antisymm hq1 h, fun h => h.ge⟩
  · rw [decide_eq_false (by linarith)]

/-- **C90.**  Invalid parameters end the program. -/
theorem C90_invalid (p : ℚ) (h : p < 0 ∨ 1 < p) : bernoulliInit (Dbl.fin p) = .exit := by
  have e0 : ((0 : Int) : Dbl) = Dbl.fin 0 := by decide +kernel
  have e1 : ((1 : Int) : Dbl) = Dbl.fin 1 := by decide +kernel
  unfold bernoulliInit
  rw [e0, e1, if_pos]
  rwa [fin_lt, fin_lt]

/-! ### Examples -/

-- C62: a die-like binomial distribution, a geometric one; `u = g / (2^64 - 1)` in ℚ, here 3/17
example : (nextDouble0 : R counter ℚ) (3255307777713450285 : Fin (2 ^ 64))
    = .ok (3 / 17, (3255307777713450286 : Fin (2 ^ 64))) := by decide +kernel
example : (do let b ← binomialInit (fun x i => x ^ i) 4 (1 / 3 : ℚ)
              (binomialNext b : R counter Int) (3255307777713450285 : Fin (2 ^ 64)))
    = .ok (0, (3255307777713450286 : Fin (2 ^ 64))) := by decide +kernel
example : IsQuantile (binomialCdf 4 (1 / 3 : ℚ)) (3 / 17) 0 := by
  refine ⟨?_, by omega⟩
  norm_num [binomialCdf]
example : (do let b ← negBinomialInit 2 (1 / 3 : ℚ)
              (negBinomialNext b : R counter Int) (3255307777713450285 : Fin (2 ^ 64)))
    = .ok (1, (3255307777713450286 : Fin (2 ^ 64))) := by decide +kernel
example : IsQuantile (negBinomialCdf 2 (1 / 3 : ℚ)) (3 / 17) 1 := by
  refine ⟨?_, ?_⟩
  · norm_num [negBinomialCdf, Finset.sum_range_succ]
  · intro j hj
    obtain rfl : j = 0 := by omega
    norm_num [negBinomialCdf]
-- C62 in binary64
example : binomialInit Dbl.pow 34 (Dbl.fin (1 / 2)) = .ub :=
  C62_binomial_refuted _ _ (by decide +kernel) (by decide +kernel)
example : ∃ exp : Dbl → Dbl, exp (Dbl.fin (-800)) = Dbl.fin 0 :=
  ⟨Dbl.exp, (C62_poisson_refuted (fun _ => Dbl.fin 0) rfl).1⟩
example : poissonInit id (-1 : ℚ) = .exit := (C62_invalid (fun x i => x ^ i) id 3 (-1)).2.2 (by norm_num)
-- C89
example : (counter.draw (2 ^ 64 - 1 : Fin (2 ^ 64))).1.val = 2 ^ 64 - 1 := by decide +kernel
example : (do let b ← binomialInit Dbl.pow 4 (Dbl.fin (1 / 4))
              (binomialNext b : R counter Int) (2 ^ 63 : Fin (2 ^ 64)))
    = .ok (1, (2 ^ 63 + 1 : Fin (2 ^ 64))) := by decide +kernel
-- C90
example : (bernoulliNext (Dbl.fin (1 / 4)) : R counter Bool) (2 ^ 61 : Fin (2 ^ 64))
    = .ok (true, (2 ^ 61 + 1 : Fin (2 ^ 64))) := by decide +kernel
example : (bernoulliNext (Dbl.fin 1) : R counter Bool) (2 ^ 64 - 1024 : Fin (2 ^ 64))
    = .ok (false, (2 ^ 64 - 1023 : Fin (2 ^ 64))) := by decide +kernel

end Rand.Props
