import Verif.Proof.RandomDblBin
import Verif.Proof.RandomCount

/-! # C136: the samplers in double arithmetic have the documented distribution up to rounding

The 2^64 outputs of the engine are counted.  All the arithmetic of the code is that of binary64. -/

namespace Rand.Props
open Cpp Spec Rand Rand.Err

/-- **C136.**  `BinomialDistribution(n, p)` with `n ≤ 33` returns `k` for
`n choose k * p^k * (1 - p)^(n - k)` of the outputs, and at most `k` for the sum of these numbers. -/
theorem C136_binomial (pow : Dbl → Nat → Dbl) (hpow : PowOk pow) (n : Nat) (hn : n ≤ 33) (p : ℚ) (hp : IsDouble p)
    (h0 : 0 ≤ p) (h1 : p ≤ 1) :
    ∃ b, binomialInit pow n (Dbl.fin p) = .ok b ∧ ∀ k ≤ n,
      |(Nat.card {g : Fin (2 ^ 64) // ∀ (E : Engine) (s : E.σ), (E.draw s).1 = g →
          ∃ j : Nat, j ≤ k ∧ binomialNext b s = .ok ((j : Int), (E.draw s).2)} : ℝ) / 2 ^ 64
        - binomialCdf n (p : ℝ) k| ≤ (4 * (n : ℝ) + 19) / 2 ^ 53 ∧
      |(Nat.card {g : Fin (2 ^ 64) // ∀ (E : Engine) (s : E.σ), (E.draw s).1 = g →
          binomialNext b s = .ok ((k : Int), (E.draw s).2)} : ℝ) / 2 ^ 64
        - (n.choose k : ℝ) * p ^ k * (1 - p) ^ (n - k)| ≤ (8 * (n : ℝ) + 38) / 2 ^ 53 := by
  obtain ⟨b, y, hb, hbn, ht, hy⟩ := bin_init hpow hn hp h0 h1
  have hf := bin_finds hbn ht
  have hT0 : 0 ≤ binThr n y 0 := by
    unfold binThr
    split
    · exact (zq_le hn h0 h1 hy 1 (by omega)).2.1
    · norm_num
  have hm := fun k (_ : k + 1 ≤ n) => bin_mono hn h0 h1 hy k
  refine ⟨b, hb, fun k hk => ⟨?_, ?_⟩⟩
  · refine (card_le hf hm hT0 k hk (bin_err hn h0 h1 hy k hk)).trans (le_of_eq ?_)
    unfold u; ring
  · refine (card_eq hf hm hT0 k hk (F := binomialCdf n (p : ℝ)) (fun j hj => bin_err hn h0 h1 hy j (by omega)) ?_).trans (le_of_eq ?_)
    · exact cdf_diff (fun i => (n.choose i : ℝ) * p ^ i * (1 - p) ^ (n - i)) k
    · unfold u; ring

/-- **C136.**  `NegativeBinomialDistribution(r, p)` with `p^r` not below `2^-1000` returns `k` for
`(k + r - 1) choose (r - 1) * p^r * (1 - p)^k` of the outputs, and at most `k` for the sum of these
numbers, if `r + k` fits into an `int`. -/
theorem C136_negBinomial (r : Nat) (hr : 0 < r) (p : ℚ) (hp : IsDouble p) (h0 : 0 < p) (h1 : p ≤ 1)
    (ht : 1 / 2 ^ 1000 ≤ (p : ℝ) ^ r) (hri : (r : Int) ≤ INT_MAX) :
    ∃ b, negBinomialInit r (Dbl.fin p) = .ok b ∧ ∀ k : Nat, (r + k : Int) ≤ INT_MAX →
      |(Nat.card {g : Fin (2 ^ 64) // ∀ (E : Engine) (s : E.σ), (E.draw s).1 = g →
          ∃ j : Nat, j ≤ k ∧ negBinomialNext b s = .ok ((j : Int), (E.draw s).2)} : ℝ) / 2 ^ 64
        - negBinomialCdf r (p : ℝ) k| ≤ (2 * (r : ℝ) + 10 * k + 3) / 2 ^ 53 ∧
      |(Nat.card {g : Fin (2 ^ 64) // ∀ (E : Engine) (s : E.σ), (E.draw s).1 = g →
          negBinomialNext b s = .ok ((k : Int), (E.draw s).2)} : ℝ) / 2 ^ 64
        - ((k + r - 1).choose (r - 1) : ℝ) * p ^ r * (1 - p) ^ k| ≤ (4 * (r : ℝ) + 20 * k + 6) / 2 ^ 53 := by
  have hM : INT_MAX = 2147483647 := rfl
  have e0 : ((0 : Int) : Dbl) = Dbl.fin 0 := by decide +kernel
  have e1 : ((1 : Int) : Dbl) = Dbl.fin 1 := by decide +kernel
  have h0r : (0 : ℝ) < p := by exact_mod_cast h0
  have h1r : (p : ℝ) ≤ 1 := by exact_mod_cast h1
  obtain ⟨q, hq, ha, hfix⟩ := genericPow_dbl h0 h1 (fl_of_isDouble hp) hr ht (small_u (by omega)) ((1 : Int) : Dbl)
  obtain ⟨K, hK⟩ : ∃ K : Nat, (r + K : Int) = INT_MAX := ⟨(INT_MAX - r).toNat, by omega⟩
  have hc := nb_chain hr hp h0 h1 ht (K := K) (by omega) (negCdf_le_one r hr (p : ℝ) h0r h1r) ha hfix
  have hf := nb_finds hr hp h0 h1 hK hc
  have hb : negBinomialInit r (Dbl.fin p) = .ok ⟨r, Dbl.fin p, Dbl.fin q⟩ := by
    unfold negBinomialInit
    rw [if_neg (by
      rw [e0, e1, fin_le, fin_lt]
      rintro (h | h | h)
      · omega
      · linarith
      · linarith), hq]
    rfl
  have hq0 : 0 ≤ tq q (nbRatio r p) 0 := ha.nonneg
  refine ⟨_, hb, fun k hk => ?_⟩
  have hkK : k ≤ K := by omega
  have herr : ∀ j ≤ k, |((min (tq q (nbRatio r p) j) 1 : ℚ) : ℝ) - negBinomialCdf r (p : ℝ) j| ≤ (2 * (r + 5 * k) + 1) * u := by
    intro j hj
    refine (hc.err j (by omega)).trans (mul_le_mul_of_nonneg_right ?_ u_pos.le)
    have : (j : ℝ) ≤ k := by exact_mod_cast hj
    push_cast
    linarith
  constructor
  · refine (card_le hf hc.mono hq0 k hkK (herr k le_rfl)).trans (le_of_eq ?_)
    unfold u; ring
  · refine (card_eq hf hc.mono hq0 k hkK herr ?_).trans (le_of_eq ?_)
    · exact cdf_diff (fun i => ((i + r - 1).choose (r - 1) : ℝ) * p ^ r * (1 - p) ^ i) k
    · unfold u; ring

/-- **C136.**  `GeometricDistribution(p)` returns `k` for `p * (1 - p)^k` of the outputs, if `1 + k` fits
into an `int`. -/
theorem C136_geometric (p : ℚ) (hp : IsDouble p) (h0 : 1 / 2 ^ 1000 ≤ p) (h1 : p ≤ 1) :
    ∃ b, geometricInit (Dbl.fin p) = .ok b ∧ ∀ k : Nat, (1 + k : Int) ≤ INT_MAX →
      |(Nat.card {g : Fin (2 ^ 64) // ∀ (E : Engine) (s : E.σ), (E.draw s).1 = g →
          negBinomialNext b s = .ok ((k : Int), (E.draw s).2)} : ℝ) / 2 ^ 64 - p * (1 - p) ^ k|
        ≤ (20 * (k : ℝ) + 10) / 2 ^ 53 := by
  have h0' : (1 : ℝ) / 2 ^ 1000 ≤ p := by
    have := (Rat.cast_le (K := ℝ)).2 h0
    rw [Rat.cast_div, Rat.cast_one, Rat.cast_pow, Rat.cast_ofNat] at this
    exact this
  obtain ⟨b, hb, h⟩ := C136_negBinomial 1 (by norm_num) p hp (lt_of_lt_of_le (by positivity) h0) h1 (by rw [pow_one]; exact h0') (by decide)
  refine ⟨b, hb, fun k hk => ?_⟩
  have h2 := (h k (by exact_mod_cast hk)).2
  simp only [Nat.add_sub_cancel, Nat.sub_self, Nat.choose_zero_right, Nat.cast_one, one_mul, pow_one] at h2
  refine h2.trans (le_of_eq ?_)
  ring

/-- **C136.**  `PoissonDistribution(lambda)` with `lambda` from `2^-900` to 690 returns `k` for
`lambda^k * exp(-lambda) / k!` of the outputs, and at most `k` for the sum of these numbers, if `k` fits
into an `int`. -/
theorem C136_poisson (exp : Dbl → Dbl) (hexp : ExpOk exp) (lambda : ℚ) (hl : IsDouble lambda) (h0 : 1 / 2 ^ 900 ≤ lambda)
    (h1 : lambda ≤ 690) :
    ∃ b, poissonInit exp (Dbl.fin lambda) = .ok b ∧ ∀ k : Nat, (k : Int) ≤ INT_MAX →
      |(Nat.card {g : Fin (2 ^ 64) // ∀ (E : Engine) (s : E.σ), (E.draw s).1 = g →
          ∃ j : Nat, j ≤ k ∧ poissonNext b s = .ok ((j : Int), (E.draw s).2)} : ℝ) / 2 ^ 64
        - poissonCdf lambda k| ≤ (6 * (k : ℝ) + 9) / 2 ^ 53 ∧
      |(Nat.card {g : Fin (2 ^ 64) // ∀ (E : Engine) (s : E.σ), (E.draw s).1 = g →
          poissonNext b s = .ok ((k : Int), (E.draw s).2)} : ℝ) / 2 ^ 64
        - (lambda : ℝ) ^ k * Real.exp (-lambda) / (k.factorial : ℝ)| ≤ (12 * (k : ℝ) + 18) / 2 ^ 53 := by
  have hM : INT_MAX = 2147483647 := rfl
  have e0 : ((0 : Int) : Dbl) = Dbl.fin 0 := by decide +kernel
  have hpos : 0 < lambda := lt_of_lt_of_le (by positivity) h0
  have hposr : (0 : ℝ) < lambda := by exact_mod_cast hpos
  have hneg : IsDouble (-lambda) := by
    obtain ⟨m, e, hm, he, he', rfl⟩ := hl
    exact ⟨-m, e, by rwa [abs_neg], he, he', by push_cast; ring⟩
  obtain ⟨q, hq, hqd, hqe⟩ := hexp (-lambda) hneg (by linarith) (by linarith)
  push_cast at hqe
  have hexp0 := Real.exp_pos (-(lambda : ℝ))
  have hq0 : 0 ≤ q := by
    have h2 := (abs_le.1 hqe).1
    have h3 : (1 : ℝ) / 2 ^ 52 * Real.exp (-lambda) ≤ 1 * Real.exp (-lambda) := mul_le_mul_of_nonneg_right (by norm_num) hexp0.le
    have : (0 : ℝ) ≤ q := by linarith
    exact_mod_cast this
  have ha : Appr 0 3 (Real.exp (-lambda)) q := by
    have := Appr.of_err (e := 0) hexp0.le le_rfl hq0 (by rw [add_zero]; exact hqe)
    rwa [mul_zero] at this
  obtain ⟨K, hK⟩ : ∃ K : Nat, (K : Int) = INT_MAX := ⟨INT_MAX.toNat, by omega⟩
  have h1' : lambda ≤ 2 ^ 60 := h1.trans (by norm_num)
  have hc := poi_chain h0 h1' (tiny_exp h1) (K := K) (by omega) (poiCdf_le_one lambda hposr) ha (fl_of_isDouble hqd)
  have hf := poi_finds h0 h1' hK hc
  have hb : poissonInit exp (Dbl.fin lambda) = .ok ⟨Dbl.fin lambda, Dbl.fin q⟩ := by
    unfold poissonInit
    rw [if_neg (by rw [e0, fin_le]; linarith), ← hq]
    rfl
  refine ⟨_, hb, fun k hk => ?_⟩
  have hkK : k ≤ K := by omega
  have hq0' : 0 ≤ tq q (poiRatio lambda) 0 := hq0
  have herr : ∀ j ≤ k, |((min (tq q (poiRatio lambda) j) 1 : ℚ) : ℝ) - poissonCdf lambda j| ≤ (2 * (3 + 3 * k) + 1) * u := by
    intro j hj
    refine (hc.err j (by omega)).trans (mul_le_mul_of_nonneg_right ?_ u_pos.le)
    have : (j : ℝ) ≤ k := by exact_mod_cast hj
    push_cast
    linarith
  constructor
  · refine (card_le hf hc.mono hq0' k hkK (herr k le_rfl)).trans (le_of_eq ?_)
    unfold u; ring
  · refine (card_eq hf hc.mono hq0' k hkK herr ?_).trans (le_of_eq ?_)
    · exact cdf_diff (fun i => (lambda : ℝ) ^ i * Real.exp (-lambda) / (i.factorial : ℝ)) k
    · unfold u; ring

/-! ### The hypotheses are satisfiable -/

/-- a correctly rounded `pow` will do -/
example : PowOk fun x i => match x with | .fin q => .fin (fl (q ^ i)) | y => y := by
  intro x _ h0 h1 i _
  refine ⟨fl (x ^ i), rfl, fl_nonneg (by positivity), ?_⟩
  have h2 := Matrix.fl_err (x ^ i)
  have hx : 0 ≤ x ^ i := by positivity
  rw [abs_of_nonneg hx] at h2
  have hx' : (0 : ℝ) ≤ (x : ℝ) ^ i := by exact_mod_cast hx
  have eE : (((1 : ℚ) / 2 ^ 1075 : ℚ) : ℝ) ≤ 1 / 2 ^ 1074 := by
    rw [Rat.cast_div, Rat.cast_one, Rat.cast_pow, Rat.cast_ofNat]
    exact one_div_le_one_div_of_le (by positivity) (pow_le_pow_right₀ (by norm_num) (by norm_num))
  generalize (1 : ℚ) / 2 ^ 1075 = d at h2 eE
  have h3 : |((fl (x ^ i) : ℚ) : ℝ) - (x : ℝ) ^ i| ≤ Stats.u * (x : ℝ) ^ i + d := by exact_mod_cast h2
  refine h3.trans ?_
  rw [u_cast, u_two]
  have := u_pos
  nlinarith

/-- and an `exp` that is correctly rounded up to one unit in the last place -/
example : ∃ exp, ExpOk exp := by
  have key : ∀ x : ℚ, ∃ y : ℚ, -690 ≤ x → x ≤ 0 → IsDouble y ∧ |(y : ℝ) - Real.exp x| ≤ 1 / 2 ^ 52 * Real.exp x := by
    intro x
    by_cases hx : -690 ≤ x ∧ x ≤ 0
    · have he := Real.exp_pos (x : ℝ)
      have hu := u_pos
      obtain ⟨z, hz1, hz2⟩ := exists_rat_btwn (show Real.exp (x : ℝ) < Real.exp x * (1 + u / 2) by nlinarith)
      have ht : tiny ≤ z := by
        have := tiny_exp (l := -x) (by linarith [hx.1])
        push_cast at this
        rw [neg_neg] at this
        linarith
      have hz1' : (z : ℝ) ≤ 2 := by
        have h3 : Real.exp (x : ℝ) ≤ 1 := Real.exp_le_one_iff.2 (by exact_mod_cast hx.2)
        have h4 := u_lt
        nlinarith
      obtain ⟨f0, f1, f2⟩ := fl_normal (Or.inr (normal_of_tiny (y := z) (by have := tiny_pos; linarith)))
      refine ⟨fl z, fun _ _ => ⟨fl_isDouble ?_, ?_⟩⟩
      · rw [abs_of_nonneg f0]
        have h5 : (fl z : ℝ) ≤ 4 := by nlinarith [u_lt]
        have h6 : fl z ≤ 4 := by exact_mod_cast h5
        refine lt_of_le_of_lt h6 ?_
        rw [show (4 : ℚ) = 2 ^ 2 by norm_num]
        exact pow_lt_pow_right₀ (by norm_num) (by norm_num)
      · rw [u_two, abs_le]
        have h4 : u ≤ 1 / 4 := by unfold u; norm_num
        constructor <;> nlinarith
    · exact ⟨0, fun h h' => absurd ⟨h, h'⟩ hx⟩
  choose f hf using key
  exact ⟨fun x => match x with | .fin q => .fin (f q) | y => y, fun x _ h0 h1 => ⟨f x, rfl, hf x h0 h1⟩⟩

/-- `BinomialDistribution(20, 0.25)` -/
example (pow : Dbl → Nat → Dbl) (hpow : PowOk pow) := C136_binomial pow hpow 20 (by norm_num) (1 / 4)
  ⟨1, -2, by norm_num, by norm_num, by norm_num, by norm_num⟩ (by norm_num) (by norm_num)

/-- `NegativeBinomialDistribution(5, 0.75)` -/
example := C136_negBinomial 5 (by norm_num) (3 / 4) ⟨3, -2, by norm_num, by norm_num, by norm_num, by norm_num⟩ (by norm_num) (by norm_num)
  (le_trans (one_div_le_one_div_of_le (by norm_num) (pow_le_pow_right₀ (by norm_num) (by norm_num : 3 ≤ 1000))) (by norm_num)) (by decide)

/-- `GeometricDistribution(0.5)` returns 3 for 1/16 of the outputs, up to less than `10^-13`. -/
example : ∃ b, geometricInit (Dbl.fin (1 / 2)) = .ok b ∧
    |(Nat.card {g : Fin (2 ^ 64) // ∀ (E : Engine) (s : E.σ), (E.draw s).1 = g →
        negBinomialNext b s = .ok (3, (E.draw s).2)} : ℝ) / 2 ^ 64 - 1 / 16| ≤ 1 / 10 ^ 13 := by
  obtain ⟨b, hb, h⟩ := C136_geometric (1 / 2) ⟨1, -1, by norm_num, by norm_num, by norm_num, by norm_num⟩
    (one_div_le_one_div_of_le (by norm_num) (by
      conv_lhs => rw [← pow_one 2]
      exact pow_le_pow_right₀ (by norm_num) (by norm_num))) (by norm_num)
  refine ⟨b, hb, ?_⟩
  have h3 := h 3 (by decide)
  have e : (((1 / 2 : ℚ) : ℝ) * (1 - ((1 / 2 : ℚ) : ℝ)) ^ 3) = 1 / 16 := by norm_num
  rw [e] at h3
  exact h3.trans (by norm_num)

/-- `PoissonDistribution(4)` -/
example (exp : Dbl → Dbl) (hexp : ExpOk exp) := C136_poisson exp hexp 4 ⟨4, 0, by norm_num, by norm_num, by norm_num, by norm_num⟩
  (le_trans (by rw [div_le_one (by positivity)]; exact one_le_pow₀ (by norm_num)) (by norm_num : (1 : ℚ) ≤ 4)) (by norm_num)

end Rand.Props
