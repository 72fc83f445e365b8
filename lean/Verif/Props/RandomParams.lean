import Verif.Proof.RandomParams

/-! # C108: the parameters of a sampler can be read back -/

namespace Rand.Props
open Cpp Spec Rand

/-- **C108 over the reals.**  Every sampler that can be constructed returns its parameter. -/
theorem C108_real (x : ℝ) (d : Gamma ℝ) :
    (chiSquaredInit x = .ok d → chiSquaredR d = x) ∧ (exponentialInit x = .ok d → exponentialLambda d = x) := by
  constructor
  · intro h
    unfold chiSquaredInit gammaInit at h
    split_ifs at h
    cases h
    simp [chiSquaredR]
  · intro h
    unfold exponentialInit gammaInit at h
    split_ifs at h
    cases h
    simp [exponentialLambda]

/-- **C108 in binary64, `ChiSquaredDistribution`.**  From `2^-1021` on the parameter is read back exactly. -/
theorem C108_chiSquared_partial (r : ℚ) (hr : IsDouble r) (h : 1 / 2 ^ 1021 ≤ r) :
    ∃ d, chiSquaredInit (Dbl.fin r) = .ok d ∧ chiSquaredR d = Dbl.fin r := by
  obtain ⟨m, k, hm, hk, hk', e⟩ := hr
  have hpos : (0 : ℚ) < r := lt_of_lt_of_le (by positivity) h
  have hmax : r ≤ maxDouble := by
    have h1 : (m : ℚ) ≤ 2 ^ 53 - 1 := by
      have : m ≤ 2 ^ 53 - 1 := by have := (abs_lt.1 hm).2; omega
      exact_mod_cast this
    have h2 : (2 : ℚ) ^ k ≤ 2 ^ (971 : Int) := zpow_le_zpow_right₀ (by norm_num) hk'
    unfold maxDouble
    rw [e]
    have h3 : (2 : ℚ) ^ (971 : Nat) = 2 ^ (971 : Int) := (zpow_natCast 2 971).symm
    rw [h3]
    exact mul_le_mul h1 h2 (by positivity) (by norm_num)
  have hk1 : -1074 < k := by
    rcases lt_or_eq_of_le hk with h1 | h1
    · exact h1
    · exfalso
      have h2 : (m : ℚ) < 2 ^ 53 := by exact_mod_cast (abs_lt.1 hm).2
      rw [e, ← h1] at h
      have h3 : (2 : ℚ) ^ (-1074 : Int) = 1 / 2 ^ 1021 / 2 ^ 53 := by
        rw [zpow_neg, div_div, ← pow_add, one_div, zpow_ofNat]
      rw [h3] at h
      have h4 : (m : ℚ) * (1 / 2 ^ 1021 / 2 ^ 53) < 2 ^ 53 * (1 / 2 ^ 1021 / 2 ^ 53) :=
        mul_lt_mul_of_pos_right h2 (by positivity)
      have h5 : (2 : ℚ) ^ 53 * (1 / 2 ^ 1021 / 2 ^ 53) = 1 / 2 ^ 1021 := by field_simp
      linarith
  have hhalf : Dbl.fin r / ((2 : Int) : Dbl) = Dbl.fin (r / 2) := by
    rw [dbl_two]
    show Dbl.div _ _ = _
    unfold Dbl.div
    dsimp only
    rw [if_neg (by norm_num), round_fin (by rw [abs_of_pos (by linarith)]; linarith)]
    congr 1
    have : r / 2 = m * 2 ^ (k - 1) := by
      rw [e, zpow_sub_one₀ (by norm_num)]
      ring
    rw [this]
    exact fl_exact hm.le (by omega)
  refine ⟨⟨.fin (r / 2), .fin 2⟩, ?_, ?_⟩
  · unfold chiSquaredInit gammaInit
    rw [hhalf, dbl_two, dbl_zero, if_neg]
    rw [fin_le, fin_le]
    push Not
    exact ⟨by linarith, by norm_num⟩
  · unfold chiSquaredR
    rw [dbl_two]
    show Dbl.mul _ _ = _
    unfold Dbl.mul
    dsimp only
    rw [show r / 2 * 2 = r by ring, round_fin (by rwa [abs_of_pos hpos]),
      fl_of_isDouble ⟨m, k, hm, hk, hk', e⟩]

/-- **C108 in binary64, `ExponentialDistribution`.**  The parameter is read back with a relative error of at most
`2^-51`. -/
theorem C108_exponential_partial (l : ℚ) (h1 : 1 / 2 ^ 1021 ≤ l) (h2 : l ≤ 2 ^ 1021) :
    ∃ d q, exponentialInit (Dbl.fin l) = .ok d ∧ exponentialLambda d = Dbl.fin q ∧ |q - l| ≤ l / 2 ^ 51 := by
  have hl : (0 : ℚ) < l := lt_of_lt_of_le (by positivity) h1
  have hn : (2 : ℚ) ^ (-1022 : Int) = 1 / 2 ^ 1022 := by rw [zpow_neg, one_div, zpow_ofNat]
  have hu : (2 : ℚ) ^ (-53 : Int) = 1 / 2 ^ 53 := by rw [zpow_neg, one_div, zpow_ofNat]
  have hbig : 4 * (2 : ℚ) ^ 1021 ≤ maxDouble := by
    unfold maxDouble
    have : (2 : ℚ) ^ 1021 = 2 ^ 50 * 2 ^ 971 := by rw [← pow_add]
    rw [this, ← mul_assoc]
    gcongr
    norm_num
  have hrel : ∀ x : ℚ, 1 / 2 ^ 1022 ≤ x → |fl x - x| ≤ 1 / 2 ^ 53 * x := by
    intro x hx
    have hx0 : (0 : ℚ) ≤ x := le_trans (by positivity) hx
    have := flPos_rel (x := x) (by rw [hn]; exact hx)
    rw [hu] at this
    unfold fl
    rwa [if_neg (not_lt.2 hx0)]
  have e0 : (2 : ℚ) ^ 1022 = 2 * 2 ^ 1021 := by rw [pow_succ]; ring
  have hB : (0 : ℚ) < 2 ^ 1021 := by positivity
  rw [e0] at hrel
  clear hn hu e0
  generalize (2 : ℚ) ^ 1021 = B at *
  have i1 : 1 / l ≤ B := by
    rw [div_le_iff₀ hl]
    rw [div_le_iff₀ hB] at h1
    linarith
  have i2 : 1 / B ≤ 1 / l := one_div_le_one_div_of_le hl h2
  have hil : (0 : ℚ) < 1 / l := by positivity
  have j : 1 / (2 * B) = 1 / B / 2 := by field_simp
  have hp : 0 < 1 / B := by positivity
  set t := fl (1 / l) with ht
  have ht1 : |t - 1 / l| ≤ 1 / 2 ^ 53 * (1 / l) := hrel _ (by rw [j]; linarith)
  have ht2 := abs_le.1 ht1
  have hu1 : (1 : ℚ) / 2 ^ 53 * (1 / l) ≤ 1 / l / 4 := by
    have : (1 : ℚ) / 2 ^ 53 ≤ 1 / 4 := by norm_num
    nlinarith
  have tpos : 0 < t := by linarith [ht2.1]
  -- the quotient `1 / t` in terms of `l`
  have hq : |1 / t - l| ≤ l * (1 / 2 ^ 53) / (1 - 1 / 2 ^ 53) := by
    have a1 : 1 / t - l = (1 / l - t) * l / t := by field_simp
    have a2 : (1 - 1 / 2 ^ 53) * (1 / l) ≤ t := by linarith [ht2.1]
    rw [a1, abs_div, abs_mul, abs_of_pos hl, abs_of_pos tpos, abs_sub_comm]
    have a3 : |t - 1 / l| * l ≤ 1 / 2 ^ 53 := by
      calc |t - 1 / l| * l ≤ (1 / 2 ^ 53 * (1 / l)) * l := mul_le_mul_of_nonneg_right ht1 hl.le
        _ = 1 / 2 ^ 53 := by field_simp
    calc |t - 1 / l| * l / t ≤ (1 / 2 ^ 53) / t := by gcongr
      _ ≤ (1 / 2 ^ 53) / ((1 - 1 / 2 ^ 53) * (1 / l)) :=
        div_le_div_of_nonneg_left (by positivity) (mul_pos (by norm_num) hil) a2
      _ = l * (1 / 2 ^ 53) / (1 - 1 / 2 ^ 53) := by field_simp
  have hq' : |1 / t - l| ≤ l / 2 ^ 52 * (3 / 4) := by
    refine hq.trans ?_
    rw [div_le_iff₀ (by norm_num)]
    have : (0 : ℚ) < l / 2 ^ 53 := by positivity
    have e3 : l * (1 / 2 ^ 53) = l / 2 ^ 53 := by ring
    have e4 : l / 2 ^ 52 = 2 * (l / 2 ^ 53) := by ring
    rw [e3, e4]
    nlinarith [show (1 : ℚ) / 2 ^ 53 ≤ 1 / 4 by norm_num]
  have hs : l / 2 ^ 52 * (3 / 4) ≤ l / 4 := by
    have : (1 : ℚ) / 2 ^ 52 ≤ 1 / 4 := by norm_num
    have e5 : l / 2 ^ 52 = l * (1 / 2 ^ 52) := by ring
    rw [e5]
    nlinarith
  have hb := abs_le.1 (hq'.trans hs)
  have hfin : |1 / t| ≤ maxDouble := by
    rw [abs_of_pos (by positivity)]
    linarith [hb.2]
  have hq2 := hrel (1 / t) (by rw [j]; linarith [hb.1])
  refine ⟨⟨.fin 1, .fin t⟩, fl (1 / t), ?_, ?_, ?_⟩
  · unfold exponentialInit gammaInit
    have : Dbl.fin 1 / Dbl.fin l = Dbl.fin t := by
      show Dbl.div _ _ = _
      unfold Dbl.div
      dsimp only
      rw [if_neg hl.ne', round_fin (by rw [abs_of_pos hil]; linarith)]
    rw [dbl_one, this, dbl_zero, if_neg]
    rw [fin_le, fin_le]
    push Not
    exact ⟨by norm_num, tpos⟩
  · unfold exponentialLambda
    rw [dbl_one]
    show Dbl.div _ _ = _
    unfold Dbl.div
    dsimp only
    rw [if_neg tpos.ne', round_fin hfin]
  · have h3 : |fl (1 / t) - l| ≤ |fl (1 / t) - 1 / t| + |1 / t - l| := by
      have := abs_add_le (fl (1 / t) - 1 / t) (1 / t - l)
      rwa [show fl (1 / t) - 1 / t + (1 / t - l) = fl (1 / t) - l by ring] at this
    have h4 : 1 / 2 ^ 53 * (1 / t) ≤ l / 2 ^ 52 * (5 / 8) := by
      have : 1 / t ≤ 5 / 4 * l := by linarith [hb.2]
      have e4 : l / 2 ^ 52 * (5 / 8) = 1 / 2 ^ 53 * (5 / 4 * l) := by ring
      rw [e4]
      gcongr
    have e6 : l / 2 ^ 51 = 2 * (l / 2 ^ 52) := by ring
    have : (0 : ℚ) < l / 2 ^ 52 := by positivity
    linarith

set_option exponentiation.threshold 2000 in
/-- **C108, refuted.**  `ExponentialDistribution(49).lambda()` is not 49, and the least positive double is rejected as
a parameter of `ChiSquaredDistribution`. -/
theorem C108_refuted :
    (∃ d, exponentialInit (Dbl.fin 49) = .ok d ∧ exponentialLambda d = Dbl.fin (49 + 1 / 2 ^ 47)) ∧
    IsDouble (1 / 2 ^ 1074) ∧ chiSquaredInit (Dbl.fin (1 / 2 ^ 1074)) = .exit := by
  have hd : ∀ a b : ℚ, b ≠ 0 → Dbl.fin a / Dbl.fin b = Dbl.round (a / b) := fun a b h => by
    show Dbl.div _ _ = _
    unfold Dbl.div
    dsimp only
    rw [if_neg h]
  refine ⟨⟨⟨.fin 1, .fin (5882252574524729 / 2 ^ 58)⟩, ?_, ?_⟩, ⟨1, -1074, by norm_num, by norm_num, by norm_num, ?_⟩,
    ?_⟩
  · have : Dbl.round (1 / 49 : ℚ) = Dbl.fin (5882252574524729 / 2 ^ 58) := by decide +kernel
    unfold exponentialInit gammaInit
    rw [dbl_one, hd _ _ (by norm_num), this, dbl_zero, if_neg]
    rw [fin_le, fin_le]
    norm_num
  · unfold exponentialLambda
    rw [dbl_one, hd _ _ (by norm_num)]
    have : fl ((1 : ℚ) / (5882252574524729 / 2 ^ 58)) = 49 + 1 / 2 ^ 47 := by decide +kernel
    unfold Dbl.round
    rw [this, if_neg]
    rw [abs_of_nonneg (by norm_num)]
    norm_num
  · rw [zpow_neg, zpow_ofNat]
    norm_num
  · unfold chiSquaredInit gammaInit
    rw [dbl_two, hd _ _ (by norm_num), dbl_zero, if_pos]
    left
    have : Dbl.round (1 / 2 ^ 1074 / 2 : ℚ) = .fin 0 := by decide +kernel
    rw [this, fin_le]

example : IsDouble (7 / 2) ∧ (1 : ℚ) / 2 ^ 1021 ≤ 7 / 2 :=
  ⟨⟨7, -1, by norm_num, by norm_num, by norm_num, by norm_num⟩,
    ((one_div_le_one_div_of_le one_pos (one_le_pow₀ one_le_two)).trans (by norm_num))⟩
example : (1 : ℚ) / 2 ^ 1021 ≤ 49 ∧ (49 : ℚ) ≤ 2 ^ 1021 :=
  ⟨((one_div_le_one_div_of_le one_pos (one_le_pow₀ one_le_two)).trans (by norm_num)),
    le_trans (by norm_num) (pow_le_pow_right₀ one_le_two (show 6 ≤ 1021 by norm_num))⟩
example : ∃ d : Gamma ℝ, exponentialInit 49 = .ok d := ⟨_, by
  unfold exponentialInit gammaInit; rw [if_neg (by norm_num)]⟩

end Rand.Props
