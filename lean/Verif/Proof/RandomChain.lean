import Verif.Proof.RandomErr

/-! # The recurrences of the discrete samplers in binary64 -/

namespace Rand.Err
open Cpp Spec Rand Finset

/-- probabilities below this are not needed to full precision -/
noncomputable def tiny : ℝ := 1 / 2 ^ 1000

theorem tiny_pos : 0 < tiny := by unfold tiny; positivity

theorem tiny_cast : (((1 : ℚ) / 2 ^ 1000 : ℚ) : ℝ) = tiny := by
  unfold tiny
  rw [Rat.cast_div, Rat.cast_one, Rat.cast_pow, Rat.cast_ofNat]

theorem normal_le : (2 : ℚ) ^ (-1022 : Int) ≤ 1 / 2 ^ 1000 / 2 := by
  rw [show (1 : ℚ) / 2 ^ 1000 / 2 = 2 ^ (-1001 : Int) by
    rw [show (-1001 : Int) = -1000 - 1 by norm_num, zpow_sub₀ (by norm_num), zpow_one, zpow_neg, one_div, zpow_ofNat]]
  exact zpow_le_zpow_right₀ (by norm_num) (by norm_num)

theorem normal_of_tiny {y : ℚ} (h : tiny / 2 ≤ y) : (2 : ℚ) ^ (-1022 : Int) ≤ y := by
  refine normal_le.trans ?_
  rw [← tiny_cast] at h
  have h' : (((1 : ℚ) / 2 ^ 1000 / 2 : ℚ) : ℝ) ≤ y := by rw [Rat.cast_div]; exact_mod_cast h
  exact_mod_cast h'

/-- rounding of a number that is at most about tiny -/
theorem fl_tiny_le {y : ℚ} {m : Nat} (h : (y : ℝ) ≤ tiny * (1 + u) ^ m) : (fl y : ℝ) ≤ tiny * (1 + u) ^ (m + 1) := by
  have hz : ((1 / 2 ^ 1000 * (1 + Stats.u) ^ m : ℚ) : ℝ) = tiny * (1 + u) ^ m := by
    rw [Rat.cast_mul, tiny_cast, Rat.cast_pow, Rat.cast_add, Rat.cast_one, u_cast]
  have hy : y ≤ 1 / 2 ^ 1000 * (1 + Stats.u) ^ m := by
    rw [← hz] at h
    exact_mod_cast h
  have h1 := fl_mono hy
  have h2 := (fl_normal (y := 1 / 2 ^ 1000 * (1 + Stats.u) ^ m) (.inr (normal_of_tiny (by
    rw [hz]
    have := hi_ge m
    have := tiny_pos
    nlinarith)))).2.2
  rw [hz] at h2
  have h3 : (fl y : ℝ) ≤ fl (1 / 2 ^ 1000 * (1 + Stats.u) ^ m) := by exact_mod_cast h1
  rw [pow_succ, ← mul_assoc]
  exact h3.trans h2

section
variable {f ρ : Nat → ℝ} {P R : Nat → ℚ} {m d K : Nat}

theorem f_nonneg (hf0 : tiny ≤ f 0) (hf : ∀ k, f (k + 1) = f k * ρ k) (hρ0 : ∀ k, 0 ≤ ρ k) (k : Nat) : 0 ≤ f k := by
  induction k with
  | zero => exact tiny_pos.le.trans hf0
  | succ k ih => rw [hf]; exact mul_nonneg ih (hρ0 k)

/-- if the probabilities still rise, they are not less than the first -/
theorem ratio_le_one (hf0 : tiny ≤ f 0) (hf : ∀ k, f (k + 1) = f k * ρ k) (hρ0 : ∀ k, 0 ≤ ρ k)
    (hρ : ∀ k, ρ (k + 1) ≤ ρ k) (k : Nat) (hk : f k < tiny) : ρ k ≤ 1 := by
  by_contra hc
  push Not at hc
  have hanti : ∀ i j, i ≤ j → ρ j ≤ ρ i := fun i j h => by
    induction h with
    | refl => exact le_rfl
    | step _ ih => exact (hρ _).trans ih
  have : ∀ i ≤ k, f 0 ≤ f i := by
    intro i
    induction i with
    | zero => intro _; exact le_rfl
    | succ i ih =>
      intro hi
      have h1 := ih (by omega)
      have h2 := hanti i k (by omega)
      have h3 := f_nonneg hf0 hf hρ0 i
      rw [hf]
      nlinarith
  have := this k le_rfl
  linarith

theorem chain (hf0 : tiny ≤ f 0) (hf : ∀ k, f (k + 1) = f k * ρ k) (hρ0 : ∀ k, 0 ≤ ρ k) (hρ : ∀ k, ρ (k + 1) ≤ ρ k)
    (hP0 : Appr 0 m (f 0) (P 0)) (hR : ∀ k < K, Appr 0 d (ρ k) (R k)) (hP : ∀ k < K, P (k + 1) = fl (P k * R k))
    (hm : ((m + (d + 1) * K : Nat) : ℝ) * u ≤ 1 / 4) (k : Nat) (hk : k ≤ K) :
    (tiny ≤ f k → Appr 0 (m + (d + 1) * k) (f k) (P k)) ∧
      (f k < tiny → 0 ≤ P k ∧ (P k : ℝ) ≤ tiny * (1 + u) ^ (m + (d + 1) * k)) := by
  induction k with
  | zero => exact ⟨fun _ => by simpa using hP0, fun h => absurd h (not_lt.2 hf0)⟩
  | succ k ih =>
    obtain ⟨h1, h2⟩ := ih (by omega)
    have hRk := hR k (by omega)
    have hfk := f_nonneg hf0 hf hρ0 k
    have hexp : m + (d + 1) * (k + 1) = m + (d + 1) * k + d + 1 := by ring
    have hexp' : ((m + (d + 1) * (k + 1) : Nat) : ℝ) * u ≤ 1 / 4 := by
      refine le_trans (mul_le_mul_of_nonneg_right ?_ u_pos.le) hm
      have : m + (d + 1) * (k + 1) ≤ m + (d + 1) * K := by gcongr
      exact_mod_cast this
    have hup := hRk.hi
    rw [add_zero] at hup
    have hR0 : (0 : ℝ) ≤ R k := by exact_mod_cast hRk.nonneg
    rcases lt_or_ge (f k) tiny with hlt | hge
    · -- the probabilities are tiny already
      have hr := ratio_le_one hf0 hf hρ0 hρ k hlt
      obtain ⟨hp0, hp1⟩ := h2 hlt
      have hle : f (k + 1) < tiny := by rw [hf]; nlinarith
      refine ⟨fun h => absurd h (not_le.2 hle), fun _ => ?_⟩
      rw [hP k (by omega)]
      have hn : 0 ≤ P k * R k := mul_nonneg hp0 hRk.nonneg
      refine ⟨fl_nonneg hn, ?_⟩
      rw [hexp]
      apply fl_tiny_le
      push_cast
      calc (P k : ℝ) * R k ≤ tiny * (1 + u) ^ (m + (d + 1) * k) * (1 * (1 + u) ^ d) := by
            apply mul_le_mul hp1 (hup.trans (mul_le_mul_of_nonneg_right hr (by have := hi_ge d; linarith))) hR0
            exact mul_nonneg tiny_pos.le (by have := hi_ge (m + (d + 1) * k); linarith)
        _ = _ := by rw [pow_add _ _ d]; ring
    · have ha := h1 hge
      have hprod := Appr.mul0 hfk (hρ0 k) ha hRk
      rw [← hf] at hprod
      refine ⟨fun h => ?_, fun h => ?_⟩
      · rw [hP k (by omega), hexp]
        apply hprod.round0
        right
        apply normal_of_tiny
        refine le_trans ?_ hprod.lo
        rw [sub_zero]
        have h3 := lo_ge (m + (d + 1) * k + d)
        have h4 : ((m + (d + 1) * k + d : Nat) : ℝ) * u ≤ 1 / 4 := by
          refine le_trans (mul_le_mul_of_nonneg_right ?_ u_pos.le) hexp'
          have : m + (d + 1) * k + d ≤ m + (d + 1) * (k + 1) := by rw [hexp]; omega
          exact_mod_cast this
        have h5 : (1 : ℝ) / 2 ≤ (1 - u) ^ (m + (d + 1) * k + d) := by linarith
        have := tiny_pos
        nlinarith
      · rw [hP k (by omega)]
        refine ⟨fl_nonneg hprod.nonneg, ?_⟩
        rw [hexp]
        apply fl_tiny_le
        refine hprod.hi.trans ?_
        rw [add_zero]
        exact mul_le_mul_of_nonneg_right h.le (by have := hi_ge (m + (d + 1) * k + d); linarith)

theorem chain_appr (hf0 : tiny ≤ f 0) (hf : ∀ k, f (k + 1) = f k * ρ k) (hρ0 : ∀ k, 0 ≤ ρ k) (hρ : ∀ k, ρ (k + 1) ≤ ρ k)
    (hP0 : Appr 0 m (f 0) (P 0)) (hR : ∀ k < K, Appr 0 d (ρ k) (R k)) (hP : ∀ k < K, P (k + 1) = fl (P k * R k))
    (hm : ((m + (d + 1) * K : Nat) : ℝ) * u ≤ 1 / 4) (k : Nat) (hk : k ≤ K) :
    Appr tiny (m + (d + 1) * k) (f k) (P k) := by
  obtain ⟨h1, h2⟩ := chain hf0 hf hρ0 hρ hP0 hR hP hm k hk
  have hfk := f_nonneg hf0 hf hρ0 k
  have ht := tiny_pos
  rcases lt_or_ge (f k) tiny with h | h
  · obtain ⟨a, b⟩ := h2 h
    refine ⟨a, ?_, ?_⟩
    · exact le_trans (mul_nonpos_of_nonpos_of_nonneg (by linarith) (lo_pos _).le) (by exact_mod_cast a)
    · exact b.trans (mul_le_mul_of_nonneg_right (by linarith) (by have := hi_ge (m + (d + 1) * k); linarith))
  · exact (h1 h).mono hfk le_rfl ht.le le_rfl

/-- the thresholds -/
theorem thresholds (hf0 : tiny ≤ f 0) (hf : ∀ k, f (k + 1) = f k * ρ k) (hρ0 : ∀ k, 0 ≤ ρ k) (hρ : ∀ k, ρ (k + 1) ≤ ρ k)
    (hP0 : Appr 0 m (f 0) (P 0)) (hfix : fl (P 0) = P 0) (hR : ∀ k < K, Appr 0 d (ρ k) (R k))
    (hP : ∀ k < K, P (k + 1) = fl (P k * R k)) (T : Nat → ℚ) (hT0 : T 0 = P 0) (hT : ∀ k < K, T (k + 1) = fl (T k + P (k + 1)))
    (hm : ((m + (d + 2) * K : Nat) : ℝ) * u ≤ 1 / 4) (k : Nat) (hk : k ≤ K) :
    Appr ((k + 1) * tiny) (m + (d + 2) * k) (∑ i ∈ range (k + 1), f i) (T k) ∧ fl (T k) = T k ∧ P 0 ≤ T k ∧
      (∀ j, j + 1 = k → T j ≤ T k) := by
  have hm' : ((m + (d + 1) * K : Nat) : ℝ) * u ≤ 1 / 4 := by
    refine le_trans (mul_le_mul_of_nonneg_right ?_ u_pos.le) hm
    have : m + (d + 1) * K ≤ m + (d + 2) * K := by gcongr; omega
    exact_mod_cast this
  have ht := tiny_pos
  have hnormal : (2 : ℚ) ^ (-1022 : Int) ≤ P 0 := by
    apply normal_of_tiny
    refine le_trans ?_ hP0.lo
    have h3 := lo_ge m
    have h4 : (m : ℝ) * u ≤ 1 / 4 := by
      refine le_trans (mul_le_mul_of_nonneg_right ?_ u_pos.le) hm
      have : m ≤ m + (d + 2) * K := by omega
      exact_mod_cast this
    have h5 : (1 : ℝ) / 2 ≤ (1 - u) ^ m := by linarith
    rw [sub_zero]
    nlinarith
  induction k with
  | zero =>
    rw [hT0]
    refine ⟨?_, hfix, le_rfl, fun j hj => absurd hj (by omega)⟩
    simp only [zero_add, sum_range_one, Nat.cast_zero, mul_zero, add_zero, one_mul]
    exact hP0.mono (f_nonneg hf0 hf hρ0 0) le_rfl ht.le le_rfl
  | succ k ih =>
    obtain ⟨h1, h2, h3, -⟩ := ih (by omega)
    have hPk := chain_appr hf0 hf hρ0 hρ hP0 hR hP hm' (k + 1) hk
    have hnn : ∀ i, 0 ≤ f i := f_nonneg hf0 hf hρ0
    have hexp : m + (d + 2) * (k + 1) = (m + (d + 1) * (k + 1) + k) + 1 := by ring
    have hge : T k ≤ fl (T k + P (k + 1)) := by
      conv_lhs => rw [← h2]
      exact fl_mono (by have := hPk.nonneg; linarith)
    rw [hT k (by omega)]
    refine ⟨?_, fl_idem _, h3.trans hge, fun j hj => ?_⟩
    · rw [hexp, sum_range_succ]
      have e : (((k + 1 : Nat) : ℝ) + 1) * tiny = (k + 1) * tiny + tiny := by push_cast; ring
      rw [e]
      apply Appr.round0
      · apply Appr.add
        · refine h1.mono (sum_nonneg fun i _ => hnn i) (by positivity) le_rfl ?_
          have : m + (d + 2) * k = m + (d + 1) * k + k := by ring
          rw [this]
          gcongr
          omega
        · exact hPk.mono (hnn _) ht.le le_rfl (by omega)
      · right
        have := hPk.nonneg
        linarith
    · obtain rfl : j = k := by omega
      exact hge

end
end Rand.Err
