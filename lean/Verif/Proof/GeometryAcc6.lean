import Verif.Proof.GeometryAcc5

/-! # Accuracy in binary64: the intersection of two lines -/

set_option exponentiation.threshold 2000

namespace Geo.Acc
open Cpp Geo Geo.Spec

theorem moderate_mk {m k : Int} (hm : m ≠ 0) (hm2 : |m| < 2 ^ 53) (hk : -400 ≤ k) (hk2 : k ≤ 347) : Moderate (m * 2 ^ k) := by
  have hp : (0 : ℚ) < 2 ^ k := two_zpow_pos k
  refine ⟨⟨m, k, hm2, by omega, by omega, rfl⟩, .inr ?_⟩
  rw [abs_mul, abs_of_pos hp]
  have h1 : (1 : ℚ) ≤ |(m : ℚ)| := by exact_mod_cast Int.one_le_abs hm
  have h2 : |(m : ℚ)| ≤ 2 ^ 53 := by exact_mod_cast hm2.le
  have h3 : (1 : ℚ) / 2 ^ 400 ≤ 2 ^ k := by
    have : (2 : ℚ) ^ (-400 : Int) ≤ 2 ^ k := zpow_le_zpow_right₀ (by norm_num) hk
    have e : (2 : ℚ) ^ (-400 : Int) = 1 / 2 ^ 400 := by norm_num
    rwa [e] at this
  have h4 : (2 : ℚ) ^ k ≤ 2 ^ 347 := by
    have : (2 : ℚ) ^ k ≤ 2 ^ (347 : Int) := zpow_le_zpow_right₀ (by norm_num) hk2
    exact this.trans (le_of_eq (by norm_num))
  constructor
  · nlinarith
  · calc |(m : ℚ)| * 2 ^ k ≤ 2 ^ 53 * 2 ^ 347 := mul_le_mul h2 h4 hp.le (by positivity)
      _ = 2 ^ 400 := by rw [← pow_add]

theorem moderate_zero : Moderate 0 := ⟨⟨0, 0, by norm_num, by norm_num, by norm_num, by norm_num⟩, .inl rfl⟩

theorem vlen_le_big {p : Fin 2 → ℝ} {B : ℝ} (h : ∀ i, |p i| ≤ B) : vlen p ≤ 2 * B := by
  have hB : 0 ≤ B := (abs_nonneg (p 0)).trans (h 0)
  rw [vlen2, Real.sqrt_le_left (by linarith)]
  have h0 := pow_le_pow_left₀ (abs_nonneg _) (h 0) 2
  have h1 := pow_le_pow_left₀ (abs_nonneg _) (h 1) 2
  rw [sq_abs] at h0 h1
  nlinarith

/-- a zero numerator -/
theorem zero_num {a v c : ℚ} (ha : Moderate a) (hc : c ≠ 0) :
    ∃ z : ℚ, Dbl.fin a + Dbl.fin v * (Dbl.fin 0 / Dbl.fin c) = .fin z ∧ |(z : ℝ) - a| ≤ 2 * u * |(a : ℝ)| := by
  have hz : Dbl.round (0 : ℚ) = .fin 0 := by
    have := round_int (a := 0) (by norm_num)
    simpa using this
  have e1 : Dbl.fin 0 / Dbl.fin c = .fin 0 := by
    show (if c = 0 then _ else Dbl.round (0 / c)) = _
    rw [if_neg hc, zero_div, hz]
  have e2 : Dbl.fin v * Dbl.fin 0 = .fin 0 := by
    show Dbl.round (v * 0) = _
    rw [mul_zero, hz]
  rw [e1, e2]
  refine ⟨fl (a + 0), ?_, ?_⟩
  · show Dbl.round (a + 0) = _
    apply roundq
    rw [add_zero]
    exact (moderate_le ha).trans (pow_le_pow_right₀ (by norm_num) (by norm_num))
  · rw [add_zero]
    have := ((grid_of_moderate ha).rel (by norm_num)).err (by norm_num)
    norm_num at this
    exact this

/-- the intersection of two lines -/
theorem inter_err {A v B w : Fin 2 → ℚ} (hA : ∀ i, Moderate (A i)) (hv : ∀ i, Moderate (v i)) (hB : ∀ i, Moderate (B i))
    (hw : ∀ i, Moderate (w i)) (hv0 : v ≠ 0) (hw0 : w ≠ 0) {κ : ℝ} (hκ : 1 / 2 ^ 20 ≤ κ)
    (hc : κ * (vlen (real v) * vlen (real w)) ≤ |cross (real v) (real w)|) {X : Fin 2 → ℝ}
    (hX : X ∈ line (real A) (real v)) (hX' : X ∈ line (real B) (real w)) (n : Nat) :
    ∃ z : Fin 2 → ℚ, ((getIntersection ⟨dbl A, dbl v⟩ ⟨dbl B, dbl w⟩).run n).1 = dbl z ∧
      ∀ i, |(z i : ℝ) - X i| ≤ 32 * u * (|(A i : ℝ)| + vlen (fun i => (A i : ℝ) - B i) / κ ^ 2) := by
  obtain ⟨s1, s2, s3, s4⟩ := sub_moderate hA hB
  have ne : ∀ {p : Fin 2 → ℚ}, p ≠ 0 → real p ≠ 0 := by
    intro p hp h
    refine hp (funext fun i => ?_)
    have : ((p i : ℚ) : ℝ) = 0 := congrFun h i
    exact Rat.cast_eq_zero.1 this
  have hL1 := vlen_pos (ne hv0)
  have hL2 := vlen_pos (ne hw0)
  have hκ0 : 0 < κ := lt_of_lt_of_le (by norm_num) hκ
  have hu0 := u_pos
  set U : Fin 2 → ℝ := fun i => (A i : ℝ) - B i with hU
  have up : ∀ {a b : Nat} {x : ℝ}, x ≤ 2 ^ a → a ≤ b → x ≤ 2 ^ b := fun h hab => h.trans (pow_le_pow_right₀ (by norm_num) hab)
  obtain ⟨num, hn, -, hne⟩ := cross_err (fun i => grid_of_moderate (hw i)) s2 s3 (by norm_num)
    (fun i => up (moderate_le (hw i)) (by norm_num)) (fun i => up (s4 i) (by norm_num))
  obtain ⟨den, hd, -, hde⟩ := cross_err (e := 0) (W := real w) (fun i => grid_of_moderate (hv i)) (fun i => grid_of_moderate (hw i))
    (fun i => Rel.refl _) (by norm_num) (fun i => up (moderate_le (hv i)) (by norm_num))
    (fun i => up (moderate_le (hw i)) (by norm_num))
  have hκ1 : κ ≤ 1 := by
    have := hc.trans (abs_cross_le (real v) (real w))
    exact le_of_mul_le_mul_right (by linarith) (mul_pos hL1 hL2)
  have hne2 : |(num : ℝ) - cross (real w) U| ≤ 4 * u * (vlen (real w) * vlen U) := by
    refine hne.trans ?_
    rw [show ((1 : Nat) : ℝ) + 3 = 4 by norm_num]
    exact mul_le_mul_of_nonneg_left (cs_cross (real w) U) (by linarith)
  have hde2 : |(den : ℝ) - cross (real v) (real w)| ≤ 3 * u * (vlen (real v) * vlen (real w)) := by
    refine hde.trans ?_
    rw [show ((0 : Nat) : ℝ) + 3 = 3 by norm_num]
    exact mul_le_mul_of_nonneg_left (cs_cross (real v) (real w)) (by linarith)
  obtain ⟨q1, q2, q3⟩ := ar_quot hL1 hL2 (vlen_nonneg U) hκ hκ1 hc (abs_cross_le (real w) U) hne2 hde2
  -- the exact point
  have hcn : cross (real v) (real w) ≠ 0 := by
    intro h
    rw [h, abs_zero] at hc
    exact absurd hc (not_le.2 (mul_pos hκ0 (mul_pos hL1 hL2)))
  have hXT : ∀ i, X i = A i + v i * (cross (real w) U / cross (real v) (real w)) := by
    obtain ⟨t, ht⟩ := hX
    obtain ⟨t', ht'⟩ := hX'
    have e : t = cross (real w) U / cross (real v) (real w) := by
      rw [eq_div_iff hcn]
      unfold cross
      have h0 := (ht 0).symm.trans (ht' 0)
      have h1 := (ht 1).symm.trans (ht' 1)
      show t * (real v 0 * real w 1 - real v 1 * real w 0) = real w 0 * (real A 1 - real B 1) - real w 1 * (real A 0 - real B 0)
      linear_combination real w 1 * h0 - real w 0 * h1
    intro i
    rw [ht i, e]
    show real A i + _ * real v i = real A i + real v i * _
    ring
  have hrun : ((getIntersection ⟨dbl A, dbl v⟩ ⟨dbl B, dbl w⟩).run n).1 =
      fun i => Dbl.fin (A i) + Dbl.fin (v i) * (cross (dbl w) (fun i => Dbl.fin (A i) - Dbl.fin (B i)) / cross (dbl v) (dbl w)) := rfl
  rw [hrun, s1]
  have hn' : cross (dbl w) (fun i => Dbl.fin (fl (A i - B i))) = .fin num := hn
  have hd' : cross (dbl v) (dbl w) = .fin den := hd
  rw [hn', hd']
  have hdq : den ≠ 0 := by exact_mod_cast q1
  have hR0 : 0 ≤ vlen U / κ ^ 2 := div_nonneg (vlen_nonneg U) (by positivity)
  suffices h : ∀ i, ∃ z : ℚ, Dbl.fin (A i) + Dbl.fin (v i) * (Dbl.fin num / Dbl.fin den) = .fin z ∧
      |(z : ℝ) - X i| ≤ 32 * u * (|(A i : ℝ)| + vlen U / κ ^ 2) by
    choose z h1 h2 using h
    exact ⟨z, funext h1, h2⟩
  intro i
  rcases le_or_gt (2 ^ (-460 : Int)) (vlen U) with hbig | hsmall
  · have hR : (2 : ℝ) ^ (-460 : Int) ≤ vlen U / κ ^ 2 := hbig.trans (le_div_self (vlen_nonneg U) (by positivity) (by nlinarith))
    have hUb : vlen U ≤ 2 ^ 402 := by
      have := vlen_le_big s4
      refine this.trans (le_of_eq ?_)
      rw [pow_succ _ 401]
      ring
    have hR2 : vlen U / κ ^ 2 ≤ 2 ^ 500 := by
      rw [div_le_iff₀ (by positivity)]
      have h1 : (1 / 2 ^ 20 : ℝ) ^ 2 ≤ κ ^ 2 := pow_le_pow_left₀ (by norm_num) hκ 2
      have h2 : (2 : ℝ) ^ 402 ≤ 2 ^ 500 * (1 / 2 ^ 20) ^ 2 := by norm_num
      refine hUb.trans (h2.trans ?_)
      exact mul_le_mul_of_nonneg_left h1 (by positivity)
    have hLb : vlen (real v) ≤ 2 ^ 440 := by
      have := vlen_le_big (p := real v) (fun i => moderate_le (hv i))
      refine this.trans ?_
      rw [show (2 : ℝ) * 2 ^ 400 = 2 ^ 401 by rw [pow_succ _ 400]; ring]
      exact pow_le_pow_right₀ (by norm_num) (by norm_num)
    have hcast : ((num / den : ℚ) : ℝ) = (num : ℝ) / den := by push_cast; rfl
    obtain ⟨z, z1, z2⟩ := ar_point (a := A i) (v := v i) (t := num / den) (moderate_le (hA i)) hL1 hLb (abs_le_vlen (real v) i) hR hR2 q2
      (by rw [hcast]; exact q3)
    refine ⟨z, ?_, ?_⟩
    · rw [← z1]
      congr 2
      show (if den = 0 then _ else Dbl.round (num / den)) = _
      rw [if_neg hdq]
      apply roundq
      rw [hcast]
      -- the parameter is at most `2 R / L`
      have hLlow : (2 : ℝ) ^ (-452 : Int) ≤ vlen (real v) := by
        obtain ⟨j, hj⟩ : ∃ j, v j ≠ 0 := by
          by_contra hcon
          push Not at hcon
          exact hv0 (funext hcon)
        rcases (grid_of_moderate (hv j)).big with h | h
        · exact absurd h (by exact_mod_cast hj)
        · exact h.trans (abs_le_vlen (real v) j)
      have h3 : vlen (real v) * |(num : ℝ) / den| ≤ 2 * (vlen U / κ ^ 2) := by
        have := abs_add_le ((num : ℝ) / den - cross (real w) U / cross (real v) (real w)) (cross (real w) U / cross (real v) (real w))
        rw [sub_add_cancel] at this
        have h4 := mul_le_mul_of_nonneg_left this hL1.le
        have h5 : 8 * u * (vlen U / κ ^ 2) ≤ 1 * (vlen U / κ ^ 2) := mul_le_mul_of_nonneg_right (by linarith [u_small]) hR0
        linarith
      have h6 : (2 : ℝ) ^ (-452 : Int) * |(num : ℝ) / den| ≤ 2 ^ 501 := by
        refine (mul_le_mul_of_nonneg_right hLlow (abs_nonneg _)).trans (h3.trans ?_)
        rw [pow_succ _ 500]
        generalize (2 : ℝ) ^ 500 = C at *
        linarith
      have h7 : |(num : ℝ) / den| = 2 ^ (452 : Int) * (2 ^ (-452 : Int) * |(num : ℝ) / den|) := by
        rw [← mul_assoc, ← zpow_add₀ (by norm_num)]
        norm_num
      rw [h7]
      calc (2 : ℝ) ^ (452 : Int) * (2 ^ (-452 : Int) * |(num : ℝ) / den|) ≤ 2 ^ (452 : Int) * 2 ^ 501 :=
            mul_le_mul_of_nonneg_left h6 (two_zpow_pos _).le
        _ ≤ 2 ^ 1000 := by
          rw [show (2 : ℝ) ^ (452 : Int) = 2 ^ 452 from zpow_natCast 2 452, ← pow_add]
          exact pow_le_pow_right₀ (by norm_num) (by norm_num)
    · rw [hXT i]
      exact z2
  · -- the two points are the same
    have hz : ∀ j, A j - B j = 0 := by
      intro j
      have hg : Grid (-452) (A j - B j) := (grid_of_moderate (hA j)).sub (grid_of_moderate (hB j))
      rcases hg.big with h | h
      · exact_mod_cast h
      · exfalso
        push_cast at h
        have h1 := lt_of_le_of_lt (h.trans (abs_le_vlen U j)) hsmall
        have := (zpow_lt_zpow_iff_right₀ (by norm_num : (1 : ℝ) < 2)).1 h1
        omega
    have hU0 : ∀ j, U j = 0 := fun j => by
      have : ((A j - B j : ℚ) : ℝ) = 0 := by rw [hz j, Rat.cast_zero]
      push_cast at this
      exact this
    have hnum : num = 0 := by
      have hl : vlen U = 0 := by rw [vlen2, hU0 0, hU0 1]; norm_num
      have hcr : cross (real w) U = 0 := by
        unfold cross
        rw [hU0 0, hU0 1]
        ring
      rw [hl, hcr, sub_zero, mul_zero, mul_zero] at hne2
      exact Rat.cast_eq_zero.1 (abs_eq_zero.1 (le_antisymm hne2 (abs_nonneg _)))
    obtain ⟨z, z1, z2⟩ := zero_num (v := v i) (hA i) hdq
    refine ⟨z, by rw [hnum]; exact z1, ?_⟩
    rw [hXT i]
    have : cross (real w) U = 0 := by
      unfold cross
      rw [hU0 0, hU0 1]
      ring
    rw [this, zero_div, mul_zero, add_zero]
    refine z2.trans ?_
    have h1 : 0 ≤ u * |(A i : ℝ)| := by positivity
    have h2 : 0 ≤ u * (vlen U / κ ^ 2) := mul_nonneg hu0.le hR0
    linarith

end Geo.Acc
