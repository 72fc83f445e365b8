import Verif.Proof.GeometryInt
import Mathlib.Algebra.Order.Ring.Pow

/-! # Relative errors of computations in binary64 -/

set_option exponentiation.threshold 2000

namespace Geo.Acc
open Cpp Geo

/-- the relative error of one rounding -/
noncomputable def u : ℝ := 1 / 2 ^ 53

theorem u_pos : 0 < u := by unfold u; positivity
theorem u_lt : u < 1 := by unfold u; norm_num
theorem u_eq : (2 : ℝ) ^ (-53 : Int) = u := by unfold u; rw [zpow_neg]; norm_num

/-- rounding a real number of ordinary size -/
theorem fl_rel_pos {x : ℝ} (h : 2 ^ (-1022 : Int) ≤ x) : |((flPos x : ℚ) : ℝ) - x| ≤ u * x := by
  have hx : 0 < x := lt_of_lt_of_le (two_zpow_pos _) h
  have hb : 2 ^ (lastBit x + 52) ≤ x := by
    rcases eq_or_lt_of_le (lastBit_ge x) with he | he
    · rw [← he]; exact h
    · exact lastBit_le hx he
  have hc := roundTiesEven_close (x / 2 ^ lastBit x)
  have hp : (0 : ℝ) < 2 ^ lastBit x := two_zpow_pos _
  unfold flPos
  push_cast
  have e : (roundTiesEven (x / 2 ^ lastBit x) : ℝ) * 2 ^ lastBit x - x
      = -(x / 2 ^ lastBit x - roundTiesEven (x / 2 ^ lastBit x)) * 2 ^ lastBit x := by
    field_simp; ring
  rw [e, abs_mul, abs_neg, abs_of_pos hp, ← u_eq]
  calc _ ≤ 1 / 2 * 2 ^ lastBit x := mul_le_mul_of_nonneg_right hc hp.le
    _ = 2 ^ (-53 : Int) * 2 ^ (lastBit x + 52) := by
      rw [← zpow_add₀ (by norm_num)]
      rw [show (-53 : Int) + (lastBit x + 52) = -1 + lastBit x by ring, zpow_add₀ (by norm_num)]
      norm_num
    _ ≤ _ := mul_le_mul_of_nonneg_left hb (two_zpow_pos _).le

theorem fl_rel {x : ℝ} (h : 2 ^ (-1022 : Int) ≤ |x|) : |((fl x : ℚ) : ℝ) - x| ≤ u * |x| := by
  unfold fl
  split
  · rename_i h0
    rw [abs_of_neg h0] at h ⊢
    have := fl_rel_pos h
    push_cast
    rwa [show -((flPos (-x) : ℚ) : ℝ) - x = -(((flPos (-x) : ℚ) : ℝ) - -x) by ring, abs_neg]
  · rename_i h0
    rw [abs_of_nonneg (not_lt.1 h0)] at h ⊢
    exact fl_rel_pos h

theorem fl_err_pos {x : ℝ} (hx : 0 ≤ x) : |((flPos x : ℚ) : ℝ) - x| ≤ u * x + 2 ^ (-1075 : Int) := by
  rcases le_or_gt (2 ^ (-1022 : Int)) x with h | h
  · exact (fl_rel_pos h).trans (le_add_of_nonneg_right (two_zpow_pos _).le)
  rcases eq_or_lt_of_le hx with h0 | h0
  · rw [← h0, flPos_zero]; simp
  have hb : lastBit x = -1074 := by
    by_contra hc
    have h1 : -1074 < lastBit x := lt_of_le_of_ne (lastBit_ge x) (Ne.symm hc)
    have h2 := lt_of_le_of_lt (lastBit_le h0 h1) h
    have := (zpow_lt_zpow_iff_right₀ (by norm_num : (1 : ℝ) < 2)).1 h2
    omega
  have hc := roundTiesEven_close (x / 2 ^ lastBit x)
  have hp : (0 : ℝ) < 2 ^ lastBit x := two_zpow_pos _
  unfold flPos
  push_cast
  have e : (roundTiesEven (x / 2 ^ lastBit x) : ℝ) * 2 ^ lastBit x - x
      = -(x / 2 ^ lastBit x - roundTiesEven (x / 2 ^ lastBit x)) * 2 ^ lastBit x := by
    field_simp; ring
  rw [e, abs_mul, abs_neg, abs_of_pos hp]
  refine (mul_le_mul_of_nonneg_right hc hp.le).trans ?_
  rw [hb]
  have e2 : (1 : ℝ) / 2 * 2 ^ (-1074 : Int) = 2 ^ (-1075 : Int) := by
    rw [show (-1074 : Int) = 1 + -1075 by norm_num, zpow_add₀ (by norm_num)]
    rw [← mul_assoc]
    norm_num
  rw [e2]
  exact le_add_of_nonneg_left (mul_nonneg u_pos.le hx)

theorem fl_err (x : ℝ) : |((fl x : ℚ) : ℝ) - x| ≤ u * |x| + 2 ^ (-1075 : Int) := by
  unfold fl
  split
  · rename_i h0
    rw [abs_of_neg h0]
    have := fl_err_pos (x := -x) (by linarith)
    push_cast
    rwa [show -((flPos (-x) : ℚ) : ℝ) - x = -(((flPos (-x) : ℚ) : ℝ) - -x) by ring, abs_neg]
  · rename_i h0
    rw [abs_of_nonneg (not_lt.1 h0)]
    exact fl_err_pos (not_lt.1 h0)

theorem round_real {x : ℝ} (h : |x| ≤ 2 ^ 1000) : Dbl.round x = .fin (fl x) := by
  unfold Dbl.round
  rw [if_neg]
  have h1 := fl_err x
  have h2 : |((fl x : ℚ) : ℝ)| ≤ |((fl x : ℚ) : ℝ) - x| + |x| := by
    have := abs_add_le (((fl x : ℚ) : ℝ) - x) x
    rwa [sub_add_cancel] at this
  have e2 : (2 : ℝ) ^ (-1075 : Int) ≤ 1 := by
    rw [zpow_neg]; exact inv_le_one_of_one_le₀ (one_le_zpow₀ (by norm_num) (by norm_num))
  have h3 : u * |x| ≤ 1 * |x| := mul_le_mul_of_nonneg_right u_lt.le (abs_nonneg _)
  have e3 : (2 : ℝ) * 2 ^ 1000 + 1 < 2 ^ 1024 := by norm_num
  have h4 : |((fl x : ℚ) : ℝ)| < 2 ^ 1024 := by
    refine lt_of_le_of_lt ?_ e3
    generalize (2 : ℝ) ^ 1000 = B at *
    linarith
  rw [not_le]
  exact_mod_cast h4

/-- rounding a rational number, its error over the reals -/
theorem flq_rel {x : ℚ} (h : 2 ^ (-1022 : Int) ≤ |(x : ℝ)|) : |((fl x : ℚ) : ℝ) - x| ≤ u * |(x : ℝ)| := by
  have := fl_rel h
  rwa [fl_cast] at this

theorem flq_err (x : ℚ) : |((fl x : ℚ) : ℝ) - x| ≤ u * |(x : ℝ)| + 2 ^ (-1075 : Int) := by
  have := fl_err (x : ℝ)
  rwa [fl_cast] at this

theorem roundq {x : ℚ} (h : |(x : ℝ)| ≤ 2 ^ 1000) : Dbl.round x = .fin (fl x) := round_fin (by exact_mod_cast h)

theorem lo_pos (m : Nat) : 0 < (1 - u) ^ m := pow_pos (by linarith [u_lt]) m
theorem lo_le (m : Nat) : (1 - u) ^ m ≤ 1 := pow_le_one₀ (by linarith [u_lt]) (by linarith [u_pos])
theorem hi_ge (m : Nat) : 1 ≤ (1 + u) ^ m := one_le_pow₀ (by linarith [u_pos])
theorem hi_pos (m : Nat) : 0 < (1 + u) ^ m := by linarith [hi_ge m]

theorem lo_ge (m : Nat) : 1 - m * u ≤ (1 - u) ^ m := by
  have := one_add_mul_le_pow (a := -u) (by linarith [u_lt]) m
  have e : (1 : ℝ) + -u = 1 - u := by ring
  rw [e] at this
  linarith

theorem hi_le {m : Nat} (h : m ≤ 2 ^ 24) : (1 + u) ^ m ≤ 1 + (m + 1) * u := by
  have h1 := lo_ge m
  have h2 : (1 + u) ^ m * (1 - u) ^ m ≤ 1 := by
    rw [← mul_pow]
    apply pow_le_one₀
    · nlinarith [u_lt, u_pos]
    · nlinarith [u_pos]
  have hm : (m : ℝ) ≤ 2 ^ 24 := by exact_mod_cast h
  have hm0 : (0 : ℝ) ≤ m := Nat.cast_nonneg m
  have hmu : (m : ℝ) * u ≤ 1 / 2 := by
    unfold u
    rw [mul_one_div, div_le_iff₀ (by norm_num)]
    linarith [show (2 : ℝ) ^ 24 ≤ 1 / 2 * 2 ^ 53 by norm_num]
  have h3 : (1 + u) ^ m * (1 - m * u) ≤ 1 := le_trans (mul_le_mul_of_nonneg_left h1 (hi_pos m).le) h2
  have h6 : (m : ℝ) * (m + 1) * u ≤ 1 := by
    have : (m : ℝ) * (m + 1) ≤ 2 ^ 53 := by nlinarith
    unfold u
    rw [mul_one_div, div_le_one (by norm_num)]
    exact this
  have h5 : 1 ≤ (1 + (m + 1) * u) * (1 - m * u) := by
    have := mul_le_mul_of_nonneg_right h6 u_pos.le
    nlinarith
  by_contra hc
  push Not at hc
  have : (1 + (m + 1) * u) * (1 - m * u) < (1 + u) ^ m * (1 - m * u) := mul_lt_mul_of_pos_right hc (by linarith)
  linarith

theorem small_u {m : Nat} (h : m ≤ 2 ^ 24) : (m + 1) * u ≤ 1 / 2 := by
  have hm : (m : ℝ) ≤ 2 ^ 24 := by exact_mod_cast h
  unfold u
  rw [mul_one_div, div_le_iff₀ (by norm_num)]
  linarith [show (2 : ℝ) ^ 24 + 1 ≤ 1 / 2 * 2 ^ 53 by norm_num]

/-- `y` is `x` up to `m` roundings -/
def Rel (m : Nat) (x y : ℝ) : Prop := ∃ t : ℝ, (1 - u) ^ m ≤ t ∧ t ≤ (1 + u) ^ m ∧ y = x * t

variable {m m' : Nat} {x x' y y' z : ℝ}

theorem Rel.refl (x : ℝ) : Rel 0 x x := ⟨1, by simp, by simp, by ring⟩

theorem Rel.zero (m : Nat) : Rel m 0 0 := ⟨1, lo_le m, hi_ge m, by ring⟩

theorem Rel.mono (h : Rel m x y) (hm : m ≤ m') : Rel m' x y := by
  obtain ⟨t, h1, h2, h3⟩ := h
  exact ⟨t, (pow_le_pow_of_le_one (by linarith [u_lt]) (by linarith [u_pos]) hm).trans h1,
    h2.trans (pow_le_pow_right₀ (by linarith [u_pos]) hm), h3⟩

theorem Rel.trans (h : Rel m x y) (h' : Rel m' y z) : Rel (m + m') x z := by
  obtain ⟨t, h1, h2, h3⟩ := h
  obtain ⟨t', h1', h2', h3'⟩ := h'
  refine ⟨t * t', ?_, ?_, by rw [h3', h3]; ring⟩
  · rw [pow_add]; exact mul_le_mul h1 h1' (lo_pos _).le ((lo_pos m).le.trans h1)
  · rw [pow_add]; exact mul_le_mul h2 h2' ((lo_pos m').le.trans h1') (hi_pos m).le

theorem Rel.mul (h : Rel m x y) (h' : Rel m' x' y') : Rel (m + m') (x * x') (y * y') := by
  obtain ⟨t, h1, h2, h3⟩ := h
  obtain ⟨t', h1', h2', h3'⟩ := h'
  refine ⟨t * t', ?_, ?_, by rw [h3', h3]; ring⟩
  · rw [pow_add]; exact mul_le_mul h1 h1' (lo_pos _).le ((lo_pos m).le.trans h1)
  · rw [pow_add]; exact mul_le_mul h2 h2' ((lo_pos m').le.trans h1') (hi_pos m).le

theorem Rel.div (h : Rel m x y) (h' : Rel m' x' y') : Rel (m + 2 * m') (x / x') (y / y') := by
  obtain ⟨t, h1, h2, h3⟩ := h
  obtain ⟨t', h1', h2', h3'⟩ := h'
  have ht' : 0 < t' := lt_of_lt_of_le (lo_pos m') h1'
  refine ⟨t / t', ?_, ?_, by rw [h3', h3, mul_div_mul_comm]⟩
  · rw [le_div_iff₀ ht']
    refine le_trans ?_ h1
    have e : (1 - u) ^ (m + 2 * m') * t' ≤ (1 - u) ^ m * ((1 - u) ^ m' * ((1 - u) ^ m' * (1 + u) ^ m')) := by
      rw [pow_add, two_mul, pow_add]
      calc _ = (1 - u) ^ m * ((1 - u) ^ m' * ((1 - u) ^ m' * t')) := by ring
        _ ≤ _ := by
          have := lo_pos m
          have := lo_pos m'
          gcongr
    refine e.trans ?_
    have h5 : (1 - u) ^ m' * (1 + u) ^ m' ≤ 1 := by
      rw [← mul_pow]
      apply pow_le_one₀
      · nlinarith [u_lt, u_pos]
      · nlinarith [u_pos]
    have h6 := lo_le m'
    have h7 : (1 - u) ^ m' * ((1 - u) ^ m' * (1 + u) ^ m') ≤ 1 * 1 :=
      mul_le_mul h6 h5 (mul_pos (lo_pos _) (hi_pos _)).le (by norm_num)
    have := lo_pos m
    nlinarith
  · rw [div_le_iff₀ ht']
    refine h2.trans ?_
    have h5 : 1 ≤ ((1 + u) * (1 + u) * (1 - u)) ^ m' := by
      apply one_le_pow₀
      have h : u ≤ 1 / 4 := by unfold u; norm_num
      nlinarith [u_pos, mul_pos u_pos u_pos]
    calc (1 + u) ^ m = (1 + u) ^ m * 1 := by ring
      _ ≤ (1 + u) ^ m * ((1 + u) * (1 + u) * (1 - u)) ^ m' := mul_le_mul_of_nonneg_left h5 (hi_pos m).le
      _ = (1 + u) ^ (m + 2 * m') * (1 - u) ^ m' := by
        rw [mul_pow, mul_pow, pow_add, two_mul, pow_add]; ring
      _ ≤ _ := mul_le_mul_of_nonneg_left h1' (hi_pos _).le

theorem Rel.of_bounds (hx : 0 ≤ x) (h1 : x * (1 - u) ^ m ≤ y) (h2 : y ≤ x * (1 + u) ^ m) : Rel m x y := by
  rcases eq_or_lt_of_le hx with h0 | h0
  · rw [← h0, zero_mul] at h1 h2
    rw [← h0, le_antisymm h2 h1]
    exact Rel.zero m
  · refine ⟨y / x, ?_, ?_, by field_simp⟩
    · rw [le_div_iff₀ h0]; linarith
    · rw [div_le_iff₀ h0]; linarith

theorem Rel.lo (h : Rel m x y) (hx : 0 ≤ x) : x * (1 - u) ^ m ≤ y := by
  obtain ⟨t, h1, h2, h3⟩ := h
  rw [h3]; exact mul_le_mul_of_nonneg_left h1 hx

theorem Rel.hi (h : Rel m x y) (hx : 0 ≤ x) : y ≤ x * (1 + u) ^ m := by
  obtain ⟨t, h1, h2, h3⟩ := h
  rw [h3]; exact mul_le_mul_of_nonneg_left h2 hx

theorem Rel.nonneg (h : Rel m x y) (hx : 0 ≤ x) : 0 ≤ y := le_trans (mul_nonneg hx (lo_pos m).le) (h.lo hx)

theorem Rel.add (hx : 0 ≤ x) (hx' : 0 ≤ x') (h : Rel m x y) (h' : Rel m x' y') : Rel m (x + x') (y + y') := by
  apply Rel.of_bounds (by linarith)
  · linarith [h.lo hx, h'.lo hx']
  · linarith [h.hi hx, h'.hi hx']

theorem Rel.sqrt (h : Rel (2 * m) x y) (hx : 0 ≤ x) : Rel m (Real.sqrt x) (Real.sqrt y) := by
  have hy := h.nonneg hx
  have h1 := h.lo hx
  have h2 := h.hi hx
  apply Rel.of_bounds (Real.sqrt_nonneg _)
  · apply Real.le_sqrt_of_sq_le
    rw [mul_pow, Real.sq_sqrt hx, ← pow_mul, mul_comm m 2]
    exact h1
  · rw [Real.sqrt_le_left (mul_nonneg (Real.sqrt_nonneg _) (hi_pos m).le)]
    rw [mul_pow, Real.sq_sqrt hx, ← pow_mul, mul_comm m 2]
    exact h2

theorem Rel.abs_eq (h : Rel m x y) : Rel m |x| |y| := by
  obtain ⟨t, h1, h2, h3⟩ := h
  have ht : 0 < t := lt_of_lt_of_le (lo_pos m) h1
  exact ⟨t, h1, h2, by rw [h3, abs_mul, abs_of_pos ht]⟩

theorem Rel.err (h : Rel m x y) (hm : m ≤ 2 ^ 24) : |y - x| ≤ (m + 1) * u * |x| := by
  obtain ⟨t, h1, h2, h3⟩ := h
  rw [h3, show x * t - x = x * (t - 1) by ring, abs_mul, mul_comm]
  apply mul_le_mul_of_nonneg_right _ (abs_nonneg _)
  have := lo_ge m
  have := hi_le hm
  have := u_pos
  rw [abs_le]
  constructor <;> linarith

theorem Rel.half (h : Rel m x y) (hm : m ≤ 2 ^ 24) : |x| / 2 ≤ |y| := by
  have h1 := h.err hm
  have h2 := small_u hm
  have h3 : |x| ≤ |y| + |y - x| := by
    have := abs_sub_abs_le_abs_sub x y
    rw [abs_sub_comm] at this
    linarith
  nlinarith [abs_nonneg x]

theorem Rel.double (h : Rel m x y) (hm : m ≤ 2 ^ 24) : |y| ≤ 2 * |x| := by
  have h1 := h.err hm
  have h2 := small_u hm
  have h3 := abs_sub_abs_le_abs_sub y x
  nlinarith [abs_nonneg x]

theorem Rel.of_err (h : |y - x| ≤ u * |x|) : Rel 1 x y := by
  rcases eq_or_ne x 0 with h0 | h0
  · rw [h0, abs_zero, mul_zero, sub_zero, abs_nonpos_iff] at h
    rw [h0, h]
    exact Rel.zero 1
  · refine ⟨y / x, ?_, ?_, by field_simp⟩ <;> rw [pow_one]
    all_goals
      have e : |y / x - 1| ≤ u := by
        rw [show y / x - 1 = (y - x) / x by field_simp, abs_div, div_le_iff₀ (abs_pos.2 h0)]
        exact h
      rw [abs_le] at e
      linarith

/-- rounding a number which is 0 or in the normal range -/
theorem Rel.fl (h : x = 0 ∨ 2 ^ (-1022 : Int) ≤ |x|) : Rel 1 x ((Cpp.fl x : ℚ) : ℝ) := by
  rcases h with h | h
  · rw [h, fl_zero, Rat.cast_zero]; exact Rel.zero 1
  · exact Rel.of_err (fl_rel h)

theorem Rel.flq {x : ℚ} (h : x = 0 ∨ 2 ^ (-1022 : Int) ≤ |(x : ℝ)|) : Rel 1 (x : ℝ) ((Cpp.fl x : ℚ) : ℝ) := by
  rw [← fl_cast]
  exact Rel.fl (h.imp_left fun h => by rw [h, Rat.cast_zero])

end Geo.Acc
