import Verif.Proof.RandomDiscrete
import Verif.Proof.MatrixDouble
import Mathlib.Algebra.Order.Ring.Pow

/-! # Rounding errors of sums and products of non-negative numbers -/

namespace Rand.Err
open Cpp Spec Rand

/-- the relative error of one rounding -/
noncomputable def u : ℝ := 1 / 2 ^ 53

theorem u_pos : 0 < u := by unfold u; positivity
theorem u_lt : u < 1 := by unfold u; norm_num

/-- `y` approximates `x` up to `m` roundings and the absolute error `c` -/
structure Appr (c : ℝ) (m : Nat) (x : ℝ) (y : ℚ) : Prop where
  nonneg : 0 ≤ y
  lo : (x - c) * (1 - u) ^ m ≤ y
  hi : (y : ℝ) ≤ (x + c) * (1 + u) ^ m

theorem lo_pos (m : Nat) : 0 < (1 - u) ^ m := pow_pos (by linarith [u_lt]) m
theorem lo_le (m : Nat) : (1 - u) ^ m ≤ 1 := pow_le_one₀ (by linarith [u_lt]) (by linarith [u_pos])
theorem hi_ge (m : Nat) : 1 ≤ (1 + u) ^ m := one_le_pow₀ (by linarith [u_pos])

theorem lo_ge (m : Nat) : 1 - m * u ≤ (1 - u) ^ m := by
  have := one_add_mul_le_pow (a := -u) (by linarith [u_lt]) m
  have e : (1 : ℝ) + -u = 1 - u := by ring
  rw [e] at this
  linarith

theorem hi_le (m : Nat) (h : (m : ℝ) * u ≤ 1 / 2) : (1 + u) ^ m ≤ 1 + 2 * (m * u) := by
  have h1 := lo_ge m
  have h2 : (1 + u) ^ m * (1 - u) ^ m ≤ 1 := by
    rw [← mul_pow]
    apply pow_le_one₀
    · nlinarith [u_lt, u_pos]
    · nlinarith [u_pos]
  have h3 : (1 + u) ^ m * (1 - m * u) ≤ 1 := le_trans (mul_le_mul_of_nonneg_left h1 (by have := hi_ge m; linarith)) h2
  have h4 : 0 ≤ (m : ℝ) * u := mul_nonneg (by positivity) u_pos.le
  have h5 : 1 ≤ (1 + 2 * (m * u)) * (1 - m * u) := by nlinarith
  by_contra hc
  push Not at hc
  have : (1 + 2 * (m * u)) * (1 - m * u) < (1 + u) ^ m * (1 - m * u) := mul_lt_mul_of_pos_right hc (by linarith)
  linarith

theorem Appr.mono {c c' : ℝ} {m m' : Nat} {x : ℝ} {y : ℚ} (h : Appr c m x y) (hx : 0 ≤ x) (hc0 : 0 ≤ c) (hc : c ≤ c') (hm : m ≤ m') :
    Appr c' m' x y := by
  refine ⟨h.nonneg, ?_, ?_⟩
  · rcases le_or_gt (x - c') 0 with h0 | h0
    · exact le_trans (mul_nonpos_of_nonpos_of_nonneg h0 (lo_pos _).le) (by exact_mod_cast h.nonneg)
    · refine le_trans ?_ h.lo
      have h1 : (1 - u) ^ m' ≤ (1 - u) ^ m := pow_le_pow_of_le_one (by linarith [u_lt]) (by linarith [u_pos]) hm
      exact mul_le_mul (by linarith) h1 (lo_pos _).le (by linarith)
  · refine h.hi.trans ?_
    have h1 : (1 + u) ^ m ≤ (1 + u) ^ m' := pow_le_pow_right₀ (by linarith [u_pos]) hm
    exact mul_le_mul (by linarith) h1 (by have := hi_ge m; linarith) (by linarith)

theorem Appr.self {x : ℚ} (h : 0 ≤ x) : Appr 0 0 (x : ℝ) x := ⟨h, by simp, by simp⟩

theorem Appr.mul0 {m m' : Nat} {x x' : ℝ} {y y' : ℚ} (hx : 0 ≤ x) (hx' : 0 ≤ x') (h : Appr 0 m x y) (h' : Appr 0 m' x' y') :
    Appr 0 (m + m') (x * x') (y * y') := by
  have a0 : (0 : ℝ) ≤ y := by exact_mod_cast h.nonneg
  have b0 : (0 : ℝ) ≤ y' := by exact_mod_cast h'.nonneg
  have h1 := h.lo
  have h2 := h.hi
  have h3 := h'.lo
  have h4 := h'.hi
  simp only [sub_zero, add_zero] at h1 h2 h3 h4
  refine ⟨mul_nonneg h.nonneg h'.nonneg, ?_, ?_⟩
  · push_cast
    rw [sub_zero, pow_add]
    calc x * x' * ((1 - u) ^ m * (1 - u) ^ m') = x * (1 - u) ^ m * (x' * (1 - u) ^ m') := by ring
      _ ≤ _ := mul_le_mul h1 h3 (mul_nonneg hx' (lo_pos _).le) a0
  · push_cast
    rw [add_zero, pow_add]
    calc (y : ℝ) * y' ≤ x * (1 + u) ^ m * (x' * (1 + u) ^ m') :=
          mul_le_mul h2 h4 b0 (mul_nonneg hx (by have := hi_ge m; linarith))
      _ = _ := by ring

theorem Appr.mul {c c' : ℝ} {m m' : Nat} {x x' : ℝ} {y y' : ℚ} (hx : 0 ≤ x) (hx' : 0 ≤ x') (hx1 : x ≤ 1) (hx1' : x' ≤ 1)
    (hc : 0 ≤ c) (hc' : 0 ≤ c') (h : Appr c m x y) (h' : Appr c' m' x' y') :
    Appr (c + c' + c * c') (m + m') (x * x') (y * y') := by
  have a0 : (0 : ℝ) ≤ y := by exact_mod_cast h.nonneg
  have b0 : (0 : ℝ) ≤ y' := by exact_mod_cast h'.nonneg
  have hn : 0 ≤ y * y' := mul_nonneg h.nonneg h'.nonneg
  refine ⟨hn, ?_, ?_⟩
  · have hneg : x * x' - (c + c' + c * c') ≤ 0 →
        (x * x' - (c + c' + c * c')) * (1 - u) ^ (m + m') ≤ ((y * y' : ℚ) : ℝ) := fun h0 =>
      le_trans (mul_nonpos_of_nonpos_of_nonneg h0 (lo_pos _).le) (by exact_mod_cast hn)
    rcases le_or_gt x c with h0 | h0
    · exact hneg (by nlinarith)
    rcases le_or_gt x' c' with h0' | h0'
    · exact hneg (by nlinarith)
    push_cast
    rw [pow_add]
    calc (x * x' - (c + c' + c * c')) * ((1 - u) ^ m * (1 - u) ^ m')
        ≤ ((x - c) * (x' - c')) * ((1 - u) ^ m * (1 - u) ^ m') := by
          apply mul_le_mul_of_nonneg_right _ (mul_pos (lo_pos _) (lo_pos _)).le
          nlinarith
      _ = (x - c) * (1 - u) ^ m * ((x' - c') * (1 - u) ^ m') := by ring
      _ ≤ _ := mul_le_mul h.lo h'.lo (mul_nonneg (by linarith) (lo_pos _).le) a0
  · push_cast
    rw [pow_add]
    calc (y : ℝ) * y' ≤ (x + c) * (1 + u) ^ m * ((x' + c') * (1 + u) ^ m') :=
          mul_le_mul h.hi h'.hi b0 (mul_nonneg (by linarith) (by have := hi_ge m; linarith))
      _ = ((x + c) * (x' + c')) * ((1 + u) ^ m * (1 + u) ^ m') := by ring
      _ ≤ _ := by
          apply mul_le_mul_of_nonneg_right _ (mul_nonneg (by have := hi_ge m; linarith) (by have := hi_ge m'; linarith))
          nlinarith

theorem Appr.scale {c : ℝ} {m : Nat} {x : ℝ} {y : ℚ} (h : Appr c m x y) (b : Nat) : Appr (b * c) m (b * x) (b * y) := by
  have hb : (0 : ℝ) ≤ b := by positivity
  refine ⟨mul_nonneg (by positivity) h.nonneg, ?_, ?_⟩
  · push_cast
    rw [← mul_sub, mul_assoc]
    exact mul_le_mul_of_nonneg_left h.lo hb
  · push_cast
    rw [← mul_add, mul_assoc]
    exact mul_le_mul_of_nonneg_left h.hi hb

theorem Appr.add {c c' : ℝ} {m : Nat} {x x' : ℝ} {y y' : ℚ} (h : Appr c m x y) (h' : Appr c' m x' y') :
    Appr (c + c') m (x + x') (y + y') := by
  refine ⟨add_nonneg h.nonneg h'.nonneg, ?_, ?_⟩
  · push_cast
    have h1 := h.lo
    have h2 := h'.lo
    calc _ = (x - c) * (1 - u) ^ m + (x' - c') * (1 - u) ^ m := by ring
      _ ≤ _ := by linarith
  · push_cast
    have h1 := h.hi
    have h2 := h'.hi
    calc _ ≤ (x + c) * (1 + u) ^ m + (x' + c') * (1 + u) ^ m := by linarith
      _ = _ := by ring

theorem u_cast : ((Stats.u : ℚ) : ℝ) = u := by unfold Stats.u u; push_cast; ring

/-- rounding of a normal number -/
theorem fl_normal {y : ℚ} (h : y = 0 ∨ (2 : ℚ) ^ (-1022 : Int) ≤ y) : 0 ≤ fl y ∧ (y : ℝ) * (1 - u) ≤ fl y ∧ (fl y : ℝ) ≤ y * (1 + u) := by
  rcases h with rfl | h
  · rw [fl_zero]; simp
  · have hy : 0 < y := lt_of_lt_of_le (by positivity) h
    have h1 := flPos_rel h
    have e : fl y = flPos y := by unfold fl; rw [if_neg (not_lt.2 hy.le)]
    rw [← e, show (2 : ℚ) ^ (-53 : Int) = Stats.u by unfold Stats.u; rw [zpow_neg, one_div, zpow_ofNat], abs_le] at h1
    have h2 : -(Stats.u * y) ≤ fl y - y := h1.1
    have a : (-(Stats.u * y) : ℝ) ≤ fl y - y := by exact_mod_cast h1.1
    have b : (fl y - y : ℝ) ≤ Stats.u * y := by exact_mod_cast h1.2
    rw [u_cast] at a b
    exact ⟨fl_nonneg hy.le, by linarith, by linarith⟩

theorem Appr.round0 {c : ℝ} {m : Nat} {x : ℝ} {y : ℚ} (h : Appr c m x y) (hy : y = 0 ∨ (2 : ℚ) ^ (-1022 : Int) ≤ y) :
    Appr c (m + 1) x (fl y) := by
  obtain ⟨h0, h1, h2⟩ := fl_normal hy
  refine ⟨h0, ?_, ?_⟩
  · rw [pow_succ, ← mul_assoc]
    exact le_trans (mul_le_mul_of_nonneg_right h.lo (by linarith [u_lt])) h1
  · rw [pow_succ, ← mul_assoc]
    exact h2.trans (mul_le_mul_of_nonneg_right h.hi (by linarith [u_pos]))

/-- the smallest positive double -/
noncomputable def eta : ℝ := 1 / 2 ^ 1074

theorem eta_pos : 0 < eta := by unfold eta; positivity

theorem Appr.round {c : ℝ} {m : Nat} {x : ℝ} {y : ℚ} (h : Appr c m x y) (hm : ((m + 1 : Nat) : ℝ) * u ≤ 1 / 2) :
    Appr (c + eta) (m + 1) x (fl y) := by
  have h0 := fl_nonneg h.nonneg
  have he := abs_le.1 (Matrix.fl_err y)
  rw [abs_of_nonneg h.nonneg] at he
  have eE : (((1 : ℚ) / 2 ^ 1075 : ℚ) : ℝ) = eta / 2 := by
    unfold eta
    rw [Rat.cast_div, Rat.cast_one, Rat.cast_pow, Rat.cast_ofNat, pow_succ]
    field_simp
  generalize (1 : ℚ) / 2 ^ 1075 = d at he eE
  have a : (-(Stats.u * y + d) : ℝ) ≤ fl y - y := by exact_mod_cast he.1
  have b : (fl y - y : ℝ) ≤ Stats.u * y + d := by exact_mod_cast he.2
  rw [u_cast, eE] at a b
  have hE := eta_pos
  refine ⟨h0, ?_, ?_⟩
  · rcases le_or_gt (x - (c + eta)) 0 with hn | hn
    · exact le_trans (mul_nonpos_of_nonpos_of_nonneg hn (lo_pos _).le) (by exact_mod_cast h0)
    · have h1 : (x - c) * (1 - u) ^ m * (1 - u) ≤ y * (1 - u) := mul_le_mul_of_nonneg_right h.lo (by linarith [u_lt])
      have h2 : 1 / 2 ≤ (1 - u) ^ (m + 1) := by have := lo_ge (m + 1); linarith
      have h3 : eta * (1 / 2) ≤ eta * (1 - u) ^ (m + 1) := mul_le_mul_of_nonneg_left h2 hE.le
      have h4 : (x - (c + eta)) * (1 - u) ^ (m + 1) = (x - c) * (1 - u) ^ m * (1 - u) - eta * (1 - u) ^ (m + 1) := by ring
      rw [h4]
      linarith
  · have h1 : (y : ℝ) * (1 + u) ≤ (x + c) * (1 + u) ^ m * (1 + u) := mul_le_mul_of_nonneg_right h.hi (by linarith [u_pos])
    have h2 : eta * 1 ≤ eta * (1 + u) ^ (m + 1) := mul_le_mul_of_nonneg_left (hi_ge _) hE.le
    have h4 : (x + (c + eta)) * (1 + u) ^ (m + 1) = (x + c) * (1 + u) ^ m * (1 + u) + eta * (1 + u) ^ (m + 1) := by ring
    rw [h4]
    linarith

theorem Appr.trans {c : ℝ} {m m' : Nat} {x : ℝ} {y z : ℚ} (h : Appr 0 m x y) (h' : Appr c m' y z) (hc : 0 ≤ c)
    (hm : (m : ℝ) * u ≤ 1 / 2) : Appr (2 * c) (m + m') x z := by
  have h1 := h.lo
  have h2 := h.hi
  simp only [sub_zero, add_zero] at h1 h2
  refine ⟨h'.nonneg, ?_, ?_⟩
  · rcases le_or_gt (x - 2 * c) 0 with hn | hn
    · exact le_trans (mul_nonpos_of_nonpos_of_nonneg hn (lo_pos _).le) (by exact_mod_cast h'.nonneg)
    · refine le_trans ?_ h'.lo
      rw [pow_add, ← mul_assoc]
      apply mul_le_mul_of_nonneg_right _ (lo_pos _).le
      have h2 : 1 / 2 ≤ (1 - u) ^ m := by have := lo_ge m; linarith
      have h3 : c * (1 / 2) ≤ c * (1 - u) ^ m := mul_le_mul_of_nonneg_left h2 hc
      have h4 : (x - 2 * c) * (1 - u) ^ m = x * (1 - u) ^ m - 2 * (c * (1 - u) ^ m) := by ring
      rw [h4]
      linarith
  · refine h'.hi.trans ?_
    rw [pow_add, ← mul_assoc]
    apply mul_le_mul_of_nonneg_right _ (by have := hi_ge m'; linarith)
    have h2' : c * 1 ≤ c * (1 + u) ^ m := mul_le_mul_of_nonneg_left (hi_ge _) hc
    have h4 : (x + 2 * c) * (1 + u) ^ m = x * (1 + u) ^ m + 2 * (c * (1 + u) ^ m) := by ring
    rw [h4]
    linarith

/-- what an approximation says about the distance -/
theorem Appr.dist {c : ℝ} {m : Nat} {x : ℝ} {y : ℚ} (h : Appr c m x y) (hx : 0 ≤ x) (hx1 : x ≤ 1) (hc : 0 ≤ c) (hm : (m : ℝ) * u ≤ 1 / 2) :
    |(y : ℝ) - x| ≤ 2 * (m * u) + 2 * c := by
  have h1 := hi_le m hm
  have h2 := lo_ge m
  have hmu : 0 ≤ (m : ℝ) * u := mul_nonneg (by positivity) u_pos.le
  rw [abs_le]
  constructor
  · rcases le_or_gt (x - c) 0 with hn | hn
    · have : (0 : ℝ) ≤ y := by exact_mod_cast h.nonneg
      linarith
    · have h3 := mul_le_mul_of_nonneg_left h2 hn.le
      have h4 := h.lo
      nlinarith
  · have h3 := mul_le_mul_of_nonneg_left h1 (show 0 ≤ x + c by linarith)
    have h4 := h.hi
    nlinarith

end Rand.Err
