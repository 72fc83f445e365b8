import Verif.Proof.Geometry
import Verif.Proof.Double

/-! # Lemmas about the geometry functions in binary64 -/

set_option exponentiation.threshold 2000

namespace Geo
open Cpp

theorem flPos_err {x : ℚ} (hx : 0 ≤ x) : |flPos x - x| ≤ 2 ^ (-53 : Int) * x + 2 ^ (-1075 : Int) := by
  rcases eq_or_lt_of_le hx with h0 | h0
  · rw [← h0, flPos_zero]
    simp
  have hc : |flPos x - x| ≤ 1 / 2 * 2 ^ lastBit x := by
    have hp : (0 : ℚ) < 2 ^ lastBit x := two_zpow_pos _
    have := roundTiesEven_close (x / 2 ^ lastBit x)
    have e : flPos x - x = -(x / 2 ^ lastBit x - roundTiesEven (x / 2 ^ lastBit x)) * 2 ^ lastBit x := by
      unfold flPos
      field_simp
      ring
    rw [e, abs_mul, abs_neg, abs_of_pos hp]
    exact mul_le_mul_of_nonneg_right this hp.le
  rcases eq_or_lt_of_le (lastBit_ge x) with he | he
  · rw [← he] at hc
    have : (1 : ℚ) / 2 * 2 ^ (-1074 : Int) = 2 ^ (-1075 : Int) := by norm_num
    rw [this] at hc
    have : 0 ≤ (2 : ℚ) ^ (-53 : Int) * x := by positivity
    linarith
  · have hb := lastBit_le h0 he
    rw [zpow_add₀ two_ne_zero] at hb
    have : 0 ≤ (2 : ℚ) ^ (-1075 : Int) := by positivity
    have e1 : (2 : ℚ) ^ (52 : Int) = 2 ^ 52 := by norm_num
    have e2 : (2 : ℚ) ^ (-53 : Int) = 1 / 2 ^ 53 := by norm_num
    rw [e1] at hb
    rw [e2]
    linarith

theorem fl_err (x : ℚ) : |fl x - x| ≤ 2 ^ (-53 : Int) * |x| + 2 ^ (-1075 : Int) := by
  unfold fl
  split
  · rename_i h
    have := flPos_err (x := -x) (by linarith)
    rw [abs_of_neg h]
    rw [show -flPos (-x) - x = -(flPos (-x) - -x) by ring, abs_neg]
    exact this
  · rename_i h
    rw [abs_of_nonneg (not_lt.1 h)]
    exact flPos_err (not_lt.1 h)

theorem fl_int {a : Int} (h : |a| ≤ 2 ^ 53) : fl (a : ℚ) = a := by
  have := fl_exact (k := 0) h (by norm_num)
  simpa using this

theorem round_int {a : Int} (h : |a| ≤ 2 ^ 53) : Dbl.round (a : ℚ) = .fin a := by
  unfold Dbl.round
  rw [fl_int h, if_neg]
  have : |(a : ℚ)| ≤ 2 ^ 53 := by exact_mod_cast h
  have h2 : (2 : ℚ) ^ 53 < 2 ^ 1024 := by norm_num
  linarith

theorem round_fin {x : ℚ} (h : |x| ≤ 2 ^ 1000) : Dbl.round x = .fin (fl x) := by
  unfold Dbl.round
  rw [if_neg]
  have h1 := fl_err x
  have h2 : |fl x| ≤ |fl x - x| + |x| := by
    have := abs_add_le (fl x - x) x
    rwa [sub_add_cancel] at this
  have e1 : (2 : ℚ) ^ (-53 : Int) ≤ 1 := by norm_num
  have e2 : (2 : ℚ) ^ (-1075 : Int) ≤ 1 := by norm_num
  have h3 : 2 ^ (-53 : Int) * |x| ≤ 1 * |x| := mul_le_mul_of_nonneg_right e1 (abs_nonneg _)
  have e3 : (2 : ℚ) * 2 ^ 1000 + 1 < 2 ^ 1024 := by norm_num
  linarith

theorem dmul_int {a b : Int} (h : |a * b| ≤ 2 ^ 53) : Dbl.fin (a : ℚ) * Dbl.fin (b : ℚ) = Dbl.fin ((a * b : Int) : ℚ) := by
  show Dbl.round ((a : ℚ) * b) = _
  rw [← round_int h]
  push_cast
  rfl

theorem dsub_int {a b : Int} (h : |a - b| ≤ 2 ^ 53) : Dbl.fin (a : ℚ) - Dbl.fin (b : ℚ) = Dbl.fin ((a - b : Int) : ℚ) := by
  show Dbl.round ((a : ℚ) + -b) = _
  rw [← round_int h]
  push_cast
  rw [sub_eq_add_neg]

theorem abs_mul_le {a b : Int} {m n : Int} (ha : |a| ≤ m) (hb : |b| ≤ n) : |a * b| ≤ m * n := by
  rw [abs_mul]
  exact mul_le_mul ha hb (abs_nonneg _) ((abs_nonneg _).trans ha)

theorem abs_sub_le' {a b : Int} {m n : Int} (ha : |a| ≤ m) (hb : |b| ≤ n) : |a - b| ≤ m + n := by
  have := abs_sub a b
  linarith

/-- The last three operations of `getIntersection` for one coordinate: `t = num / c`, `a + v * t`. -/
theorem combine (a v num c : Int) (ha : |a| ≤ 2 ^ 20) (hv : |v| ≤ 2 ^ 20) (hn : |num| ≤ 2 ^ 42) (hc : c ≠ 0) :
    ∃ z : ℚ, Dbl.fin (a : ℚ) + Dbl.fin (v : ℚ) * (Dbl.fin (num : ℚ) / Dbl.fin (c : ℚ)) = Dbl.fin z ∧
      |z - (a + v * (num / c))| ≤ (|(a : ℚ)| + |(v : ℚ) * (num / c)|) / 2 ^ 51 + 1 / 2 ^ 1000 := by
  set T : ℚ := (num : ℚ) / c with hT
  have hTb : |T| ≤ 2 ^ 42 := by
    rw [hT, abs_div, div_le_iff₀ (by positivity)]
    have h1 : |(num : ℚ)| ≤ 2 ^ 42 := by exact_mod_cast hn
    have h2 : (1 : ℚ) ≤ |(c : ℚ)| := by exact_mod_cast Int.one_le_abs hc
    nlinarith
  have hvb : |(v : ℚ)| ≤ 2 ^ 20 := by exact_mod_cast hv
  have hab : |(a : ℚ)| ≤ 2 ^ 20 := by exact_mod_cast ha
  set t : ℚ := fl T with ht
  have he1 := fl_err T
  set s : ℚ := fl ((v : ℚ) * t) with hs
  have he2 := fl_err ((v : ℚ) * t)
  have he3 := fl_err ((a : ℚ) + s)
  rw [← ht] at he1
  rw [← hs] at he2
  have eps : (2 : ℚ) ^ (-53 : Int) = 1 / 2 ^ 53 := by norm_num
  have heta : (2 : ℚ) ^ (-1075 : Int) * 2 ^ 25 ≤ 1 / 2 ^ 1000 := by norm_num
  have heta0 : (0 : ℚ) < (2 : ℚ) ^ (-1075 : Int) := by positivity
  have heta1 : (2 : ℚ) ^ (-1075 : Int) ≤ 1 := by norm_num
  generalize (2 : ℚ) ^ (-1075 : Int) = η at *
  rw [eps] at he1 he2 he3
  have hv0 := abs_nonneg (v : ℚ)
  have htb : |t| ≤ |T| + |t - T| := by
    have := abs_add_le T (t - T)
    rwa [add_sub_cancel] at this
  -- the product
  have hvt : |(v : ℚ) * t - v * T| ≤ 1 / 2 ^ 53 * |(v : ℚ) * T| + 2 ^ 20 * η := by
    rw [← mul_sub, abs_mul, abs_mul]
    calc |(v : ℚ)| * |t - T| ≤ |(v : ℚ)| * (1 / 2 ^ 53 * |T| + η) := mul_le_mul_of_nonneg_left he1 hv0
      _ = 1 / 2 ^ 53 * (|(v : ℚ)| * |T|) + |(v : ℚ)| * η := by ring
      _ ≤ _ := by
        have := mul_le_mul_of_nonneg_right hvb heta0.le
        linarith
  have hvt' : |(v : ℚ) * t| ≤ |(v : ℚ) * T| + |(v : ℚ) * t - v * T| := by
    have := abs_add_le ((v : ℚ) * T) ((v : ℚ) * t - v * T)
    rwa [add_sub_cancel] at this
  have hsv : |s - v * T| ≤ |s - (v : ℚ) * t| + |(v : ℚ) * t - v * T| := by
    have := abs_add_le (s - (v : ℚ) * t) ((v : ℚ) * t - v * T)
    rwa [sub_add_sub_cancel] at this
  have has : |(a : ℚ) + s| ≤ |(a : ℚ)| + |(v : ℚ) * T| + |s - v * T| := by
    have h1 := abs_add_le ((a : ℚ) + v * T) (s - v * T)
    have h2 := abs_add_le (a : ℚ) (v * T)
    rw [show (a : ℚ) + v * T + (s - v * T) = a + s by ring] at h1
    linarith
  have hfin : |fl ((a : ℚ) + s) - (a + v * T)| ≤ |fl ((a : ℚ) + s) - (a + s)| + |s - v * T| := by
    have := abs_add_le (fl ((a : ℚ) + s) - (a + s)) (s - v * T)
    rwa [show fl ((a : ℚ) + s) - (a + s) + (s - v * T) = fl ((a : ℚ) + s) - (a + v * T) by ring] at this
  have hvTb : |(v : ℚ) * T| ≤ 2 ^ 62 := by
    rw [abs_mul]
    calc |(v : ℚ)| * |T| ≤ 2 ^ 20 * 2 ^ 42 := mul_le_mul hvb hTb (abs_nonneg _) (by norm_num)
      _ = 2 ^ 62 := by norm_num
  have ha0 := abs_nonneg (a : ℚ)
  have hvT0 := abs_nonneg ((v : ℚ) * T)
  have big : (2 : ℚ) ^ 70 ≤ 2 ^ 1000 := by norm_num
  refine ⟨fl ((a : ℚ) + s), ?_, ?_⟩
  · have h1 : Dbl.fin (num : ℚ) / Dbl.fin (c : ℚ) = Dbl.fin t := by
      show (if (c : ℚ) = 0 then _ else Dbl.round ((num : ℚ) / c)) = _
      rw [if_neg (by exact_mod_cast hc), ← hT, round_fin]
      refine hTb.trans (le_trans ?_ big)
      norm_num
    have h2 : Dbl.fin (v : ℚ) * Dbl.fin t = Dbl.fin s := by
      show Dbl.round ((v : ℚ) * t) = _
      rw [round_fin]
      refine le_trans ?_ big
      linarith
    rw [h1, h2]
    show Dbl.round ((a : ℚ) + s) = _
    rw [round_fin]
    refine le_trans ?_ big
    linarith
  · rw [div_eq_mul_inv, show ((2 : ℚ) ^ 51)⁻¹ = 4 * (1 / 2 ^ 53) by norm_num]
    linarith

end Geo
