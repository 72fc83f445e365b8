import Verif.Props.RandomObj
import Verif.Proof.JsonDouble
import Verif.Proof.StatsDouble

/-! # C61, C104: how far random doubles can lie beyond the upper end -/

namespace Rand.Props
open Cpp Rand
open Rand.Spec (IsDouble)

/-- **C61, what holds.**  `nextDouble(min, max)` exceeds `max` by at most `(max - min) / 2^52`. -/
theorem C61_upper_partial (E : Engine) (s : E.σ) (min max : ℚ) (hmin : IsDouble min) (hmax : IsDouble max) (h : min ≤ max)
    (h1 : |min| ≤ 2 ^ 1022) (h2 : |max| ≤ 2 ^ 1022) :
    ∃ q, nextDouble2 (Dbl.fin min) (Dbl.fin max) s = .ok (Dbl.fin q, (E.draw s).2) ∧ min ≤ q ∧
      q ≤ max + (max - min) / 2 ^ 52 := by
  refine ⟨_, nextDouble2_run min max h h1 h2 s, ndVal_ge hmin h _, ?_⟩
  have h0 : (0 : ℚ) ≤ max - min := by linarith
  have hu := unif_le_one (E.draw s).1.isLt
  have e1 : unif (out s) * fl (max - min) ≤ fl (max - min) := by
    have := fl_nonneg h0
    have := mul_le_mul_of_nonneg_right hu this
    rw [one_mul] at this
    exact this
  have e2 : fl (unif (out s) * fl (max - min)) ≤ fl (max - min) := (fl_mono e1).trans (le_of_eq (fl_idem _))
  have e3 := Stats.fl_sub_rel (fl_of_isDouble hmax) (fl_of_isDouble hmin)
  rw [abs_of_nonneg h0] at e3
  have e4 := (abs_le.1 e3).2
  have hq : ndVal (out s) min max ≤ fl (fl (max - min) + min) := fl_mono (by linarith)
  by_contra hc
  rw [not_le] at hc
  have hd := ndVal_isDouble h h1 h2 (E.draw s).1.isLt
  -- the value before the last rounding is at most `max + (max - min) / 2^53`; so is the distance of `max` from it
  set y := fl (unif (out s) * fl (max - min)) + min with hy
  have hy1 : y ≤ max + Stats.u * (max - min) := by linarith
  have hn : Json.Spec.Nearest y (fl y) := by
    refine Json.fl_nearest ?_
    obtain ⟨m, k, hm, -, hk, he⟩ := hd
    rw [show fl y = ndVal (out s) min max from rfl, he, abs_mul, abs_of_pos (show (0 : ℚ) < 2 ^ k by positivity)]
    have a1 : |(m : ℚ)| < 2 ^ 53 := by exact_mod_cast hm
    have a2 : (2 : ℚ) ^ k ≤ 2 ^ (971 : Int) := zpow_le_zpow_right₀ (by norm_num) hk
    calc |(m : ℚ)| * 2 ^ k < 2 ^ 53 * 2 ^ k := by gcongr
      _ ≤ 2 ^ 53 * 2 ^ (971 : Int) := by gcongr
      _ = 2 ^ 1024 := by
        rw [show (2 : ℚ) ^ (971 : Int) = 2 ^ 971 from zpow_natCast 2 971, ← pow_add]
  have h3 := hn.2 max hmax
  have h4 : fl y = ndVal (out s) min max := rfl
  rw [h4] at h3
  have hu' : Stats.u = 1 / 2 ^ 53 := rfl
  rw [hu'] at hy1
  have e5 : (max - min) / 2 ^ 52 = 2 * ((max - min) / 2 ^ 53) := by ring
  rw [e5] at hc
  have e6 : (1 : ℚ) / 2 ^ 53 * (max - min) = (max - min) / 2 ^ 53 := by ring
  rw [e6] at hy1
  have e7 : 0 ≤ (max - min) / 2 ^ 53 := div_nonneg h0 (by positivity)
  generalize (max - min) / 2 ^ 53 = d at *
  have h5 : ndVal (out s) min max - y ≤ |max - y| := (le_abs_self _).trans h3
  rcases abs_cases (max - y) with ⟨h6, _⟩ | ⟨h6, _⟩
  · linarith
  · linarith

example : IsDouble (-1) ∧ IsDouble (3 / 2 ^ 54) ∧ (-1 : ℚ) ≤ 3 / 2 ^ 54 ∧ |(-1 : ℚ)| ≤ 2 ^ 1022 ∧ |(3 / 2 ^ 54 : ℚ)| ≤ 2 ^ 1022 :=
  ⟨⟨-1, 0, by norm_num, by norm_num, by norm_num, by norm_num⟩, ⟨3, -54, by norm_num, by norm_num, by norm_num, by norm_num⟩,
    by norm_num, by decide +kernel, by decide +kernel⟩

/-- **C104, what holds for doubles.**  The same for an accepted `UniformDistribution`. -/
theorem C104_upper_partial (a b : ℚ) (ha : IsDouble a) (hb : IsDouble b) (h1 : |a| ≤ 2 ^ 1022) (h2 : |b| ≤ 2 ^ 1022) (d : Dbl × Dbl)
    (hi : uniformInit (Dbl.fin a) (Dbl.fin b) = .ok d) (E : Engine) (s : E.σ) :
    ∃ q, uniformNext d s = .ok (Dbl.fin q, (E.draw s).2) ∧ a ≤ q ∧ q ≤ b + (b - a) / 2 ^ 52 := by
  unfold uniformInit at hi
  split_ifs at hi with h
  cases hi
  rw [fin_lt] at h
  exact C61_upper_partial E s a b ha hb (by linarith) h1 h2

example : ∃ d, uniformInit (Dbl.fin (-1)) (Dbl.fin (3 / 2 ^ 54)) = .ok d := ⟨_, if_neg (by decide +kernel)⟩

end Rand.Props
