import Verif.Spec.RandomNormal
import Verif.Proof.RandomContDouble
import Verif.Proof.GeometryAcc

/-! # Normal samples in binary64: helper lemmas -/

set_option exponentiation.threshold 2000

namespace Rand.Nrm
open Cpp Spec Rand Geo.Acc

variable {E : Engine}

/-- a double is at most a half, or a multiple of `2^-53` -/
theorem grid {t : ℚ} {m k : Int} (hm : |m| ≤ 2 ^ 53) (ht : t = m * 2 ^ k) : |t| ≤ 1 / 2 ∨ ∃ n : Int, t = n * 2 ^ (-53 : Int) := by
  rcases lt_or_ge k (-53) with h | h
  · left
    rw [ht, abs_mul, abs_of_pos (two_zpow_pos (K := ℚ) k)]
    have h1 : |(m : ℚ)| ≤ 2 ^ 53 := by exact_mod_cast hm
    have h2 : (2 : ℚ) ^ k ≤ 2 ^ (-54 : Int) := zpow_le_zpow_right₀ (by norm_num) (by omega)
    calc |(m : ℚ)| * 2 ^ k ≤ 2 ^ 53 * 2 ^ (-54 : Int) := mul_le_mul h1 h2 (two_zpow_pos _).le (by positivity)
      _ = 1 / 2 := by norm_num
  · right
    refine ⟨m * 2 ^ (k + 53).toNat, ?_⟩
    have e : ((2 : ℚ) ^ (k + 53).toNat) = 2 ^ (k + 53) := by
      rw [← zpow_natCast, Int.toNat_of_nonneg (by omega)]
    push_cast
    rw [ht, e, mul_assoc, ← zpow_add₀ (by norm_num)]
    congr 2
    omega

theorem grid_gap {t : ℚ} (h : |t| ≤ 1 / 2 ∨ ∃ n : Int, t = n * 2 ^ (-53 : Int)) (h1 : t ≠ 1) : 2 ^ (-53 : Int) ≤ |t - 1| := by
  rcases h with h | ⟨n, rfl⟩
  · have h2 : |t - 1| ≥ 1 / 2 := by
      have := abs_le.1 h
      rw [abs_of_neg (by linarith)]
      linarith
    exact le_trans (by norm_num) h2
  · have e : (n : ℚ) * 2 ^ (-53 : Int) - 1 = (n - 2 ^ 53 : Int) * 2 ^ (-53 : Int) := by
      push_cast
      norm_num
      ring
    rw [e, abs_mul, abs_of_pos (two_zpow_pos (K := ℚ) _)]
    have hn : n - 2 ^ 53 ≠ 0 := by
      intro h0
      apply h1
      have : (n : ℚ) = 2 ^ 53 := by exact_mod_cast (by omega : n = 2 ^ 53)
      rw [this]; norm_num
    have : (1 : ℚ) ≤ |((n - 2 ^ 53 : Int) : ℚ)| := by exact_mod_cast Int.one_le_abs hn
    nlinarith [two_zpow_pos (K := ℚ) (-53)]

theorem double_gap {x : ℚ} (h : IsDouble x) (h1 : x < 1) : x ≤ 1 - 2 ^ (-53 : Int) := by
  obtain ⟨m, k, hm, -, -, e⟩ := h
  have := grid_gap (grid hm.le e) h1.ne
  rw [abs_of_neg (by linarith)] at this
  linarith

theorem zpow_cast (k : Int) : (((2 : ℚ) ^ k : ℚ) : ℝ) = 2 ^ k := by push_cast; rfl

theorem log_big {x : ℚ} (h : IsDouble x) (h0 : 0 < x) (h1 : x ≤ 1) : Big (-53) (Real.log (x : ℝ)) := by
  rcases h1.eq_or_lt with h2 | h2
  · left; rw [h2]; simp
  · right
    have h3 := double_gap h h2
    have hxr : (0 : ℝ) < x := by exact_mod_cast h0
    have h4 := Real.log_le_sub_one_of_pos hxr
    have h5 : (x : ℝ) ≤ 1 - 2 ^ (-53 : Int) := by
      have : (x : ℝ) ≤ ((1 - 2 ^ (-53 : Int) : ℚ) : ℝ) := by exact_mod_cast h3
      rw [Rat.cast_sub, zpow_cast] at this
      simpa using this
    rw [abs_of_nonpos (by have : (0 : ℝ) < 2 ^ (-53 : Int) := by positivity
                          linarith)]
    linarith

theorem log_abs {x : ℚ} {n : Nat} (h0 : 2 ^ (-(n : Int)) ≤ x) (h1 : x ≤ 1) : |Real.log (x : ℝ)| ≤ n * 0.6932 := by
  have hx : 0 < x := lt_of_lt_of_le (by positivity) h0
  have hxr : (0 : ℝ) < x := by exact_mod_cast hx
  have hu : Real.log (x : ℝ) ≤ 0 := Real.log_nonpos hxr.le (by exact_mod_cast h1)
  rw [abs_of_nonpos hu]
  have h3 : (2 : ℝ) ^ (-(n : Int)) ≤ (x : ℝ) := by
    rw [← zpow_cast]; exact_mod_cast h0
  have h4 := Real.log_le_log (by positivity) h3
  rw [Real.log_zpow] at h4
  push_cast at h4
  have h5 := Real.log_two_lt_d9
  have h6 : (n : ℝ) * Real.log 2 ≤ n * 0.6932 := mul_le_mul_of_nonneg_left (by linarith) (by positivity)
  linarith

theorem e52 : (2 : ℝ) ^ (-52 : Int) = 2 * u := by
  rw [← u_eq, show (-52 : Int) = 1 + (-53) by norm_num, zpow_add₀ (by norm_num)]; norm_num

theorem logAcc_dbl : LogAcc Libm.dbl.log := by
  intro x hd h0 h1
  have hx : 0 < x := lt_of_lt_of_le (by positivity) h0
  have hl := log_abs (n := 110) h0 h1
  have hb := log_big hd hx h1
  refine ⟨fl (Real.log (x : ℝ)), ?_, ?_⟩
  · show (if x = 0 then _ else if x < 0 then _ else _) = _
    rw [if_neg hx.ne', if_neg (by linarith)]
    exact round_real (hl.trans (by norm_num))
  · have h2 : |((fl (Real.log (x : ℝ)) : ℚ) : ℝ) - Real.log x| ≤ u * |Real.log (x : ℝ)| := by
      rcases hb with h | h
      · rw [h, fl_zero]; simp
      · exact fl_rel ((zpow_le_zpow_right₀ (by norm_num) (by norm_num)).trans h)
    rw [e52]
    have : 0 ≤ u * |Real.log (x : ℝ)| := mul_nonneg u_pos.le (abs_nonneg _)
    linarith

/-- a relative error of two units -/
theorem Rel.of_err2 {x y : ℝ} (h : |y - x| ≤ 2 ^ (-52 : Int) * |x|) : Rel 3 x y := by
  rw [e52] at h
  have hu := u_pos
  have hu1 := u_lt
  by_cases hx : x = 0
  · subst hx
    simp at h
    rw [h]
    exact Rel.zero 3
  · refine ⟨y / x, ?_, ?_, by field_simp⟩
    · have h1 : |y / x - 1| ≤ 2 * u := by
        rw [show y / x - 1 = (y - x) / x by field_simp, abs_div, div_le_iff₀ (abs_pos.2 hx)]
        exact h
      have := (abs_le.1 h1).1
      have hu2 : u ≤ 1 / 3 := by unfold u; norm_num
      nlinarith [sq_nonneg u, mul_pos hu hu]
    · have h1 : |y / x - 1| ≤ 2 * u := by
        rw [show y / x - 1 = (y - x) / x by field_simp, abs_div, div_le_iff₀ (abs_pos.2 hx)]
        exact h
      have := (abs_le.1 h1).2
      nlinarith [sq_nonneg u, mul_pos hu hu, mul_pos (mul_pos hu hu) hu]

/-! ## the point of the square -/

/-- a coordinate -/
def pm (g : Nat) : ℚ := ndVal g (-1) 1

theorem pm_eq (g : Nat) : pm g = fl (2 * unif g - 1) := by
  unfold pm ndVal
  have e : fl ((1 : ℚ) - -1) = 2 := by decide +kernel
  have e2 : fl (unif g * 2) = unif g * 2 := by
    obtain ⟨m, k, h1, h2, h3⟩ := fl_repr (unif g)
    rw [unif_exact] at h3
    have := fl_exact (m := m) (k := k + 1) h1 (by omega)
    rw [zpow_add₀ (by norm_num)] at this
    rw [h3, show (m : ℚ) * 2 ^ k * 2 = m * (2 ^ k * 2 ^ (1 : Int)) by rw [zpow_one]; ring]
    exact this
  rw [e, e2]
  congr 1
  ring

theorem pm_abs {g : Nat} (hg : g < 2 ^ 64) : |pm g| ≤ 1 := by
  rw [pm_eq, abs_fl]
  have f1 : fl (1 : ℚ) = 1 := by decide +kernel
  rw [← f1]
  apply fl_mono
  rw [abs_le]
  have := unif_nonneg g
  have := unif_le_one hg
  constructor <;> linarith

theorem pm_big (g : Nat) : pm g = 0 ∨ 2 ^ (-53 : Int) ≤ |pm g| := by
  rw [pm_eq]
  by_cases h : 2 * unif g = 1
  · left; rw [h, sub_self, fl_zero]
  · right
    obtain ⟨m, k, h1, h2, h3⟩ := fl_repr (unif g)
    rw [unif_exact] at h3
    have e : 2 * unif g = m * 2 ^ (k + 1) := by
      rw [h3, zpow_add₀ (by norm_num), zpow_one]; ring
    have h4 := grid_gap (grid h1 e) h
    rw [abs_fl]
    have h5 : fl ((2 : ℚ) ^ (-53 : Int)) = 2 ^ (-53 : Int) := by decide +kernel
    rw [← h5]
    exact fl_mono h4

/-- the coordinate is nearly the exact one -/
theorem pm_near {g : Nat} (hg : g < 2 ^ 64) : |(pm g : ℝ) - (2 * ((g : ℝ) / (2 ^ 64 - 1)) - 1)| ≤ 2 ^ (-51 : Int) := by
  have h1 := fl_nat_rel g
  have h0 := unif_nonneg g
  have h01 := unif_le_one hg
  have hgq : (g : ℚ) ≤ 2 ^ 64 - 1 := by
    have : g + 1 ≤ 2 ^ 64 := hg
    have : ((g + 1 : Nat) : ℚ) ≤ 2 ^ 64 := by exact_mod_cast this
    push_cast at this
    linarith
  have hg0 : (0 : ℚ) ≤ g := by positivity
  have h2 : |unif g - g / (2 ^ 64 - 1)| ≤ 2 ^ (-53 : Int) + 2 ^ (-64 : Int) := by
    unfold unif
    have e : fl (g : ℚ) / 2 ^ 64 - g / (2 ^ 64 - 1) = (fl (g : ℚ) - g) / 2 ^ 64 + (g / 2 ^ 64 - g / (2 ^ 64 - 1)) := by ring
    rw [e]
    refine (abs_add_le _ _).trans (add_le_add ?_ ?_)
    · rw [abs_div, abs_of_pos (show (0 : ℚ) < 2 ^ 64 by positivity), div_le_iff₀ (by positivity)]
      refine h1.trans ?_
      rw [div_le_iff₀ (by positivity)]
      norm_num
      linarith
    · rw [abs_of_nonpos]
      · have e3 : -((g : ℚ) / 2 ^ 64 - g / (2 ^ 64 - 1)) = g / (2 ^ 64 - 1) * (1 / 2 ^ 64) := by
          norm_num; ring
        rw [e3]
        have : (g : ℚ) / (2 ^ 64 - 1) ≤ 1 := by rw [div_le_one (by norm_num)]; exact hgq
        have e4 : (2 : ℚ) ^ (-64 : Int) = 1 / 2 ^ 64 := by norm_num
        rw [e4]
        nlinarith [show (0 : ℚ) < 1 / 2 ^ 64 by positivity]
      · rw [sub_nonpos]
        exact div_le_div_of_nonneg_left hg0 (by norm_num) (by norm_num)
  have h3 : |((fl (2 * unif g - 1) : ℚ) : ℝ) - ((2 * unif g - 1 : ℚ) : ℝ)| ≤ u * |((2 * unif g - 1 : ℚ) : ℝ)| + 2 ^ (-1075 : Int) :=
    flq_err _
  have h4 : |((2 * unif g - 1 : ℚ) : ℝ)| ≤ 1 := by
    rw [← Rat.cast_abs]
    have : |2 * unif g - 1| ≤ 1 := by rw [abs_le]; constructor <;> linarith
    exact_mod_cast this
  have h5 : |((unif g : ℚ) : ℝ) - (g : ℝ) / (2 ^ 64 - 1)| ≤ 2 ^ (-53 : Int) + 2 ^ (-64 : Int) := by
    have : ((|unif g - g / (2 ^ 64 - 1)| : ℚ) : ℝ) ≤ ((2 ^ (-53 : Int) + 2 ^ (-64 : Int) : ℚ) : ℝ) := by exact_mod_cast h2
    push_cast at this
    exact this
  have h6 : (2 : ℝ) ^ (-1075 : Int) ≤ 2 ^ (-64 : Int) := zpow_le_zpow_right₀ (by norm_num) (by norm_num)
  rw [pm_eq]
  have hu : u = 2 ^ (-53 : Int) := u_eq.symm
  have h7 : u * |((2 * unif g - 1 : ℚ) : ℝ)| ≤ 2 ^ (-53 : Int) := by
    rw [hu]
    nlinarith [show (0 : ℝ) < 2 ^ (-53 : Int) by positivity]
  have n53 : (2 : ℝ) ^ (-53 : Int) = 1 / 2 ^ 53 := by norm_num
  have n64 : (2 : ℝ) ^ (-64 : Int) = 1 / 2 ^ 64 := by norm_num
  have n51 : (2 : ℝ) ^ (-51 : Int) = 1 / 2 ^ 51 := by norm_num
  generalize (2 : ℝ) ^ (-1075 : Int) = tiny at *
  push_cast at h3 h7
  generalize ((fl (2 * unif g - 1) : ℚ) : ℝ) = F at *
  have h8 := abs_le.1 (h3.trans (add_le_add h7 h6))
  have h9 := abs_le.1 h5
  rw [n53, n64] at h8 h9
  rw [n51, abs_le]
  constructor <;> norm_num at * <;> linarith [h8.1, h8.2, h9.1, h9.2]

/-! ## the square of the distance -/

/-- `u * u + v * v` in binary64 -/
def sq2 (x y : ℚ) : ℚ := fl (fl (x * x) + fl (y * y))

theorem fl_sq_big {x : ℚ} (hb : x = 0 ∨ 2 ^ (-53 : Int) ≤ |x|) : Big (-106) ((x * x : ℚ) : ℝ) := by
  rcases hb with h | h
  · left; rw [h]; simp
  · right
    have h1 : ((2 : ℝ) ^ (-53 : Int)) ≤ |(x : ℝ)| := by rw [← zpow_cast, ← Rat.cast_abs]; exact_mod_cast h
    push_cast
    rw [abs_mul, show (-106 : Int) = -53 + -53 by norm_num, zpow_add₀ (by norm_num)]
    exact mul_le_mul h1 h1 (by positivity) (abs_nonneg _)

theorem sq2_rel {x y : ℚ} (hx : x = 0 ∨ 2 ^ (-53 : Int) ≤ |x|) (hy : y = 0 ∨ 2 ^ (-53 : Int) ≤ |y|) :
    Rel 2 ((x : ℝ) ^ 2 + (y : ℝ) ^ 2) (sq2 x y : ℝ) ∧ Big (-106) (sq2 x y : ℝ) := by
  have b1 := fl_sq_big hx
  have b2 := fl_sq_big hy
  have r1 : Rel 1 ((x : ℝ) ^ 2) ((fl (x * x) : ℚ) : ℝ) := by
    have := b1.relq (by norm_num)
    push_cast at this
    rwa [sq]
  have r2 : Rel 1 ((y : ℝ) ^ 2) ((fl (y * y) : ℚ) : ℝ) := by
    have := b2.relq (by norm_num)
    push_cast at this
    rwa [sq]
  have c1 := b1.flq (by norm_num)
  have c2 := b2.flq (by norm_num)
  have n1 : (0 : ℝ) ≤ ((fl (x * x) : ℚ) : ℝ) := by exact_mod_cast fl_nonneg (mul_self_nonneg x)
  have n2 : (0 : ℝ) ≤ ((fl (y * y) : ℚ) : ℝ) := by exact_mod_cast fl_nonneg (mul_self_nonneg y)
  have b3 : Big (-106) ((fl (x * x) + fl (y * y) : ℚ) : ℝ) := by
    push_cast
    exact Big.add n1 n2 c1 c2
  have r3 := b3.relq (by norm_num)
  push_cast at r3
  exact ⟨(Rel.add (sq_nonneg _) (sq_nonneg _) r1 r2).trans r3, b3.flq (by norm_num)⟩

theorem sq2_le {x y : ℚ} (hx : |x| ≤ 1) (hy : |y| ≤ 1) : 0 ≤ sq2 x y ∧ sq2 x y ≤ 2 ∧ |x * x| ≤ 1 ∧ |y * y| ≤ 1 ∧
    |fl (x * x) + fl (y * y)| ≤ 2 := by
  have f1 : fl (1 : ℚ) = 1 := by decide +kernel
  have f2 : fl (2 : ℚ) = 2 := by decide +kernel
  have a1 : x * x ≤ 1 := by rw [← abs_mul_abs_self]; nlinarith [abs_nonneg x]
  have a2 : y * y ≤ 1 := by rw [← abs_mul_abs_self]; nlinarith [abs_nonneg y]
  have g1 := fl_mono a1
  have g2 := fl_mono a2
  rw [f1] at g1 g2
  have n1 := fl_nonneg (mul_self_nonneg x)
  have n2 := fl_nonneg (mul_self_nonneg y)
  refine ⟨fl_nonneg (by linarith), ?_, by rwa [abs_of_nonneg (mul_self_nonneg x)], by rwa [abs_of_nonneg (mul_self_nonneg y)], ?_⟩
  · have := fl_mono (show fl (x * x) + fl (y * y) ≤ 2 by linarith)
    rwa [f2] at this
  · rw [abs_of_nonneg (by linarith)]; linarith

theorem neg_one_dbl : -((1 : Int) : Dbl) = Dbl.fin (-1) := by rw [one_dbl]; rfl

theorem normalReject_dbl (fuel : Nat) (s : E.σ) (x y : ℚ) (hx : x = pm (outAt E s 0)) (hy : y = pm (outAt E s 1)) :
    normalReject (D := Dbl) (fuel + 1) s =
      if sq2 x y = 0 ∨ 1 < sq2 x y then normalReject fuel (stateAt E s 2)
      else .ok ((Dbl.fin x, Dbl.fin y, Dbl.fin (sq2 x y)), stateAt E s 2) := by
  have nd : ∀ s : E.σ, nextDouble2 (-((1 : Int) : Dbl)) ((1 : Int) : Dbl) s =
      .ok (Dbl.fin (pm (outAt E s 0)), (E.draw s).2) := by
    intro s
    rw [neg_one_dbl, one_dbl, nextDouble2_run (-1) 1 (by norm_num) (by norm_num) (by norm_num)]
    rfl
  have hx1 : |x| ≤ 1 := by rw [hx]; exact pm_abs (E.draw _).1.isLt
  have hy1 : |y| ≤ 1 := by rw [hy]; exact pm_abs (E.draw _).1.isLt
  obtain ⟨h0, h2, hxx, hyy, hs⟩ := sq2_le hx1 hy1
  conv_lhs => unfold normalReject
  rw [bind_run, nd, ← hx]
  simp only [Out.bind]
  rw [bind_run, nd, ← outAt_succ s 0, ← hy]
  simp only [Out.bind]
  have big : ∀ z : ℚ, |z| ≤ 2 → |z| ≤ maxDouble := fun z hz => big_le (hz.trans (by norm_num))
  have m1 : Dbl.fin x * Dbl.fin x = Dbl.fin (fl (x * x)) := round_fin (big _ (by linarith))
  have m2 : Dbl.fin y * Dbl.fin y = Dbl.fin (fl (y * y)) := round_fin (big _ (by linarith))
  have m3 : Dbl.fin (fl (x * x)) + Dbl.fin (fl (y * y)) = Dbl.fin (sq2 x y) := round_fin (big _ hs)
  rw [m1, m2, m3, zero_dbl, one_dbl]
  simp only [fin_le, fin_lt]
  have e : ((sq2 x y ≤ 0 ∧ 0 ≤ sq2 x y) ∨ 1 < sq2 x y) ↔ (sq2 x y = 0 ∨ 1 < sq2 x y) := by
    rw [← le_antisymm_iff]
  by_cases h : sq2 x y = 0 ∨ 1 < sq2 x y
  · rw [if_pos h, if_pos (e.2 h)]; rfl
  · rw [if_neg h, if_neg (mt e.1 h)]; rfl

/-- the rounds of the loop -/
theorem normalReject_ok (fuel : Nat) (s : E.σ) (r : (Dbl × Dbl × Dbl) × E.σ) (h : normalReject (D := Dbl) fuel s = .ok r) :
    ∃ j, j < fuel ∧ (∀ i < j, sq2 (pm (outAt E s (2 * i))) (pm (outAt E s (2 * i + 1))) = 0 ∨
        1 < sq2 (pm (outAt E s (2 * i))) (pm (outAt E s (2 * i + 1)))) ∧
      sq2 (pm (outAt E s (2 * j))) (pm (outAt E s (2 * j + 1))) ≠ 0 ∧
      sq2 (pm (outAt E s (2 * j))) (pm (outAt E s (2 * j + 1))) ≤ 1 ∧
      r = ((Dbl.fin (pm (outAt E s (2 * j))), Dbl.fin (pm (outAt E s (2 * j + 1))),
        Dbl.fin (sq2 (pm (outAt E s (2 * j))) (pm (outAt E s (2 * j + 1))))), stateAt E s (2 * j + 2)) := by
  induction fuel generalizing s with
  | zero => cases h
  | succ fuel ih =>
    rw [normalReject_dbl fuel s _ _ rfl rfl] at h
    split at h
    · rename_i hr
      obtain ⟨j, h1, h2, h3, h4, h5⟩ := ih _ h
      have e2 : ∀ i, outAt E (stateAt E s 2) i = outAt E s (i + 2) := by
        intro i
        rw [outAt_succ, outAt_succ]; rfl
      have e3 : ∀ i, stateAt E (stateAt E s 2) i = stateAt E s (i + 2) := by
        intro i
        rw [stateAt_succ, stateAt_succ]; rfl
      simp only [e2, e3] at h2 h3 h4 h5
      refine ⟨j + 1, by omega, ?_, h3, h4, h5⟩
      intro i hi
      cases i with
      | zero => exact hr
      | succ i => exact h2 i (by omega)
    · rename_i hr
      cases h
      exact ⟨0, by omega, by omega, fun h => hr (.inl h), not_lt.1 fun h => hr (.inr h), rfl⟩

end Rand.Nrm
