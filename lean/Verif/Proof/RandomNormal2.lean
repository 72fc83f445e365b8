import Verif.Proof.RandomNormal

/-! # Normal and Student t samples in binary64: the values -/

set_option exponentiation.threshold 2000

namespace Rand.Nrm
open Cpp Spec Rand Geo.Acc

variable {E : Engine}

theorem two_dbl : ((2 : Int) : Dbl) = Dbl.fin 2 := by decide +kernel

theorem Big.sqrt {x : ℝ} {n : Nat} (h : Big (-(2 * (n : Int))) x) : Big (-(n : Int)) (Real.sqrt x) := by
  rcases h with h | h
  · left; rw [h, Real.sqrt_zero]
  · by_cases hx : 0 ≤ x
    · right
      rw [abs_of_nonneg (Real.sqrt_nonneg _), Real.le_sqrt' (by positivity), ← zpow_natCast, ← zpow_mul]
      rw [abs_of_nonneg hx] at h
      convert h using 2
      push_cast; ring
    · left; exact Real.sqrt_eq_zero_of_nonpos (not_le.1 hx).le

theorem pow120 : (2 : ℝ) ^ 200 ≤ 2 ^ 1000 := by norm_num

/-- the factor `result` of the code -/
theorem factor_dbl (m : Libm Dbl) (hlog : LogAcc m.log) (hsq : m.sqrt = Libm.dbl.sqrt) {w : ℚ} (hd : IsDouble w)
    (h0 : 2 ^ (-106 : Int) ≤ w) (h1 : w ≤ 1) :
    ∃ R : ℚ, m.sqrt (-((2 : Int) : Dbl) * m.log (Dbl.fin w) / Dbl.fin w) = Dbl.fin R ∧ Rel 4 (polarFactor w) R ∧
      Big (-27) (R : ℝ) ∧ |(R : ℝ)| ≤ 2 ^ 70 := by
  have hw : 0 < w := lt_of_lt_of_le (by positivity) h0
  have hwr : (0 : ℝ) < w := by exact_mod_cast hw
  have hwr1 : (w : ℝ) ≤ 1 := by exact_mod_cast h1
  have h0r : (2 : ℝ) ^ (-106 : Int) ≤ w := by rw [← zpow_cast]; exact_mod_cast h0
  obtain ⟨L, hL, eL⟩ := hlog w hd (le_trans (zpow_le_zpow_right₀ (by norm_num) (by norm_num)) h0) h1
  have rL := Rel.of_err2 eL
  have bl := log_big hd hw h1
  have al := log_abs (n := 106) h0 h1
  have nl : Real.log (w : ℝ) ≤ 0 := Real.log_nonpos hwr.le hwr1
  have aL : |(L : ℝ)| ≤ 2 ^ 8 := by
    have := rL.double (by norm_num)
    norm_num at al this ⊢
    linarith
  have bL : Big (-54) (L : ℝ) := by
    rcases bl with h | h
    · left
      obtain ⟨t, -, -, e⟩ := rL
      rw [e, h, zero_mul]
    · right
      have h3 := rL.half (by norm_num)
      have : (2 : ℝ) ^ (-54 : Int) = 2 ^ (-53 : Int) / 2 := by
        rw [show (-54 : Int) = -53 - 1 by norm_num, zpow_sub₀ (by norm_num)]; norm_num
      rw [this]
      exact le_trans (div_le_div_of_nonneg_right h (by norm_num)) h3
  -- the product
  have b2 : Big (-54) ((-2 * L : ℚ) : ℝ) := by
    rcases bL with h | h
    · left; push_cast; rw [h, mul_zero]
    · right; push_cast; rw [abs_mul]; norm_num
      norm_num at h
      have : (0 : ℝ) ≤ |(L : ℝ)| := abs_nonneg _
      linarith
  have m1 : -((2 : Int) : Dbl) * m.log (Dbl.fin w) = Dbl.fin (fl (-2 * L)) := by
    rw [two_dbl, hL]
    refine roundq ?_
    push_cast
    rw [abs_mul]
    norm_num
    norm_num at aL
    linarith
  have r2 := (Rel.mul (Rel.refl (-2)) rL).trans (by have := b2.relq (by norm_num); push_cast at this; exact this)
  have c2 := b2.flq (by norm_num)
  have a2 : |((fl (-2 * L) : ℚ) : ℝ)| ≤ 2 ^ 11 := by
    have h := (b2.relq (by norm_num)).double (by norm_num)
    push_cast at h
    rw [abs_mul] at h
    norm_num at h aL ⊢
    linarith
  generalize fl (-2 * L) = N at *
  -- the quotient
  have a3 : |((N / w : ℚ) : ℝ)| ≤ 2 ^ 120 := by
    push_cast
    rw [abs_div, abs_of_pos hwr, div_le_iff₀ hwr]
    calc |(N : ℝ)| ≤ 2 ^ 11 := a2
      _ ≤ 2 ^ 120 * 2 ^ (-106 : Int) := by norm_num
      _ ≤ 2 ^ 120 * (w : ℝ) := mul_le_mul_of_nonneg_left h0r (by positivity)
  have m2 : Dbl.fin N / Dbl.fin w = Dbl.fin (fl (N / w)) := by
    show (if w = 0 then _ else _) = _
    rw [if_neg hw.ne']
    exact roundq (a3.trans (by norm_num))
  have b3 : Big (-54) ((N / w : ℚ) : ℝ) := by
    have := Big.div (b := 0) c2 (by rw [abs_of_pos hwr]; simpa using hwr1) hwr.ne'
    push_cast
    simpa using this
  have r3 := ((Rel.div r2 (Rel.refl (w : ℝ)))).trans (by have := b3.relq (by norm_num); push_cast at this; exact this)
  have c3 := b3.flq (by norm_num)
  have a4 : |((fl (N / w) : ℚ) : ℝ)| ≤ 2 ^ 121 := by
    have h := (b3.relq (by norm_num)).double (by norm_num)
    calc _ ≤ _ := h
      _ ≤ 2 * 2 ^ 120 := by linarith
      _ = 2 ^ 121 := by norm_num
  generalize fl (N / w) = Q at *
  have hX : 0 ≤ -2 * Real.log (w : ℝ) / w := div_nonneg (by linarith) hwr.le
  have hQ : (0 : ℝ) ≤ Q := r3.nonneg hX
  have hQ' : 0 ≤ Q := by exact_mod_cast hQ
  -- the root
  have r4 : Rel 3 (polarFactor w) (Real.sqrt Q) := Rel.sqrt (m := 3) (r3.mono (by norm_num)) hX
  have b4 : Big (-27) (Real.sqrt Q) := Big.sqrt (n := 27) (c3.mono (by norm_num))
  have a5 : |Real.sqrt (Q : ℝ)| ≤ 2 ^ 61 := by
    rw [abs_of_nonneg (Real.sqrt_nonneg _), Real.sqrt_le_left (by positivity)]
    rw [abs_of_nonneg hQ] at a4
    calc (Q : ℝ) ≤ 2 ^ 121 := a4
      _ ≤ (2 ^ 61) ^ 2 := by norm_num
  refine ⟨fl (Real.sqrt (Q : ℝ)), ?_, r4.trans (Rel.fl ?_), b4.fl (by norm_num), ?_⟩
  · rw [m1, m2, hsq]
    show (if Q < 0 then _ else _) = _
    rw [if_neg (not_lt.2 hQ')]
    exact round_real (a5.trans (by norm_num))
  · rcases b4 with h | h
    · exact .inl h
    · exact .inr (le_trans (zpow_le_zpow_right₀ (by norm_num) (by norm_num)) h)
  · have h := (Rel.fl (x := Real.sqrt (Q : ℝ)) (by
      rcases b4 with h | h
      · exact .inl h
      · exact .inr (le_trans (zpow_le_zpow_right₀ (by norm_num) (by norm_num)) h))).double (by norm_num)
    calc _ ≤ _ := h
      _ ≤ 2 * 2 ^ 61 := by linarith
      _ ≤ 2 ^ 70 := by norm_num

/-- the last two operations -/
theorem finish (mean sd z : ℚ) (Z : ℝ) (r : Rel 5 Z z) (hZ : |Z| ≤ 13) (hm : |mean| ≤ 2 ^ 900) (h0 : 0 < sd) (h1 : sd ≤ 2 ^ 900) :
    ∃ q : ℚ, Dbl.fin z * Dbl.fin sd + Dbl.fin mean = Dbl.fin q ∧ NearlyNormal mean sd Z q := by
  have hz := r.double (by norm_num)
  have he := r.err (by norm_num)
  have h0r : (0 : ℝ) < sd := by exact_mod_cast h0
  have h1r : (sd : ℝ) ≤ 2 ^ 900 := by exact_mod_cast h1
  have hmr : |(mean : ℝ)| ≤ 2 ^ 900 := by rw [← Rat.cast_abs]; exact_mod_cast hm
  have a1 : |((z * sd : ℚ) : ℝ)| ≤ 2 ^ 906 := by
    push_cast
    rw [abs_mul, abs_of_pos h0r]
    calc |(z : ℝ)| * sd ≤ 26 * 2 ^ 900 := mul_le_mul (by linarith) h1r h0r.le (by norm_num)
      _ ≤ 2 ^ 906 := by norm_num
  have m1 : Dbl.fin z * Dbl.fin sd = Dbl.fin (fl (z * sd)) := roundq (a1.trans (by norm_num))
  have e1 := flq_err (z * sd)
  have t0 : (0 : ℝ) < 2 ^ (-1075 : Int) := by positivity
  have t1 : (2 : ℝ) ^ (-1075 : Int) ≤ 1 := zpow_le_one_of_nonpos₀ (by norm_num) (by norm_num)
  have t2 : (2 : ℝ) ^ (-1073 : Int) = 4 * 2 ^ (-1075 : Int) := by
    rw [show (-1073 : Int) = 2 + -1075 by norm_num, zpow_add₀ (by norm_num)]; norm_num
  have u49 : (2 : ℝ) ^ (-49 : Int) = 16 * u := by
    rw [← u_eq, show (-49 : Int) = 4 + -53 by norm_num, zpow_add₀ (by norm_num)]; norm_num
  have hu := u_pos
  have hu1 : u ≤ 1 / 1000 := by unfold u; norm_num
  have a2 : |((fl (z * sd) + mean : ℚ) : ℝ)| ≤ 2 ^ 908 := by
    have h2 := abs_sub_abs_le_abs_sub ((fl (z * sd) : ℚ) : ℝ) ((z * sd : ℚ) : ℝ)
    push_cast
    refine (abs_add_le _ _).trans ?_
    have e3 : u * |((z * sd : ℚ) : ℝ)| ≤ |((z * sd : ℚ) : ℝ)| := mul_le_of_le_one_left (abs_nonneg _) (by linarith)
    have n1 : (2 : ℝ) ^ 906 + 2 ^ 906 + 1 + 2 ^ 900 ≤ 2 ^ 908 := by norm_num
    generalize (2 : ℝ) ^ 906 = A at *
    generalize (2 : ℝ) ^ 908 = B at *
    generalize (2 : ℝ) ^ 900 = C at *
    generalize (2 : ℝ) ^ (-1075 : Int) = t at *
    linarith
  have m2 : Dbl.fin (fl (z * sd)) + Dbl.fin mean = Dbl.fin (fl (fl (z * sd) + mean)) := roundq (a2.trans (by norm_num))
  have e2 := flq_err (fl (z * sd) + mean)
  refine ⟨_, by rw [m1, m2], ?_⟩
  unfold NearlyNormal
  push_cast at e1 e2
  rw [t2, u49]
  generalize ((fl (fl (z * sd) + mean) : ℚ) : ℝ) = q at *
  generalize ((fl (z * sd) : ℚ) : ℝ) = P at *
  generalize (2 : ℝ) ^ (-1075 : Int) = t at *
  clear m1 m2 a1 a2
  have hA : 0 ≤ (sd : ℝ) * |Z| := mul_nonneg h0r.le (abs_nonneg _)
  have d1 : |(z : ℝ) * sd - sd * Z| ≤ 6 * u * ((sd : ℝ) * |Z|) := by
    rw [show (z : ℝ) * sd - sd * Z = sd * (z - Z) by ring, abs_mul, abs_of_pos h0r]
    have := mul_le_mul_of_nonneg_left he h0r.le
    norm_num at this
    linarith
  have d2 : u * |(z : ℝ) * sd| ≤ 2 * u * ((sd : ℝ) * |Z|) := by
    rw [abs_mul, abs_of_pos h0r]
    have := mul_le_mul_of_nonneg_left hz h0r.le
    nlinarith
  have d3 : |P - sd * Z| ≤ 8 * u * ((sd : ℝ) * |Z|) + t := by
    have := abs_sub_le P ((z : ℝ) * sd) (sd * Z)
    linarith
  have d4 : |P + mean| ≤ 2 * ((sd : ℝ) * |Z|) + t + |(mean : ℝ)| := by
    have h3 := abs_add_le P (mean : ℝ)
    have h4 := abs_sub_abs_le_abs_sub P (sd * Z)
    have h5 : |(sd : ℝ) * Z| = sd * |Z| := by rw [abs_mul, abs_of_pos h0r]
    have h6 : 8 * u * ((sd : ℝ) * |Z|) ≤ (sd : ℝ) * |Z| := mul_le_of_le_one_left hA (by linarith)
    linarith
  have d5 : u * |P + mean| ≤ u * (2 * ((sd : ℝ) * |Z|) + t + |(mean : ℝ)|) := mul_le_mul_of_nonneg_left d4 hu.le
  have d6 : |q - (mean + sd * Z)| ≤ |q - (P + mean)| + |P - sd * Z| := by
    have := abs_sub_le q (P + mean) (mean + sd * Z)
    rwa [show P + mean - (mean + sd * Z) = P - sd * Z by ring] at this
  have d7 : u * t ≤ t := mul_le_of_le_one_left t0.le (by linarith)
  have d8 : 0 ≤ u * |(mean : ℝ)| := mul_nonneg hu.le (abs_nonneg _)
  have d9 : 0 ≤ u * ((sd : ℝ) * |Z|) := mul_nonneg hu.le hA
  nlinarith

/-- the standardised value is at most 13 -/
theorem z_bound {x y w : ℚ} (r : Rel 2 ((x : ℝ) ^ 2 + (y : ℝ) ^ 2) (w : ℝ)) (h0 : 2 ^ (-106 : Int) ≤ w) (h1 : w ≤ 1) :
    |(x : ℝ) * polarFactor w| ≤ 13 := by
  have hw : 0 < w := lt_of_lt_of_le (by positivity) h0
  have hwr : (0 : ℝ) < w := by exact_mod_cast hw
  have al := log_abs (n := 106) h0 h1
  have nl : Real.log (w : ℝ) ≤ 0 := Real.log_nonpos hwr.le (by exact_mod_cast h1)
  have hX : 0 ≤ -2 * Real.log (w : ℝ) / w := div_nonneg (by linarith) hwr.le
  apply abs_le_of_sq_le_sq _ (by norm_num)
  unfold polarFactor
  rw [mul_pow, Real.sq_sqrt hX]
  have h2 := r.half (by norm_num)
  have hlo := r.lo (by positivity)
  have l2 : 1 - (2 : Nat) * u ≤ (1 - u) ^ 2 := lo_ge 2
  have hu1 : u ≤ 1 / 1000 := by unfold u; norm_num
  have hxw : (x : ℝ) ^ 2 ≤ 1.01 * w := by
    have : (x : ℝ) ^ 2 ≤ (x : ℝ) ^ 2 + (y : ℝ) ^ 2 := by nlinarith [sq_nonneg (y : ℝ)]
    have h3 : ((x : ℝ) ^ 2 + (y : ℝ) ^ 2) * (0.998) ≤ w := by
      refine le_trans (mul_le_mul_of_nonneg_left ?_ (by positivity)) hlo
      push_cast at l2
      linarith
    nlinarith
  rw [abs_of_nonpos nl] at al
  have h4 : (x : ℝ) ^ 2 * (-2 * Real.log (w : ℝ) / w) = ((x : ℝ) ^ 2 / w) * (-2 * Real.log (w : ℝ)) := by ring
  have h5 : (x : ℝ) ^ 2 / w ≤ 1.01 := by rw [div_le_iff₀ hwr]; exact hxw
  have h6 : -2 * Real.log (w : ℝ) ≤ 147 := by norm_num at al; linarith
  rw [h4]
  calc _ ≤ 1.01 * 147 := mul_le_mul h5 h6 (by linarith) (by norm_num)
    _ ≤ 13 ^ 2 := by norm_num

/-- the product of a coordinate and the factor -/
theorem coord_mul {x R : ℚ} {F : ℝ} (hx : x = 0 ∨ 2 ^ (-53 : Int) ≤ |x|) (hx1 : |x| ≤ 1) (r : Rel 4 F R) (hb : Big (-27) (R : ℝ))
    (ha : |(R : ℝ)| ≤ 2 ^ 70) : ∃ z : ℚ, Dbl.fin x * Dbl.fin R = Dbl.fin z ∧ Rel 5 (x * F) z := by
  have hx1r : |(x : ℝ)| ≤ 1 := by rw [← Rat.cast_abs]; exact_mod_cast hx1
  have bx : Big (-53) (x : ℝ) := by
    rcases hx with h | h
    · left; exact_mod_cast h
    · right; rw [← zpow_cast, ← Rat.cast_abs]; exact_mod_cast h
  have b : Big (-80) ((x * R : ℚ) : ℝ) := by push_cast; exact Big.mul bx hb
  refine ⟨fl (x * R), roundq ?_, ?_⟩
  · push_cast
    rw [abs_mul]
    calc |(x : ℝ)| * |(R : ℝ)| ≤ 1 * 2 ^ 70 := mul_le_mul hx1r ha (abs_nonneg _) (by norm_num)
      _ ≤ 2 ^ 1000 := by norm_num
  · have h := b.relq (by norm_num)
    push_cast at h
    have := (Rel.mul (Rel.refl (x : ℝ)) r).trans h
    norm_num at this
    exact this

theorem sq2_double (x y : ℚ) (hx : |x| ≤ 1) (hy : |y| ≤ 1) : IsDouble (sq2 x y) := by
  obtain ⟨h0, h2, -⟩ := sq2_le hx hy
  apply fl_isDouble
  change |sq2 x y| < _
  rw [abs_of_nonneg h0]
  exact lt_of_le_of_lt h2 (by norm_num)

/-- `next()` of a normal distribution without a spare value -/
theorem normalNext_dbl (m : Libm Dbl) (hlog : LogAcc m.log) (hsq : m.sqrt = Libm.dbl.sqrt) (mean sd : ℚ) (hm : |mean| ≤ 2 ^ 900)
    (hs0 : 0 < sd) (hs1 : sd ≤ 2 ^ 900) (sp : Option Dbl) (s : E.σ) (fuel : Nat) (r : (Dbl × Normal Dbl) × E.σ)
    (h : normalNext m fuel ⟨Dbl.fin mean, Dbl.fin sd, sp, false⟩ s = .ok r) :
    ∃ (j : Nat) (x y w q1 : ℚ) (z2 : ℚ), j < fuel ∧
      x = pm (outAt E s (2 * j)) ∧ y = pm (outAt E s (2 * j + 1)) ∧ w = sq2 x y ∧ 2 ^ (-106 : Int) ≤ w ∧ w ≤ 1 ∧
      Rel 2 ((x : ℝ) ^ 2 + (y : ℝ) ^ 2) (w : ℝ) ∧
      (∀ i < j, sq2 (pm (outAt E s (2 * i))) (pm (outAt E s (2 * i + 1))) = 0 ∨
        1 < sq2 (pm (outAt E s (2 * i))) (pm (outAt E s (2 * i + 1)))) ∧
      r = ((Dbl.fin q1, ⟨Dbl.fin mean, Dbl.fin sd, some (Dbl.fin z2), true⟩), stateAt E s (2 * j + 2)) ∧
      NearlyNormal mean sd (x * polarFactor w) q1 ∧ Rel 5 (y * polarFactor w) z2 := by
  unfold normalNext at h
  rw [if_neg (by simp), bind_run] at h
  cases hr : normalReject (D := Dbl) fuel s with
  | ok v =>
    rw [hr] at h
    obtain ⟨j, hj, h2, h3, h4, rfl⟩ := normalReject_ok fuel s v hr
    have hx1 := pm_abs (g := outAt E s (2 * j)) (E.draw _).1.isLt
    have hy1 := pm_abs (g := outAt E s (2 * j + 1)) (E.draw _).1.isLt
    have hx2 := pm_big (outAt E s (2 * j))
    have hy2 := pm_big (outAt E s (2 * j + 1))
    generalize hx : pm (outAt E s (2 * j)) = x at *
    generalize hy : pm (outAt E s (2 * j + 1)) = y at *
    obtain ⟨rw2, bw⟩ := sq2_rel hx2 hy2
    have hd := sq2_double x y hx1 hy1
    have hw0 := (sq2_le hx1 hy1).1
    have hw : 2 ^ (-106 : Int) ≤ sq2 x y := by
      rcases bw with h | h
      · exact absurd (by exact_mod_cast h) h3
      · rw [← zpow_cast, ← Rat.cast_abs, abs_of_nonneg hw0] at h
        exact_mod_cast h
    obtain ⟨R, hR, rR, bR, aR⟩ := factor_dbl m hlog hsq hd hw h4
    obtain ⟨z1, e1, r1⟩ := coord_mul hx2 hx1 rR bR aR
    obtain ⟨z2, e2, r2⟩ := coord_mul hy2 hy1 rR bR aR
    obtain ⟨q1, e3, n1⟩ := finish mean sd z1 _ r1 (z_bound rw2 hw h4) hm hs0 hs1
    simp only [Out.bind, pure_run] at h
    rw [hR, e1, e2, e3] at h
    cases h
    exact ⟨j, x, y, sq2 x y, q1, z2, hj, hx.symm, hy.symm, rfl, hw, h4, rw2, h2, rfl, n1, r2⟩
  | exit => rw [hr] at h; cases h
  | ub => rw [hr] at h; cases h
  | diverge => rw [hr] at h; cases h

end Rand.Nrm
