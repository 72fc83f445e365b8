import Verif.Spec.RandomLaw
import Mathlib.MeasureTheory.Function.JacobianOneDim
import Mathlib.Analysis.SpecialFunctions.PolarCoord

/-! # The polar method of Marsaglia yields two independent standard normal numbers -/

namespace Rand
open MeasureTheory Spec ENNReal ProbabilityTheory Set

theorem measurableSet_disc : MeasurableSet disc := by
  unfold disc
  have h1 : MeasurableSet {q : ℝ × ℝ | 0 < q.1 ^ 2 + q.2 ^ 2} := measurableSet_lt (by fun_prop) (by fun_prop)
  have h2 : MeasurableSet {q : ℝ × ℝ | q.1 ^ 2 + q.2 ^ 2 ≤ 1} := measurableSet_le (by fun_prop) (by fun_prop)
  exact h1.inter h2

theorem measurable_polarPoint : Measurable polarPoint := by unfold polarPoint; fun_prop

/-- an integral over the plane in polar coordinates -/
theorem lintegral_polar {f : ℝ × ℝ → ℝ≥0∞} (hf : Measurable f) :
    ∫⁻ p, f p = ∫⁻ θ in Ioo (-Real.pi) Real.pi, ∫⁻ r in Ioi 0,
      ENNReal.ofReal r * f (r * Real.cos θ, r * Real.sin θ) := by
  rw [← lintegral_comp_polarCoord_symm]
  have e : (polarCoord.target : Set (ℝ × ℝ)) = Ioi 0 ×ˢ Ioo (-Real.pi) Real.pi := rfl
  rw [e, Measure.volume_eq_prod, ← Measure.prod_restrict, lintegral_prod_symm]
  · rfl
  · have : Measurable fun p : ℝ × ℝ => ENNReal.ofReal p.1 • f (polarCoord.symm p) :=
      Measurable.mul (by fun_prop) (hf.comp continuous_polarCoord_symm.measurable)
    exact this.aemeasurable

theorem image_sq : (fun t : ℝ => Real.exp (-(t ^ 2) / 4)) '' Ioi 0 = Ioo 0 1 := by
  ext y
  constructor
  · rintro ⟨t, ht, rfl⟩
    have ht : 0 < t := ht
    refine ⟨Real.exp_pos _, ?_⟩
    rw [Real.exp_lt_one_iff]
    have : 0 < t ^ 2 := by positivity
    linarith
  · rintro ⟨h0, h1⟩
    have := Real.log_neg h0 h1
    refine ⟨Real.sqrt (-4 * Real.log y), Real.sqrt_pos.2 (by linarith), ?_⟩
    show Real.exp (-(Real.sqrt (-4 * Real.log y) ^ 2) / 4) = y
    rw [Real.sq_sqrt (by linarith), show -(-4 * Real.log y) / 4 = Real.log y by ring, Real.exp_log h0]

/-- the substitution `r = exp(-t^2 / 4)` -/
theorem lintegral_sq (g : ℝ → ℝ≥0∞) :
    ∫⁻ r in Ioo 0 1, g r = ∫⁻ t in Ioi 0, ENNReal.ofReal (t / 2 * Real.exp (-(t ^ 2) / 4)) * g (Real.exp (-(t ^ 2) / 4)) := by
  rw [← image_sq, lintegral_image_eq_lintegral_abs_deriv_mul (f' := fun t => Real.exp (-(t ^ 2) / 4) * (-(2 * t) / 4)) measurableSet_Ioi]
  · refine setLIntegral_congr_fun measurableSet_Ioi fun t ht => ?_
    have ht : 0 < t := ht
    have : Real.exp (-(t ^ 2) / 4) * (-(2 * t) / 4) = -(t / 2 * Real.exp (-(t ^ 2) / 4)) := by ring
    show ENNReal.ofReal |Real.exp (-(t ^ 2) / 4) * (-(2 * t) / 4)| * _ = _
    rw [this, abs_neg, abs_of_pos (by positivity)]
  · intro t _
    have h := ((hasDerivAt_pow 2 t).neg.div_const 4).exp
    simpa using h.hasDerivWithinAt
  · intro x hx y hy h
    have hx : 0 < x := hx
    have hy : 0 < y := hy
    have := Real.exp_injective h
    have : x ^ 2 = y ^ 2 := by linarith
    nlinarith

/-- the standard normal law of the plane in polar coordinates -/
theorem gauss_polar {B : Set (ℝ × ℝ)} (hB : MeasurableSet B) :
    ((gaussianReal 0 1).prod (gaussianReal 0 1)) B = ∫⁻ θ in Ioo (-Real.pi) Real.pi, ∫⁻ t in Ioi 0,
      ENNReal.ofReal (t * ((2 * Real.pi)⁻¹ * Real.exp (-(t ^ 2) / 2))) *
        B.indicator 1 (t * Real.cos θ, t * Real.sin θ) := by
  have hI : Measurable (B.indicator (1 : ℝ × ℝ → ℝ≥0∞)) := measurable_one.indicator hB
  have hg := measurable_gaussianPDF 0 1
  rw [gaussianReal_of_var_ne_zero _ one_ne_zero, prod_withDensity hg hg, withDensity_apply _ hB, ← lintegral_indicator hB,
    ← Measure.volume_eq_prod]
  have e : ∀ z : ℝ × ℝ, B.indicator (fun z => gaussianPDF 0 1 z.1 * gaussianPDF 0 1 z.2) z =
      ENNReal.ofReal ((2 * Real.pi)⁻¹ * Real.exp (-(z.1 ^ 2 + z.2 ^ 2) / 2)) * B.indicator 1 z := by
    intro z
    by_cases hz : z ∈ B
    · rw [indicator_of_mem hz, indicator_of_mem hz, Pi.one_apply, mul_one, gaussianPDF_def]
      simp only
      rw [← ENNReal.ofReal_mul (gaussianPDFReal_nonneg _ _ _), gaussianPDFReal_def]
      congr 1
      simp only [sub_zero, NNReal.coe_one, mul_one]
      rw [mul_mul_mul_comm, ← mul_inv, Real.mul_self_sqrt (by positivity), ← Real.exp_add]
      congr 2
      ring
    · rw [indicator_of_notMem hz, indicator_of_notMem hz, mul_zero]
  simp_rw [e]
  have hmF : Measurable fun z : ℝ × ℝ =>
      ENNReal.ofReal ((2 * Real.pi)⁻¹ * Real.exp (-(z.1 ^ 2 + z.2 ^ 2) / 2)) * B.indicator 1 z :=
    Measurable.mul (by fun_prop) hI
  rw [lintegral_polar hmF]
  refine lintegral_congr fun θ => setLIntegral_congr_fun measurableSet_Ioi fun t ht => ?_
  have ht : 0 < t := ht
  show ENNReal.ofReal t * (ENNReal.ofReal _ * _) = _
  rw [← mul_assoc, ← ENNReal.ofReal_mul ht.le]
  have : (t * Real.cos θ) ^ 2 + (t * Real.sin θ) ^ 2 = t ^ 2 := by
    rw [mul_pow, mul_pow, ← mul_add, Real.cos_sq_add_sin_sq, mul_one]
  simp only [this]

/-- the area of the points of the disc that are moved into `B` -/
theorem disc_polar {B : Set (ℝ × ℝ)} (hB : MeasurableSet B) :
    volume (disc ∩ polarPoint ⁻¹' B) =
      ENNReal.ofReal Real.pi * ((gaussianReal 0 1).prod (gaussianReal 0 1)) B := by
  have hI : Measurable (B.indicator (1 : ℝ × ℝ → ℝ≥0∞)) := measurable_one.indicator hB
  have hS := measurableSet_disc.inter (measurable_polarPoint hB)
  rw [gauss_polar hB, ← lintegral_indicator_one hS, lintegral_polar (measurable_one.indicator hS), ← lintegral_const_mul']
  · refine lintegral_congr fun θ => ?_
    have hmB : Measurable fun t : ℝ => B.indicator (1 : ℝ × ℝ → ℝ≥0∞) (t * Real.cos θ, t * Real.sin θ) :=
      hI.comp (by fun_prop)
    have hmF : Measurable fun t : ℝ => ENNReal.ofReal (t * ((2 * Real.pi)⁻¹ * Real.exp (-(t ^ 2) / 2))) *
        B.indicator (1 : ℝ × ℝ → ℝ≥0∞) (t * Real.cos θ, t * Real.sin θ) := Measurable.mul (by fun_prop) hmB
    rw [← lintegral_const_mul _ hmF]
    have e : ∀ r ∈ Ioi (0 : ℝ), ENNReal.ofReal r * (disc ∩ polarPoint ⁻¹' B).indicator 1 (r * Real.cos θ, r * Real.sin θ) =
        (Iic 1).indicator (fun r => ENNReal.ofReal r * B.indicator 1
          (Real.sqrt (-4 * Real.log r) * Real.cos θ, Real.sqrt (-4 * Real.log r) * Real.sin θ)) r := by
      intro r hr
      have hr : 0 < r := hr
      have hsq : (r * Real.cos θ) ^ 2 + (r * Real.sin θ) ^ 2 = r ^ 2 := by
        rw [mul_pow, mul_pow, ← mul_add, Real.cos_sq_add_sin_sq, mul_one]
      have hd : (r * Real.cos θ, r * Real.sin θ) ∈ disc ↔ r ≤ 1 := by
        show 0 < (r * Real.cos θ) ^ 2 + (r * Real.sin θ) ^ 2 ∧ (r * Real.cos θ) ^ 2 + (r * Real.sin θ) ^ 2 ≤ 1 ↔ _
        rw [hsq]
        constructor
        · rintro ⟨_, h⟩
          nlinarith
        · intro h
          exact ⟨by positivity, by nlinarith⟩
      have hp : r ≤ 1 → polarPoint (r * Real.cos θ, r * Real.sin θ) =
          (Real.sqrt (-4 * Real.log r) * Real.cos θ, Real.sqrt (-4 * Real.log r) * Real.sin θ) := by
        intro h1
        unfold polarPoint
        simp only [hsq]
        have hk : r * Real.sqrt (-2 * Real.log (r ^ 2) / r ^ 2) = Real.sqrt (-4 * Real.log r) := by
          rw [Real.log_pow, Real.sqrt_div', Real.sqrt_sq hr.le, mul_div_cancel₀ _ hr.ne']
          · congr 1; push_cast; ring
          · positivity
        rw [← hk]
        ext <;> simp only <;> ring
      by_cases h1 : r ≤ 1
      · rw [indicator_of_mem (show r ∈ Iic 1 from h1)]
        congr 1
        rw [← hp h1]
        by_cases hb : polarPoint (r * Real.cos θ, r * Real.sin θ) ∈ B
        · rw [indicator_of_mem hb, indicator_of_mem (show _ ∈ disc ∩ polarPoint ⁻¹' B from ⟨hd.2 h1, hb⟩)]; rfl
        · rw [indicator_of_notMem hb, indicator_of_notMem fun h => hb h.2]
      · rw [indicator_of_notMem (show r ∉ Iic 1 from h1), indicator_of_notMem fun h => h1 (hd.1 h.1), mul_zero]
    rw [setLIntegral_congr_fun measurableSet_Ioi e, setLIntegral_indicator measurableSet_Iic, inter_comm, Ioi_inter_Iic,
      setLIntegral_congr Ioo_ae_eq_Ioc.symm, lintegral_sq]
    refine setLIntegral_congr_fun measurableSet_Ioi fun t ht => ?_
    have ht : 0 < t := ht
    simp only [Real.log_exp]
    have e1 : Real.sqrt (-4 * (-(t ^ 2) / 4)) = t := by
      rw [show -4 * (-(t ^ 2) / 4) = t ^ 2 by ring, Real.sqrt_sq ht.le]
    rw [e1, ← mul_assoc, ← mul_assoc, ← ENNReal.ofReal_mul (by positivity), ← ENNReal.ofReal_mul (by positivity)]
    congr 2
    have : Real.exp (-(t ^ 2) / 4) * Real.exp (-(t ^ 2) / 4) = Real.exp (-(t ^ 2) / 2) := by
      rw [← Real.exp_add]; congr 1; ring
    rw [mul_assoc, this]
    field_simp
  · exact ENNReal.ofReal_ne_top

/-- the polar method, for a point chosen in the square `[0, 1]^2` and moved to `[-1, 1]^2` -/
theorem polar_law {B : Set (ℝ × ℝ)} (hB : MeasurableSet B) :
    ((volume.restrict (Icc (0 : ℝ) 1)).prod (volume.restrict (Icc (0 : ℝ) 1)))
      ({p | (2 * p.1 - 1, 2 * p.2 - 1) ∈ disc} ∩ (fun p => polarPoint (2 * p.1 - 1, 2 * p.2 - 1)) ⁻¹' B) =
      ENNReal.ofReal (Real.pi / 4) * ((gaussianReal 0 1).prod (gaussianReal 0 1)) B := by
  have hS := measurableSet_disc.inter (measurable_polarPoint hB)
  have hφ : Measurable fun p : ℝ × ℝ => (2 * p.1 - 1, 2 * p.2 - 1) := by fun_prop
  have e : {p : ℝ × ℝ | (2 * p.1 - 1, 2 * p.2 - 1) ∈ disc} ∩ (fun p => polarPoint (2 * p.1 - 1, 2 * p.2 - 1)) ⁻¹' B =
      (fun p : ℝ × ℝ => (2 * p.1 - 1, 2 * p.2 - 1)) ⁻¹' (disc ∩ polarPoint ⁻¹' B) := rfl
  rw [e, Measure.prod_restrict, Measure.restrict_apply (hφ hS), ← Measure.volume_eq_prod]
  have e2 : (fun p : ℝ × ℝ => (2 * p.1 - 1, 2 * p.2 - 1)) ⁻¹' (disc ∩ polarPoint ⁻¹' B) ∩ Icc 0 1 ×ˢ Icc 0 1 =
      ((2 : ℝ) • ·) ⁻¹' ((fun p => p + ((-1, -1) : ℝ × ℝ)) ⁻¹' (disc ∩ polarPoint ⁻¹' B)) := by
    ext p
    have : (2 * p.1 - 1, 2 * p.2 - 1) = (2 : ℝ) • p + (-1, -1) := by ext <;> simp [sub_eq_add_neg]
    constructor
    · rintro ⟨h, -⟩
      show (2 : ℝ) • p + (-1, -1) ∈ disc ∩ polarPoint ⁻¹' B
      rw [← this]
      exact h
    · intro h
      have h : (2 : ℝ) • p + (-1, -1) ∈ disc ∩ polarPoint ⁻¹' B := h
      rw [← this] at h
      refine ⟨h, ?_⟩
      have h2 : (2 * p.1 - 1) ^ 2 + (2 * p.2 - 1) ^ 2 ≤ 1 := h.1.2
      constructor <;> constructor <;> nlinarith [sq_nonneg (2 * p.1 - 1), sq_nonneg (2 * p.2 - 1)]
  rw [e2, Measure.addHaar_preimage_smul _ two_ne_zero, measure_preimage_add_right, disc_polar hB, ← mul_assoc,
    ← ENNReal.ofReal_mul (abs_nonneg _)]
  congr 2
  rw [show Module.finrank ℝ (ℝ × ℝ) = 2 by simp, abs_of_pos (by positivity)]
  ring

end Rand
