import Verif.Proof.RandomLaw
import Mathlib.MeasureTheory.Function.JacobianOneDim
import Mathlib.Analysis.SpecialFunctions.Integrals.Basic

/-! # Lemmas about gamma distributions -/

namespace Rand
open MeasureTheory Spec ENNReal ProbabilityTheory Set

/-- integrals with respect to a gamma distribution -/
theorem lintegral_gamma (a r : ℝ) {g : ℝ → ℝ≥0∞} (hg : Measurable g) :
    ∫⁻ x, g x ∂gammaMeasure a r = ∫⁻ x in Ioi 0,
      ENNReal.ofReal (r ^ a / Real.Gamma a * x ^ (a - 1) * Real.exp (-(r * x))) * g x := by
  unfold gammaMeasure
  have hp : Measurable (gammaPDF a r) := (measurable_gammaPDFReal a r).ennreal_ofReal
  rw [lintegral_withDensity_eq_lintegral_mul _ hp hg]
  have h1 := lintegral_add_compl (μ := volume) (gammaPDF a r * g) (measurableSet_Ioi (a := (0 : ℝ)))
  rw [← h1]
  have h2 : ∫⁻ x in (Ioi (0 : ℝ))ᶜ, (gammaPDF a r * g) x = 0 := by
    rw [compl_Ioi, setLIntegral_congr Iio_ae_eq_Iic.symm]
    rw [setLIntegral_congr_fun (g := fun _ => 0) measurableSet_Iio]
    · simp
    · intro x hx
      show gammaPDF a r x * g x = 0
      rw [gammaPDF_of_neg hx, zero_mul]
  rw [h2, add_zero]
  refine setLIntegral_congr_fun measurableSet_Ioi fun x hx => ?_
  show gammaPDF a r x * g x = _
  rw [gammaPDF_of_nonneg (le_of_lt hx)]

/-- the gamma distribution as an integral over the positive numbers -/
theorem gamma_apply {a r : ℝ} {B : Set ℝ} (hB : MeasurableSet B) :
    gammaMeasure a r B = ∫⁻ x in Ioi 0, ENNReal.ofReal (r ^ a / Real.Gamma a * x ^ (a - 1) * Real.exp (-(r * x))) *
      B.indicator 1 x := by
  rw [← lintegral_gamma a r (measurable_one.indicator hB), lintegral_indicator_one hB]

theorem image_exp {a : ℝ} : (fun x : ℝ => Real.exp (a - x)) '' Ioi a = Ioo 0 1 := by
  ext y
  constructor
  · rintro ⟨x, hx, rfl⟩
    exact ⟨Real.exp_pos _, by rw [Real.exp_lt_one_iff]; linarith [mem_Ioi.1 hx]⟩
  · rintro ⟨h0, h1⟩
    refine ⟨a - Real.log y, ?_, ?_⟩
    · have := Real.log_neg h0 h1
      rw [mem_Ioi]; linarith
    · simp [Real.exp_log h0]

/-- the substitution `v = exp(a - x)` -/
theorem lintegral_exp (a : ℝ) (g : ℝ → ℝ≥0∞) :
    ∫⁻ v in Ioc 0 1, g v = ∫⁻ x in Ioi a, ENNReal.ofReal (Real.exp (a - x)) * g (Real.exp (a - x)) := by
  rw [setLIntegral_congr Ioo_ae_eq_Ioc.symm, ← image_exp (a := a),
    lintegral_image_eq_lintegral_abs_deriv_mul (f' := fun x => -Real.exp (a - x)) measurableSet_Ioi]
  · refine lintegral_congr fun x => ?_
    rw [abs_neg, abs_of_pos (Real.exp_pos _)]
  · intro x _
    have := ((hasDerivAt_id x).const_sub a).exp
    simpa using this.hasDerivWithinAt
  · intro x _ y _ h
    have := Real.exp_injective h
    linarith

theorem image_rpow {d : ℝ} (hd : 0 < d) : (fun x : ℝ => x ^ d) '' Ioc 0 1 = Ioc 0 1 := by
  ext y
  constructor
  · rintro ⟨x, hx, rfl⟩
    exact ⟨Real.rpow_pos_of_pos hx.1 _, Real.rpow_le_one hx.1.le hx.2 hd.le⟩
  · rintro ⟨h0, h1⟩
    refine ⟨y ^ (1 / d), ⟨Real.rpow_pos_of_pos h0 _, Real.rpow_le_one h0.le h1 (by positivity)⟩, ?_⟩
    show (y ^ (1 / d)) ^ d = y
    rw [← Real.rpow_mul h0.le, one_div_mul_cancel hd.ne', Real.rpow_one]

/-- the substitution `v = x^d` -/
theorem lintegral_rpow {d : ℝ} (hd : 0 < d) (g : ℝ → ℝ≥0∞) :
    ∫⁻ v in Ioc 0 1, g v = ∫⁻ x in Ioc 0 1, ENNReal.ofReal (d * x ^ (d - 1)) * g (x ^ d) := by
  conv_lhs => rw [← image_rpow hd]
  rw [lintegral_image_eq_lintegral_abs_deriv_mul (f' := fun x => d * x ^ (d - 1)) measurableSet_Ioc]
  · refine setLIntegral_congr_fun measurableSet_Ioc fun x hx => ?_
    have : 0 ≤ d * x ^ (d - 1) := mul_nonneg hd.le (Real.rpow_nonneg hx.1.le _)
    show ENNReal.ofReal |d * x ^ (d - 1)| * _ = _
    rw [abs_of_nonneg this]
  · intro x hx
    exact (Real.hasDerivAt_rpow_const (Or.inl hx.1.ne')).hasDerivWithinAt
  · intro x hx y hy h
    have : (x ^ d) ^ (1 / d) = (y ^ d) ^ (1 / d) := by rw [show x ^ d = y ^ d from h]
    rwa [← Real.rpow_mul hx.1.le, ← Real.rpow_mul hy.1.le, mul_one_div_cancel hd.ne', Real.rpow_one, Real.rpow_one]
      at this

/-- `1 - u` is uniform on `(0, 1]` -/
theorem lintegral_oneMinus (g : ℝ → ℝ≥0∞) :
    ∫⁻ u in Icc 0 1, g (1 - u) = ∫⁻ v in Ioc 0 1, g v := by
  rw [setLIntegral_congr Ioc_ae_eq_Icc, ← lintegral_indicator measurableSet_Icc, ← lintegral_indicator measurableSet_Icc,
    ← lintegral_sub_left_eq_self _ (1 : ℝ)]
  refine lintegral_congr fun x => ?_
  by_cases h : x ∈ Icc (0 : ℝ) 1
  · rw [indicator_of_mem (s := Icc 0 1) (by constructor <;> linarith [h.1, h.2]), indicator_of_mem h, _root_.sub_sub_cancel]
  · rw [indicator_of_notMem (s := Icc 0 1) (fun hc => h ⟨by linarith [hc.2], by linarith [hc.1]⟩),
      indicator_of_notMem h]

/-- minus the logarithm of a uniform number -/
theorem exp_law : (volume.restrict (Icc (0 : ℝ) 1)).map (fun u => -Real.log (1 - u)) = gammaMeasure 1 1 := by
  refine Measure.ext fun B hB => ?_
  have hm : Measurable fun u : ℝ => -Real.log (1 - u) := by fun_prop
  rw [Measure.map_apply hm hB, gamma_apply hB, ← lintegral_indicator_one (hm hB)]
  have : ∀ u, ((fun u => -Real.log (1 - u)) ⁻¹' B).indicator (1 : ℝ → ℝ≥0∞) u =
      B.indicator 1 (-Real.log (1 - u)) := fun u => rfl
  simp_rw [this]
  rw [lintegral_oneMinus (fun v => B.indicator 1 (-Real.log v)), lintegral_exp 0]
  refine setLIntegral_congr_fun measurableSet_Ioi fun x _ => ?_
  simp [Real.Gamma_one]

theorem lintegral_rpow_Ioo {a z : ℝ} (ha : 0 < a) (hz : 0 < z) :
    ∫⁻ x in Ioo 0 z, ENNReal.ofReal (x ^ (a - 1)) = ENNReal.ofReal (z ^ a / a) := by
  have hi : IntervalIntegrable (fun x : ℝ => x ^ (a - 1)) volume 0 z :=
    intervalIntegral.intervalIntegrable_rpow' (by linarith)
  rw [setLIntegral_congr Ioo_ae_eq_Ioc, ← ofReal_integral_eq_lintegral_ofReal]
  · rw [← intervalIntegral.integral_of_le hz.le, integral_rpow (Or.inl (by linarith))]
    rw [sub_add_cancel, Real.zero_rpow ha.ne', sub_zero]
  · exact (intervalIntegrable_iff_integrableOn_Ioc_of_le hz.le).1 hi
  · exact (ae_restrict_iff' measurableSet_Ioc).2 (.of_forall fun x hx => Real.rpow_nonneg hx.1.le _)

/-- a gamma distributed number plus an independent exponential one -/
theorem gamma_add_exp {a : ℝ} (ha : 0 < a) :
    ((gammaMeasure 1 1).prod (gammaMeasure a 1)).map (fun p : ℝ × ℝ => p.1 + p.2) = gammaMeasure (a + 1) 1 := by
  have := isProbabilityMeasure_gammaMeasure ha one_pos
  have := isProbabilityMeasure_gammaMeasure one_pos one_pos
  refine Measure.ext fun B hB => ?_
  have hm : Measurable fun p : ℝ × ℝ => p.1 + p.2 := by fun_prop
  have hI : Measurable (B.indicator (1 : ℝ → ℝ≥0∞)) := measurable_one.indicator hB
  rw [Measure.map_apply hm hB, Measure.prod_apply_symm (hm hB),
    lintegral_gamma a 1 (measurable_measure_prodMk_right (hm hB)), gamma_apply hB]
  have h1 : ∀ x : ℝ, (gammaMeasure 1 1) ((fun y => (y, x)) ⁻¹' ((fun p : ℝ × ℝ => p.1 + p.2) ⁻¹' B)) =
      ∫⁻ z, (Ioi x).indicator (fun z => ENNReal.ofReal (Real.exp (x - z)) * B.indicator 1 z) z := by
    intro x
    have hx : MeasurableSet ((fun y => (y, x)) ⁻¹' ((fun p : ℝ × ℝ => p.1 + p.2) ⁻¹' B)) :=
      measurable_prodMk_right (hm hB)
    rw [gamma_apply hx, ← lintegral_indicator measurableSet_Ioi,
      ← lintegral_add_right_eq_self ((Ioi x).indicator fun z => ENNReal.ofReal (Real.exp (x - z)) * B.indicator 1 z) x]
    have hs : ∀ y : ℝ, ((fun y => (y, x)) ⁻¹' ((fun p : ℝ × ℝ => p.1 + p.2) ⁻¹' B)).indicator (1 : ℝ → ℝ≥0∞) y =
        B.indicator 1 (y + x) := fun y => rfl
    refine lintegral_congr fun y => ?_
    by_cases hy : 0 < y
    · rw [indicator_of_mem (show y ∈ Ioi 0 from hy), indicator_of_mem (show y + x ∈ Ioi x by rw [mem_Ioi]; linarith), hs]
      congr 2
      simp [Real.Gamma_one]
    · rw [indicator_of_notMem (show y ∉ Ioi 0 from hy),
        indicator_of_notMem (show y + x ∉ Ioi x by rw [mem_Ioi]; linarith)]
  simp_rw [h1]
  have hf : Measurable (Function.uncurry fun x z : ℝ => ENNReal.ofReal (1 ^ a / Real.Gamma a * x ^ (a - 1) * Real.exp (-(1 * x))) *
      (Ioi x).indicator (fun z => ENNReal.ofReal (Real.exp (x - z)) * B.indicator 1 z) z) := by
    refine Measurable.mul (by fun_prop) ?_
    have e : (fun p : ℝ × ℝ => (Ioi p.1).indicator (fun z => ENNReal.ofReal (Real.exp (p.1 - z)) * B.indicator 1 z) p.2) =
        {p : ℝ × ℝ | p.1 < p.2}.indicator fun p => ENNReal.ofReal (Real.exp (p.1 - p.2)) * B.indicator 1 p.2 := by
      funext p
      rfl
    rw [e]
    exact Measurable.indicator ((by fun_prop : Measurable fun p : ℝ × ℝ => ENNReal.ofReal (Real.exp (p.1 - p.2))).mul
      (hI.comp measurable_snd)) (measurableSet_lt measurable_fst measurable_snd)
  have hcm : ∀ x : ℝ, Measurable fun z => (Ioi x).indicator (fun z => ENNReal.ofReal (Real.exp (x - z)) * B.indicator 1 z) z :=
    fun x => Measurable.indicator ((by fun_prop : Measurable fun z : ℝ => ENNReal.ofReal (Real.exp (x - z))).mul hI)
      measurableSet_Ioi
  rw [lintegral_congr fun x => (lintegral_const_mul (ENNReal.ofReal (1 ^ a / Real.Gamma a * x ^ (a - 1) * Real.exp (-(1 * x))))
    (hcm x)).symm]
  rw [lintegral_lintegral_swap hf.aemeasurable, ← lintegral_indicator measurableSet_Ioi]
  refine lintegral_congr fun z => ?_
  have hG := Real.Gamma_pos_of_pos ha
  by_cases hz : 0 < z
  · rw [indicator_of_mem (show z ∈ Ioi 0 from hz)]
    have e : ∀ x ∈ Ioi (0 : ℝ), ENNReal.ofReal (1 ^ a / Real.Gamma a * x ^ (a - 1) * Real.exp (-(1 * x))) *
        (Ioi x).indicator (fun z => ENNReal.ofReal (Real.exp (x - z)) * B.indicator 1 z) z =
        (Iio z).indicator (fun x => ENNReal.ofReal (Real.exp (-z) / Real.Gamma a) * B.indicator 1 z *
          ENNReal.ofReal (x ^ (a - 1))) x := by
      intro x hx
      have hx : 0 < x := hx
      by_cases hxz : x < z
      · rw [indicator_of_mem (show z ∈ Ioi x from hxz), indicator_of_mem (show x ∈ Iio z from hxz), ← mul_assoc,
          ← ENNReal.ofReal_mul (by positivity), mul_right_comm (ENNReal.ofReal (Real.exp (-z) / _)),
          ← ENNReal.ofReal_mul (by positivity)]
        congr 2
        rw [Real.one_rpow, one_mul, Real.exp_sub, Real.exp_neg, Real.exp_neg]
        have := Real.exp_pos x
        have := Real.exp_pos z
        field_simp
      · rw [indicator_of_notMem (show z ∉ Ioi x from hxz), indicator_of_notMem (show x ∉ Iio z from hxz), mul_zero]
    rw [setLIntegral_congr_fun measurableSet_Ioi e, setLIntegral_indicator measurableSet_Iio, Iio_inter_Ioi,
      lintegral_const_mul _ (by fun_prop), lintegral_rpow_Ioo ha hz, mul_right_comm, ← ENNReal.ofReal_mul (by positivity)]
    congr 2
    rw [Real.Gamma_add_one ha.ne', Real.one_rpow, one_mul, add_sub_cancel_right]
    field_simp
  · rw [indicator_of_notMem (show z ∉ Ioi 0 from hz), setLIntegral_congr_fun (g := fun _ => 0) measurableSet_Ioi, lintegral_zero]
    intro x hx
    have hx : 0 < x := hx
    show _ * (Ioi x).indicator _ z = 0
    rw [indicator_of_notMem (show z ∉ Ioi x by rw [mem_Ioi]; linarith), mul_zero]

/-- scaling -/
theorem gamma_scale {a t : ℝ} (ht : 0 < t) :
    (gammaMeasure a 1).map (fun x => t * x) = gammaMeasure a (1 / t) := by
  refine Measure.ext fun B hB => ?_
  have hm : Measurable fun x : ℝ => t * x := by fun_prop
  rw [Measure.map_apply hm hB, gamma_apply hB, gamma_apply (hm hB)]
  have hi : (fun x : ℝ => t * x) '' Ioi 0 = Ioi 0 := by
    ext y
    constructor
    · rintro ⟨x, hx, rfl⟩
      exact mul_pos ht hx
    · intro hy
      exact ⟨y / t, div_pos hy ht, mul_div_cancel₀ y ht.ne'⟩
  conv_rhs => rw [← hi]
  rw [lintegral_image_eq_lintegral_abs_deriv_mul (f' := fun _ => t) measurableSet_Ioi]
  · refine setLIntegral_congr_fun measurableSet_Ioi fun x hx => ?_
    have hx : 0 < x := hx
    show ENNReal.ofReal _ * B.indicator 1 (t * x) = ENNReal.ofReal |t| * (ENNReal.ofReal _ * B.indicator 1 (t * x))
    rw [← mul_assoc, ← ENNReal.ofReal_mul (abs_nonneg t), abs_of_pos ht]
    congr 2
    have e1 : 1 / t * (t * x) = x := by field_simp
    have e2 : t * ((1 / t) ^ a * (t * x) ^ (a - 1)) = x ^ (a - 1) := by
      rw [Real.mul_rpow ht.le hx.le, Real.div_rpow zero_le_one ht.le, Real.one_rpow, Real.rpow_sub_one ht.ne']
      have := (Real.rpow_pos_of_pos ht a).ne'
      field_simp
    rw [e1, one_mul, Real.one_rpow, ← e2]
    ring
  · intro x _
    simpa using ((hasDerivAt_id x).const_mul t).hasDerivWithinAt
  · intro x _ y _ h
    exact mul_left_cancel₀ ht.ne' h

theorem measurable_adCandidate (d : ℝ) : Measurable fun t : ℝ × ℝ × ℝ => adCandidate d t.1 t.2.1 := by
  unfold adCandidate
  refine Measurable.ite (measurableSet_le measurable_fst measurable_const) ?_ ?_
  · fun_prop
  · fun_prop

theorem measurableSet_adAccepts (d : ℝ) : MeasurableSet {t : ℝ × ℝ × ℝ | adAccepts d t.1 t.2.1 t.2.2} := by
  unfold adAccepts
  refine measurableSet_le (by fun_prop) ?_
  have := measurable_adCandidate d
  refine Measurable.ite (measurableSet_le measurable_fst measurable_const) ?_ ?_
  · exact this.neg.exp
  · exact this.pow_const _

/-- the uniform distribution on `(0, 1]` -/
noncomputable def unifM : Measure ℝ := volume.restrict (Ioc 0 1)

instance : IsProbabilityMeasure unifM :=
  ⟨by unfold unifM; rw [Measure.restrict_apply_univ, Real.volume_Ioc]; norm_num⟩

theorem unifM_le {a : ℝ} (h1 : a ≤ 1) : unifM (Iic a) = ENNReal.ofReal a := by
  unfold unifM
  rw [Measure.restrict_apply measurableSet_Iic]
  have : Iic a ∩ Ioc 0 1 = Ioc 0 a := by
    ext w
    constructor
    · rintro ⟨h, h2⟩
      exact ⟨h2.1, h⟩
    · rintro h
      exact ⟨h.2, h.1, h.2.trans h1⟩
  rw [this, Real.volume_Ioc, sub_zero]

/-- the method of Ahrens and Dieter: candidates that are accepted have a gamma distribution -/
theorem ad_law {d : ℝ} (h0 : 0 < d) (h1 : d < 1) {B : Set ℝ} (hB : MeasurableSet B) :
    (unifM.prod (unifM.prod unifM)) ({t | adAccepts d t.1 t.2.1 t.2.2} ∩ (fun t => adCandidate d t.1 t.2.1) ⁻¹' B) =
      ENNReal.ofReal (Real.exp 1 / (Real.exp 1 + d) * (d * Real.Gamma d)) * gammaMeasure d 1 B := by
  have he := Real.exp_pos 1
  have hI : Measurable (B.indicator (1 : ℝ → ℝ≥0∞)) := measurable_one.indicator hB
  set c := Real.exp 1 / (Real.exp 1 + d) with hc
  have hc0 : 0 ≤ c := by positivity
  have hc1 : c ≤ 1 := (div_le_one (by positivity)).2 (by linarith)
  have hm := (measurableSet_adAccepts d).inter (measurable_adCandidate d hB)
  rw [Measure.prod_apply hm]
  have hin : ∀ u v : ℝ, v ∈ Ioc (0 : ℝ) 1 →
      unifM (Prod.mk v ⁻¹' (Prod.mk u ⁻¹' ({t : ℝ × ℝ × ℝ | adAccepts d t.1 t.2.1 t.2.2} ∩
        (fun t => adCandidate d t.1 t.2.1) ⁻¹' B))) =
      ENNReal.ofReal (if u ≤ c then Real.exp (-adCandidate d u v) else adCandidate d u v ^ (d - 1)) *
        B.indicator 1 (adCandidate d u v) := by
    intro u v hv
    by_cases hb : adCandidate d u v ∈ B
    · rw [indicator_of_mem hb, Pi.one_apply, mul_one]
      have e : (Prod.mk v ⁻¹' (Prod.mk u ⁻¹' ({t : ℝ × ℝ × ℝ | adAccepts d t.1 t.2.1 t.2.2} ∩
        (fun t => adCandidate d t.1 t.2.1) ⁻¹' B))) =
          Iic (if u ≤ c then Real.exp (-adCandidate d u v) else adCandidate d u v ^ (d - 1)) := by
        ext w
        exact ⟨fun h => h.1, fun h => ⟨h, hb⟩⟩
      rw [e]
      by_cases hu : u ≤ c
      · rw [if_pos hu]
        refine unifM_le ?_
        rw [Real.exp_le_one_iff]
        unfold adCandidate
        rw [if_pos hu]
        have := Real.rpow_nonneg hv.1.le (1 / d)
        linarith
      · rw [if_neg hu]
        have hcan : 1 ≤ adCandidate d u v := by
          unfold adCandidate
          rw [if_neg hu]
          have := Real.log_nonpos hv.1.le hv.2
          linarith
        exact unifM_le (Real.rpow_le_one_of_one_le_of_nonpos hcan (by linarith))
    · rw [indicator_of_notMem hb, mul_zero]
      have e : (Prod.mk v ⁻¹' (Prod.mk u ⁻¹' ({t : ℝ × ℝ × ℝ | adAccepts d t.1 t.2.1 t.2.2} ∩
        (fun t => adCandidate d t.1 t.2.1) ⁻¹' B))) = ∅ := by
        ext w
        exact ⟨fun h => hb h.2, fun h => h.elim⟩
      rw [e, measure_empty]
  set m1 := ∫⁻ x in Ioc 0 1, ENNReal.ofReal (d * x ^ (d - 1) * Real.exp (-x)) * B.indicator 1 x with hm1
  set m2 := ∫⁻ x in Ioi 1, ENNReal.ofReal (Real.exp 1 * x ^ (d - 1) * Real.exp (-x)) * B.indicator 1 x with hm2
  have hout : ∀ u : ℝ, (unifM.prod unifM) (Prod.mk u ⁻¹' ({t : ℝ × ℝ × ℝ | adAccepts d t.1 t.2.1 t.2.2} ∩
        (fun t => adCandidate d t.1 t.2.1) ⁻¹' B)) = if u ≤ c then m1 else m2 := by
    intro u
    rw [Measure.prod_apply (measurable_prodMk_left hm)]
    have hu : ∀ f : ℝ → ℝ≥0∞, ∫⁻ v, f v ∂unifM = ∫⁻ v in Ioc 0 1, f v := fun f => rfl
    rw [hu, setLIntegral_congr_fun measurableSet_Ioc (hin u)]
    by_cases hu : u ≤ c
    · simp only [adCandidate, ← hc, if_pos hu]
      rw [lintegral_rpow h0]
      refine setLIntegral_congr_fun measurableSet_Ioc fun x hx => ?_
      have e : (x ^ d) ^ (1 / d) = x := by rw [← Real.rpow_mul hx.1.le, mul_one_div_cancel h0.ne', Real.rpow_one]
      simp only [e]
      rw [← mul_assoc, ← ENNReal.ofReal_mul (mul_nonneg h0.le (Real.rpow_nonneg hx.1.le _))]
    · simp only [adCandidate, ← hc, if_neg hu]
      rw [lintegral_exp 1]
      refine setLIntegral_congr_fun measurableSet_Ioi fun x hx => ?_
      simp only [Real.log_exp, _root_.sub_sub_cancel]
      rw [← mul_assoc, ← ENNReal.ofReal_mul (Real.exp_pos _).le]
      congr 2
      rw [sub_eq_add_neg, Real.exp_add]
      ring
  simp_rw [hout]
  have hmc : MeasurableSet (Iic c) := measurableSet_Iic
  have e1 : ∫⁻ u, (if u ≤ c then m1 else m2) ∂unifM = ENNReal.ofReal c * m1 + ENNReal.ofReal (1 - c) * m2 := by
    rw [← lintegral_add_compl _ hmc, setLIntegral_congr_fun (g := fun _ => m1) hmc (fun u hu => if_pos (mem_Iic.1 hu)),
      setLIntegral_congr_fun (g := fun _ => m2) hmc.compl (fun u hu => if_neg (show ¬ u ≤ c from hu)), setLIntegral_const, setLIntegral_const,
      prob_compl_eq_one_sub hmc, unifM_le hc1, mul_comm m1, mul_comm m2, ENNReal.ofReal_sub _ hc0, ENNReal.ofReal_one]
  rw [e1, hm1, hm2, gamma_apply hB, ← lintegral_const_mul _ (by fun_prop), ← lintegral_const_mul _ (by fun_prop),
    ← lintegral_const_mul _ (by fun_prop), ← Ioc_union_Ioi_eq_Ioi (zero_le_one' ℝ),
    lintegral_union measurableSet_Ioi (by
      rw [Set.disjoint_left]; intro x hx hx2; exact absurd hx.2 (not_le.2 hx2))]
  have hG := Real.Gamma_pos_of_pos h0
  congr 1
  · refine setLIntegral_congr_fun measurableSet_Ioc fun x hx => ?_
    rw [← mul_assoc, ← mul_assoc, ← ENNReal.ofReal_mul hc0, ← ENNReal.ofReal_mul (by positivity)]
    congr 2
    rw [Real.one_rpow, one_mul]
    field_simp
  · refine setLIntegral_congr_fun measurableSet_Ioi fun x hx => ?_
    rw [← mul_assoc, ← mul_assoc, ← ENNReal.ofReal_mul (by linarith), ← ENNReal.ofReal_mul (by positivity)]
    congr 2
    rw [Real.one_rpow, one_mul, hc]
    field_simp
    ring

end Rand
