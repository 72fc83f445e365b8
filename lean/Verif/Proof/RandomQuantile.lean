import Verif.Proof.RandomSmp
import Verif.Proof.RandomAgree
import Verif.Proof.RandomCount
import Verif.Props.RandomDiscrete

/-! # Lemmas about the inversion of distribution functions and about uniform numbers -/

namespace Rand
open MeasureTheory Spec ENNReal Cpp

variable {E : Engine}

/-- the quantile as a function of the number -/
noncomputable def quant (F : ℕ → ℝ) (u : ℝ) : ℕ := by
  classical exact if h : ∃ k, u < F k then Nat.find h else 0

theorem quantileSmp_eq (F : ℕ → ℝ) (ω : ℕ → ℝ) :
    quantileSmp F ω = ((quant F (next ω).1 : ℤ), (next ω).2) := by
  classical
  unfold quantileSmp quant next
  simp only
  split <;> simp

theorem quant_eq {F : ℕ → ℝ} {u : ℝ} {k : ℕ} (h : IsQuantile F u k) : quant F u = k := by
  classical
  have hex : ∃ k, u < F k := ⟨k, h.1⟩
  unfold quant
  rw [dif_pos hex]
  exact (Nat.find_eq_iff hex).2 ⟨h.1, h.2⟩

theorem quant_spec {F : ℕ → ℝ} {u : ℝ} (hex : ∃ k, u < F k) : IsQuantile F u (quant F u) := by
  classical
  unfold quant
  rw [dif_pos hex]
  exact ⟨Nat.find_spec hex, fun j hj => Nat.find_min hex hj⟩

/-- the interval of a value -/
theorem isQuantile_iff {F : ℕ → ℝ} (hF : Monotone F) {u : ℝ} (hu : 0 ≤ u) (k : ℕ) :
    IsQuantile F u k ↔ u ∈ Set.Ico (if k = 0 then 0 else F (k - 1)) (F k) := by
  unfold IsQuantile
  constructor
  · rintro ⟨h1, h2⟩
    refine ⟨?_, h1⟩
    split
    · exact hu
    · exact not_lt.1 (h2 _ (by omega))
  · rintro ⟨h1, h2⟩
    refine ⟨h2, fun j hj => ?_⟩
    rw [if_neg (by omega)] at h1
    exact not_lt.2 ((hF (by omega)).trans h1)

theorem measurable_quant {F : ℕ → ℝ} : Measurable (quant F) := by
  classical
  have hs : ∀ k, MeasurableSet {u | IsQuantile F u k} := by
    intro k
    have : {u | IsQuantile F u k} = Set.Iio (F k) ∩ ⋂ j ∈ Finset.range k, (Set.Iio (F j))ᶜ := by
      ext u
      simp [IsQuantile]
    rw [this]
    exact measurableSet_Iio.inter (Finset.measurableSet_biInter _ fun j _ => measurableSet_Iio.compl)
  have hn : MeasurableSet {u | ¬ ∃ k, u < F k} := by
    have : {u | ¬ ∃ k, u < F k} = (⋃ k, Set.Iio (F k))ᶜ := by
      ext u
      simp
    rw [this]
    exact (MeasurableSet.iUnion fun k => measurableSet_Iio).compl
  refine measurable_to_countable' fun k => ?_
  have : quant F ⁻¹' {k} = {u | IsQuantile F u k} ∪ ({u | ¬ ∃ k, u < F k} ∩ {u | k = 0}) := by
    ext u
    constructor
    · intro h
      have h : quant F u = k := h
      by_cases hex : ∃ k, u < F k
      · left
        show IsQuantile F u k
        rw [← h]
        exact quant_spec hex
      · right
        refine ⟨hex, ?_⟩
        unfold quant at h
        rw [dif_neg hex] at h
        exact h.symm
    · rintro (h | ⟨h, rfl⟩)
      · exact quant_eq h
      · show quant F u = 0
        unfold quant
        rw [dif_neg h]
  rw [this]
  exact (hs k).union (hn.inter (MeasurableSet.const _))

theorem quant_law (f : ℕ → ℝ) (h0 : ∀ k, 0 ≤ f k) (h1 : HasSum f 1) :
    (volume.restrict (Set.Icc (0 : ℝ) 1)).map (fun u => (quant (fun k => ∑ i ∈ Finset.range (k + 1), f i) u : ℤ))
      = massLaw f := by
  set F : ℕ → ℝ := fun k => ∑ i ∈ Finset.range (k + 1), f i with hF
  have hmono : Monotone F := cdf_mono f h0
  have hF0 : ∀ k, 0 ≤ F k := fun k => Finset.sum_nonneg fun i _ => h0 i
  have hF1 : ∀ k, F k ≤ 1 := fun k => sum_le_hasSum _ (fun i _ => h0 i) h1
  have ht : Filter.Tendsto F Filter.atTop (nhds 1) := (Filter.tendsto_add_atTop_iff_nat 1).2 h1.tendsto_sum_nat
  have hm : Measurable fun u => (quant F u : ℤ) := (measurable_from_top (f := fun n : ℕ => (n : ℤ))).comp measurable_quant
  -- the mass of every natural number
  have hmass : ∀ k : ℕ, (volume.restrict (Set.Icc (0 : ℝ) 1)) {u | quant F u = k} = ENNReal.ofReal (f k) := by
    intro k
    rw [← Measure.restrict_congr_set (Ico_ae_eq_Icc (a := (0 : ℝ)) (b := 1) (μ := volume))]
    have hset : MeasurableSet {u | quant F u = k} := measurable_quant (measurableSet_singleton k)
    rw [Measure.restrict_apply hset]
    have e : {u | quant F u = k} ∩ Set.Ico 0 1 = Set.Ico (if k = 0 then 0 else F (k - 1)) (F k) := by
      ext u
      constructor
      · rintro ⟨hu, h2, h3⟩
        have hu : quant F u = k := hu
        rw [← isQuantile_iff hmono h2, ← hu]
        exact quant_spec (ht.eventually (lt_mem_nhds h3)).exists
      · intro hu
        have hu0 : 0 ≤ u := by
          refine le_trans ?_ hu.1
          split
          · exact le_rfl
          · exact hF0 _
        exact ⟨quant_eq ((isQuantile_iff hmono hu0 k).2 hu), hu0, hu.2.trans_le (hF1 k)⟩
    rw [e, Real.volume_Ico, ← cdf_diff f k]
  refine Measure.ext_of_singleton fun z => ?_
  rw [Measure.map_apply hm (measurableSet_singleton z), massLaw, Measure.sum_apply _ (measurableSet_singleton z)]
  rcases lt_or_ge z 0 with hz | hz
  · have e : (fun u => (quant F u : ℤ)) ⁻¹' {z} = ∅ := by
      ext u
      simp only [Set.mem_preimage, Set.mem_singleton_iff, Set.mem_empty_iff_false, iff_false]
      omega
    rw [e, measure_empty, eq_comm, ENNReal.tsum_eq_zero]
    intro k
    rw [Measure.smul_apply, Measure.dirac_apply' _ (measurableSet_singleton z), Set.indicator_of_notMem, smul_zero]
    rw [Set.mem_singleton_iff]
    omega
  · obtain ⟨k, rfl⟩ := Int.eq_ofNat_of_zero_le hz
    have e : (fun u => (quant F u : ℤ)) ⁻¹' {(k : ℤ)} = {u | quant F u = k} := by
      ext u
      simp
    rw [e, hmass, tsum_eq_single k]
    · rw [Measure.smul_apply, Measure.dirac_apply' _ (measurableSet_singleton _), Set.indicator_of_mem (by simp)]
      simp
    · intro j hj
      rw [Measure.smul_apply, Measure.dirac_apply' _ (measurableSet_singleton _), Set.indicator_of_notMem, smul_zero]
      rw [Set.mem_singleton_iff]
      exact_mod_cast hj

theorem samples_quantile (f : ℕ → ℝ) (h0 : ∀ k, 0 ≤ f k) (h1 : HasSum f 1) :
    Samples (quantileSmp fun k => ∑ i ∈ Finset.range (k + 1), f i) (massLaw f) := by
  have hm : Measurable fun u => (quant (fun k => ∑ i ∈ Finset.range (k + 1), f i) u : ℤ) :=
    (measurable_from_top (f := fun n : ℕ => (n : ℤ))).comp measurable_quant
  have h := samples_next.map hm
  rw [quant_law f h0 h1] at h
  convert h using 2
  exact quantileSmp_eq _ _

theorem massLaw_prob (f : ℕ → ℝ) (h0 : ∀ k, 0 ≤ f k) (h1 : HasSum f 1) : IsProbabilityMeasure (massLaw f) := by
  have hm : Measurable fun u => (quant (fun k => ∑ i ∈ Finset.range (k + 1), f i) u : ℤ) :=
    (measurable_from_top (f := fun n : ℕ => (n : ℤ))).comp measurable_quant
  rw [← quant_law f h0 h1]
  exact Measure.isProbabilityMeasure_map hm.aemeasurable

/-! ### The code -/

theorem unitAt_first (s : E.σ) : unitAt E s 0 = ((E.draw s).1.val : ℝ) / (2 ^ 64 - 1) := rfl

theorem unitAt_tail (s : E.σ) : unitAt E (E.draw s).2 = fun i => unitAt E s (i + 1) := by
  have := unitAt_shift s 1
  exact this

theorem unitAt_lt_one {s : E.σ} (h : outAt E s 0 < 2 ^ 64 - 1) : unitAt E s 0 < 1 := by
  unfold unitAt
  rw [div_lt_one (by norm_num)]
  have : (outAt E s 0 : ℝ) < ((2 ^ 64 - 1 : ℕ) : ℝ) := by exact_mod_cast h
  refine this.trans_le ?_
  norm_num

/-- code that draws once and returns the quantile agrees with the inversion -/
theorem agrees_quantile {f : R E Int} {F : ℕ → ℝ}
    (hf : ∀ s v s', f s = .ok (v, s') → s' = (E.draw s).2 ∧
      (unitAt E s 0 < 1 → ∃ k : ℕ, v = k ∧ IsQuantile F (unitAt E s 0) k)) :
    Agrees f (quantileSmp F) := by
  intro s v s' h
  obtain ⟨h1, h2⟩ := hf s v s' h
  refine ⟨1, h1, fun hg => ?_⟩
  obtain ⟨k, rfl, hk⟩ := h2 (unitAt_lt_one (hg 0 (by omega)))
  rw [quantileSmp_eq]
  unfold next
  simp only
  rw [quant_eq hk, h1, unitAt_tail]

theorem agrees_poisson (lambda : ℝ) :
    Agrees (poissonNext ⟨lambda, Real.exp (-lambda)⟩ : R E Int) (quantileSmp (poissonCdf lambda)) := by
  refine agrees_quantile fun s v s' h => ?_
  unfold poissonNext at h
  rw [bind_run, nextDouble0_real] at h
  simp only [Out.bind] at h
  rw [lift_run] at h
  obtain ⟨w, hv, h⟩ := Out.bind_eq_ok.1 h
  cases h
  refine ⟨rfl, fun _ => ?_⟩
  have e1 : poissonCdf lambda 0 = Real.exp (-lambda) := by simp [poissonCdf]
  have e2 : poiPmf lambda 0 = Real.exp (-lambda) := by simp [poiPmf]
  obtain ⟨n, hn, hn1, hn2⟩ := poissonLoop_inv lambda (((E.draw s).1.val : ℝ) / (2 ^ 64 - 1))
    (poiPmf lambda) (poissonCdf lambda) (fun j => poiPmf_succ lambda j) (poiCdf_succ lambda) 0 (2 ^ 31)
    (by omega) v (by rw [e1, e2, Nat.cast_zero]; exact hv)
  exact ⟨n, hn, not_le.1 hn1, fun j hj => not_lt.2 (hn2 j hj)⟩

theorem agrees_negBinomial (r : Nat) (hr : 0 < r) (p : ℝ) :
    Agrees (negBinomialNext ⟨r, p, p ^ r⟩ : R E Int) (quantileSmp (negBinomialCdf r p)) := by
  refine agrees_quantile fun s v s' h => ?_
  unfold negBinomialNext at h
  rw [bind_run, nextDouble0_real] at h
  simp only [Out.bind] at h
  rw [lift_run] at h
  obtain ⟨w, hv, h⟩ := Out.bind_eq_ok.1 h
  cases h
  refine ⟨rfl, fun _ => ?_⟩
  obtain ⟨e1, e2⟩ := negCdf_zero r p
  obtain ⟨n, hn, hn1, hn2⟩ := negBinomialLoop_inv (r : Int) (1 - p) (((E.draw s).1.val : ℝ) / (2 ^ 64 - 1))
    (negPmf r p) (negBinomialCdf r p) (fun j => negPmf_succ r hr p j) (negCdf_succ r p) 0 (2 ^ 31)
    (by omega) v (by rw [e1, e2]; push_cast at hv ⊢; exact hv)
  exact ⟨n, hn, not_le.1 hn1, fun j hj => not_lt.2 (hn2 j hj)⟩

theorem poisson_hasSum (lambda : ℝ) :
    HasSum (fun k : ℕ => lambda ^ k * Real.exp (-lambda) / (k.factorial : ℝ)) 1 := by
  have h := (NormedSpace.expSeries_div_hasSum_exp (𝔸 := ℝ) lambda).mul_left (Real.exp (-lambda))
  rw [← Real.exp_eq_exp_ℝ, ← Real.exp_add] at h
  simp only [neg_add_cancel, Real.exp_zero] at h
  have e : (fun k : ℕ => lambda ^ k * Real.exp (-lambda) / (k.factorial : ℝ)) =
      fun k : ℕ => Real.exp (-lambda) * (lambda ^ k / (k.factorial : ℝ)) := by
    funext k
    ring
  rwa [e]

theorem negBinomial_hasSum (r : Nat) (hr : 0 < r) (p : ℝ) (h0 : 0 < p) (h1 : p ≤ 1) :
    HasSum (fun k : ℕ => ((k + r - 1).choose (r - 1) : ℝ) * p ^ r * (1 - p) ^ k) 1 := by
  obtain ⟨n, rfl⟩ : ∃ n, r = n + 1 := ⟨r - 1, by omega⟩
  have hq : ‖1 - p‖ < 1 := by rw [Real.norm_eq_abs, abs_lt]; constructor <;> linarith
  have h := (hasSum_choose_mul_geometric_of_norm_lt_one n hq).mul_left (p ^ (n + 1))
  have e : p ^ (n + 1) * (1 / (1 - (1 - p)) ^ (n + 1)) = 1 := by
    rw [_root_.sub_sub_cancel, mul_one_div, div_self (by positivity)]
  rw [e] at h
  have e2 : (fun k : ℕ => ((k + (n + 1) - 1).choose (n + 1 - 1) : ℝ) * p ^ (n + 1) * (1 - p) ^ k) =
      fun k : ℕ => p ^ (n + 1) * (((k + n).choose n : ℝ) * (1 - p) ^ k) := by
    funext k
    have : k + (n + 1) - 1 = k + n := by omega
    rw [this, Nat.add_sub_cancel]
    ring
  rwa [e2]

theorem binomial_hasSum (n : Nat) (p : ℝ) :
    HasSum (fun k : ℕ => (n.choose k : ℝ) * p ^ k * (1 - p) ^ (n - k)) 1 := by
  have h : HasSum (fun k : ℕ => (n.choose k : ℝ) * p ^ k * (1 - p) ^ (n - k))
      (∑ k ∈ Finset.range (n + 1), (n.choose k : ℝ) * p ^ k * (1 - p) ^ (n - k)) := by
    refine hasSum_sum_of_ne_finset_zero fun k hk => ?_
    rw [Finset.mem_range, not_lt] at hk
    rw [Nat.choose_eq_zero_of_lt (by omega)]
    simp
  have e := binomialCdf_last n p
  unfold binomialCdf at e
  rwa [e] at h

theorem agrees_uniform (min max : ℝ) (h : min ≤ max) :
    Agrees (uniformNext (min, max) : R E ℝ) (uniformSmp min max) := by
  intro s v s' hr
  unfold uniformNext nextDouble2 at hr
  rw [if_neg (not_lt.2 h), bind_run, draw_run] at hr
  simp only [Out.bind, pure_run] at hr
  cases hr
  refine ⟨1, rfl, fun _ => ?_⟩
  unfold uniformSmp
  rw [unitAt_tail, unitAt_first]
  congr 1
  norm_num

theorem agrees_bernoulli (p : ℝ) : Agrees (bernoulliNext p : R E Bool) (belowSmp p) := by
  intro s v s' hr
  unfold bernoulliNext at hr
  rw [bind_run, nextDouble0_real] at hr
  simp only [Out.bind, pure_run] at hr
  cases hr
  refine ⟨1, rfl, fun _ => ?_⟩
  unfold belowSmp
  rw [unitAt_tail, unitAt_first]

theorem uniform_law {min max : ℝ} (h : min < max) :
    (volume.restrict (Set.Icc (0 : ℝ) 1)).map (fun u => u * (max - min) + min) =
      ENNReal.ofReal (1 / (max - min)) • volume.restrict (Set.Icc min max) := by
  have hd : 0 < max - min := by linarith
  have hm : Measurable fun u : ℝ => u * (max - min) + min := by fun_prop
  have h1 : (volume : Measure ℝ).map (fun u => u * (max - min) + min) =
      ENNReal.ofReal (1 / (max - min)) • volume := by
    have e : (fun u : ℝ => u * (max - min) + min) = (fun u => u + min) ∘ fun u => u * (max - min) := rfl
    rw [e, ← Measure.map_map (by fun_prop) (by fun_prop), Real.map_volume_mul_right hd.ne', Measure.map_smul,
      map_add_right_eq_self, abs_of_pos (inv_pos.2 hd), one_div]
  have hpre : (fun u : ℝ => u * (max - min) + min) ⁻¹' Set.Icc min max = Set.Icc 0 1 := by
    ext u
    simp only [Set.mem_preimage, Set.mem_Icc]
    constructor
    · rintro ⟨a, b⟩
      constructor
      · by_contra hc
        nlinarith
      · by_contra hc
        nlinarith
    · rintro ⟨a, b⟩
      constructor <;> nlinarith
  rw [← hpre, ← Measure.restrict_map hm measurableSet_Icc, h1, Measure.restrict_smul]

theorem samples_uniform {min max : ℝ} (h : min < max) :
    Samples (uniformSmp min max) (ENNReal.ofReal (1 / (max - min)) • volume.restrict (Set.Icc min max)) := by
  have hs := samples_next.map (f := fun u => u * (max - min) + min) (by fun_prop)
  rwa [uniform_law h] at hs

theorem below_law {p : ℝ} (h0 : 0 ≤ p) (h1 : p ≤ 1) [∀ u : ℝ, Decidable (u < p)] :
    (volume.restrict (Set.Icc (0 : ℝ) 1)).map (fun u => decide (u < p)) =
      ENNReal.ofReal p • Measure.dirac true + ENNReal.ofReal (1 - p) • Measure.dirac false := by
  have hm : Measurable fun u : ℝ => decide (u < p) := by
    refine measurable_to_bool ?_
    have : (fun u : ℝ => decide (u < p)) ⁻¹' {true} = Set.Iio p := by ext; simp
    rw [this]
    exact measurableSet_Iio
  refine Measure.ext_of_singleton fun z => ?_
  rw [Measure.map_apply hm (measurableSet_singleton z)]
  cases z
  · have e : (fun u : ℝ => decide (u < p)) ⁻¹' {false} = Set.Ici p := by ext; simp
    rw [e, Measure.restrict_apply measurableSet_Ici]
    have e2 : Set.Ici p ∩ Set.Icc 0 1 = Set.Icc p 1 := by
      ext u
      simp only [Set.mem_inter_iff, Set.mem_Ici, Set.mem_Icc]
      constructor
      · rintro ⟨a, b, c⟩; exact ⟨a, c⟩
      · rintro ⟨a, b⟩; exact ⟨a, h0.trans a, b⟩
    rw [e2, Real.volume_Icc]
    simp
  · have e : (fun u : ℝ => decide (u < p)) ⁻¹' {true} = Set.Iio p := by ext; simp
    rw [e, Measure.restrict_apply measurableSet_Iio]
    have e2 : Set.Iio p ∩ Set.Icc 0 1 = Set.Ico 0 p := by
      ext u
      simp only [Set.mem_inter_iff, Set.mem_Iio, Set.mem_Icc, Set.mem_Ico]
      constructor
      · rintro ⟨a, b, c⟩; exact ⟨b, a⟩
      · rintro ⟨a, b⟩; exact ⟨b, a, b.le.trans h1⟩
    rw [e2, Real.volume_Ico]
    simp

theorem samples_below {p : ℝ} (h0 : 0 ≤ p) (h1 : p ≤ 1) :
    Samples (belowSmp p) (ENNReal.ofReal p • Measure.dirac true + ENNReal.ofReal (1 - p) • Measure.dirac false) := by
  classical
  have hm : Measurable fun u : ℝ => decide (u < p) := by
    refine measurable_to_bool ?_
    have : (fun u : ℝ => decide (u < p)) ⁻¹' {true} = Set.Iio p := by ext; simp
    rw [this]
    exact measurableSet_Iio
  have hs := samples_next.map hm
  rw [below_law h0 h1] at hs
  have e : belowSmp p = fun ω => (decide ((next ω).1 < p), (next ω).2) := by
    funext ω
    unfold belowSmp next
    simp
  rwa [e]

end Rand
