import Verif.Proof.RandomGamma
import Verif.Proof.RandomPolar
import Verif.Proof.RandomCont

/-! # The procedures of `Spec/RandomLaw.lean` have their laws -/

namespace Rand
open MeasureTheory Spec ENNReal ProbabilityTheory

theorem samples_exp : Samples expSmp (gammaMeasure 1 1) := by
  have h := samples_next.map (f := fun u => -Real.log (1 - u)) (by fun_prop)
  rwa [exp_law] at h

theorem samples_expSum {F : Smp ℝ} {a : ℝ} (ha : 0 < a) (h : Samples F (gammaMeasure a 1)) (n : ℕ) :
    Samples (expSum F n) (gammaMeasure (a + n) 1) := by
  induction n with
  | zero => simpa [expSum] using h
  | succ n ih =>
    have := isProbabilityMeasure_gammaMeasure one_pos one_pos
    have han : 0 < a + n := by positivity
    have := isProbabilityMeasure_gammaMeasure han one_pos
    have h2 := (samples_exp.pair ih).map (f := fun p : ℝ × ℝ => p.1 + p.2) (by fun_prop)
    rw [gamma_add_exp han] at h2
    push_cast
    rw [← add_assoc]
    exact h2

theorem samples_expSum_zero (n : ℕ) : Samples (expSum (fun ω => (0, ω)) (n + 1)) (gammaMeasure ((n + 1 : ℕ) : ℝ) 1) := by
  have e : ∀ n, expSum (fun ω => (0, ω)) (n + 1) = expSum expSmp n := by
    intro n
    induction n with
    | zero =>
      funext ω
      show (_ + 0, _) = expSmp ω
      rw [add_zero]
      rfl
    | succ n ih =>
      funext ω
      show (_ + (expSum _ (n + 1) _).1, (expSum _ (n + 1) _).2) = _
      rw [ih]
      rfl
  rw [e]
  have := samples_expSum one_pos samples_exp n
  push_cast
  rwa [add_comm]

theorem oneMinus_law : (volume.restrict (Set.Icc (0 : ℝ) 1)).map (fun u => 1 - u) = unifM := by
  refine Measure.ext fun B hB => ?_
  have hm : Measurable fun u : ℝ => 1 - u := by fun_prop
  rw [Measure.map_apply hm hB, ← lintegral_indicator_one (hm hB), ← lintegral_indicator_one hB]
  exact lintegral_oneMinus (B.indicator 1)

theorem samples_triple : Samples triple (unifM.prod (unifM.prod unifM)) := by
  have h := samples_next.map (f := fun u => 1 - u) (by fun_prop)
  rw [oneMinus_law] at h
  exact h.pair (h.pair h)

theorem samples_ad {d : ℝ} (h0 : 0 < d) (h1 : d < 1) : Samples (adSmp d) (gammaMeasure d 1) := by
  have := isProbabilityMeasure_gammaMeasure h0 one_pos
  have hG := Real.Gamma_pos_of_pos h0
  refine samples_triple.reject (measurableSet_adAccepts d) (measurable_adCandidate d) (0, 0, 0)
    (p := ENNReal.ofReal (Real.exp 1 / (Real.exp 1 + d) * (d * Real.Gamma d))) ?_ fun B hB => ad_law h0 h1 hB
  rw [Ne, ENNReal.ofReal_eq_zero, not_le]
  positivity

theorem samples_gamma {k theta : ℝ} (hk : 0 < k) (ht : 0 < theta) :
    Samples (gammaSmp k theta) (gammaMeasure k (1 / theta)) := by
  have := isProbabilityMeasure_gammaMeasure hk one_pos
  have key : Samples (expSum (if k = ⌊k⌋ then fun ω => (0, ω) else adSmp (k - ⌊k⌋)) ⌊k⌋.toNat) (gammaMeasure k 1) := by
    have h0 : 0 ≤ ⌊k⌋ := Int.floor_nonneg.2 hk.le
    obtain ⟨n, hn⟩ := Int.eq_ofNat_of_zero_le h0
    have hnr : (⌊k⌋ : ℝ) = n := by rw [hn]; norm_cast
    have hnn : ⌊k⌋.toNat = n := by omega
    rw [hnn]
    by_cases hd : k = ⌊k⌋
    · rw [if_pos hd]
      rw [hnr] at hd
      cases n with
      | zero => simp at hd; linarith
      | succ n => rw [hd]; exact samples_expSum_zero n
    · rw [if_neg hd]
      have h1 : 0 < k - ⌊k⌋ := lt_of_le_of_ne (by linarith [Int.floor_le k]) (fun h => hd (by linarith))
      have h2 : k - ⌊k⌋ < 1 := by linarith [Int.lt_floor_add_one k]
      have := samples_expSum h1 (samples_ad h1 h2) n
      rw [← hnr, sub_add_cancel] at this
      exact this
  have := key.map (f := fun x => theta * x) (by fun_prop)
  rwa [gamma_scale ht] at this

theorem samples_square_normal :
    Samples (fun ω => (polarPoint (repeatUntil square disc (0, 0) ω).1, (repeatUntil square disc (0, 0) ω).2))
      ((gaussianReal 0 1).prod (gaussianReal 0 1)) := by
  set U := volume.restrict (Set.Icc (0 : ℝ) 1) with hU
  have hφ : Measurable fun p : ℝ × ℝ => (2 * p.1 - 1, 2 * p.2 - 1) := by fun_prop
  have hs : Samples square ((U.prod U).map fun p => (2 * p.1 - 1, 2 * p.2 - 1)) :=
    (samples_next.pair samples_next).map hφ
  have : IsProbabilityMeasure ((U.prod U).map fun p => (2 * p.1 - 1, 2 * p.2 - 1)) :=
    Measure.isProbabilityMeasure_map hφ.aemeasurable
  refine hs.reject measurableSet_disc measurable_polarPoint (0, 0) (p := ENNReal.ofReal (Real.pi / 4)) ?_ fun B hB => ?_
  · rw [Ne, ENNReal.ofReal_eq_zero, not_le]
    positivity
  · rw [Measure.map_apply hφ (measurableSet_disc.inter (measurable_polarPoint hB)), ← polar_law hB]
    rfl

theorem samples_normal (mean : ℝ) {stddev : ℝ} :
    Samples (normalSmp mean stddev) ((gaussianReal mean (stddev ^ 2).toNNReal).prod (gaussianReal mean (stddev ^ 2).toNNReal)) := by
  have hm : Measurable fun x : ℝ => mean + stddev * x := by fun_prop
  have h := samples_square_normal.map (f := Prod.map (fun x => mean + stddev * x) (fun x => mean + stddev * x))
    (hm.prodMap hm)
  rw [← Measure.map_prod_map _ _ hm hm] at h
  have e : (gaussianReal 0 1).map (fun x => mean + stddev * x) = gaussianReal mean (stddev ^ 2).toNNReal := by
    have : (fun x : ℝ => mean + stddev * x) = (fun x => mean + x) ∘ (fun x => stddev * x) := rfl
    rw [this, ← Measure.map_map (by fun_prop) (by fun_prop), gaussianReal_map_const_mul, gaussianReal_map_const_add]
    congr 1
    · simp
    · rw [mul_one, Real.toNNReal_of_nonneg (sq_nonneg stddev)]
  rwa [e] at h

theorem samples_studentT {r : ℝ} (hr : 0 < r) (left : Bool) :
    Samples (studentTSmp left r) (((gaussianReal 0 1).prod (gammaMeasure (r / 2) (1 / 2))).map
      fun p => p.1 * Real.sqrt (r / p.2)) := by
  have h2 : 0 < r / 2 := by positivity
  have := isProbabilityMeasure_gammaMeasure h2 (by norm_num : (0 : ℝ) < 1 / 2)
  have hy := samples_gamma h2 (two_pos (α := ℝ))
  have hx := (samples_normal 0 (stddev := 1)).map measurable_fst
  rw [Measure.map_fst_prod, measure_univ, one_smul] at hx
  have e : ((1 : ℝ) ^ 2).toNNReal = 1 := by simp
  rw [e] at hx
  have hm : Measurable fun p : ℝ × ℝ => p.1 * Real.sqrt (r / p.2) := by fun_prop
  cases left
  · have h := (hy.pair hx).map (f := fun p : ℝ × ℝ => p.2 * Real.sqrt (r / p.1)) (by fun_prop)
    rw [show (fun p : ℝ × ℝ => p.2 * Real.sqrt (r / p.1)) = (fun p : ℝ × ℝ => p.1 * Real.sqrt (r / p.2)) ∘ Prod.swap from rfl,
      ← Measure.map_map hm measurable_swap, Measure.prod_swap] at h
    exact h
  · exact (hx.pair hy).map hm

end Rand
