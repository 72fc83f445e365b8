import Verif.Proof.StatsVar
import Verif.Props.StatsDouble

/-! # Property C169: accuracy of variances and standard deviations in binary64 -/

namespace Stats
open Cpp

theorem mean_bound (xs : List ℚ) (hb : (xs.map abs).sum ≤ 2 ^ 400) : ∀ x ∈ xs, |x| ≤ 2 ^ 400 := by
  intro x hx
  refine le_trans ?_ hb
  refine List.single_le_sum ?_ _ (List.mem_map.2 ⟨x, hx, rfl⟩)
  intro y hy
  obtain ⟨z, _, rfl⟩ := List.mem_map.1 hy
  exact abs_nonneg z

/-- C169 (partial): for `double`s whose absolute values add up to at most 2^400, `variance` and the square of `stddev`
differ from the exact variance by at most a relative error of (n+6)/2^52, twice the square of the error of the mean,
and 2^-1071; `sample_variance` and the square of `sample_stddev` likewise with four times the square of the error of
the mean.  Missing: a relative error alone, which `C169_refuted` excludes. -/
theorem C169_double_partial (xs : List ℚ) (hd : ∀ x ∈ xs, fl x = x) (hl : xs.length < 2 ^ 31)
    (hb : (xs.map abs).sum ≤ 2 ^ 400) (unsigned : Bool) :
    (xs ≠ [] → ∃ q d, varianceCont .double (xs.map .fin) = .ok (Dbl.fin q) ∧
      stddevCont Rand.Libm.dbl.sqrt .double (xs.map .fin) = .ok (.fin d) ∧ 0 ≤ q ∧ 0 ≤ d ∧
      Spec.Within xs.length 2 (Spec.meanError xs) q (Spec.variance xs) ∧
      Spec.Within xs.length 2 (Spec.meanError xs) (d ^ 2) (Spec.variance xs)) ∧
    (2 ≤ xs.length → ∃ q d, sampleVarianceCont .double unsigned (xs.map .fin) = .ok (Dbl.fin q) ∧
      sampleStddevCont Rand.Libm.dbl.sqrt .double unsigned (xs.map .fin) = .ok (.fin d) ∧ 0 ≤ q ∧ 0 ≤ d ∧
      Spec.Within xs.length 4 (Spec.meanError xs) q (Spec.sampleVariance xs) ∧
      Spec.Within xs.length 4 (Spec.meanError xs) (d ^ 2) (Spec.sampleVariance xs)) := by
  have key : xs ≠ [] → ∃ m, meanCont .double (xs.map .fin) = .ok (Dbl.fin m) ∧ fl m = m ∧
      |m - Spec.mean xs| ≤ Spec.meanError xs ∧ ∀ x ∈ xs, |x - m| ≤ 2 ^ 440 := by
    intro hne
    obtain ⟨s, m, h1, h2, _, h4⟩ := C111_sum xs hd hne hl (hb.trans (pow_le_pow_right₀ (by norm_num) (by norm_num)))
    have hp := List.length_pos_iff.2 hne
    have hn1 : (1 : ℚ) ≤ xs.length := by exact_mod_cast hp
    have hmf : fl m = m := by
      have h3 := h2
      unfold meanCont at h3
      rw [h1, Out.ok_bind, List.length_map, cast_dbl (by rw [abs_of_pos (by omega)]; omega)] at h3
      have h5 : Dbl.fin s / Dbl.fin ((xs.length : Int) : ℚ) = .fin m := Out.ok.inj h3
      rw [Int.cast_natCast, div_dbl (by linarith)] at h5
      unfold Dbl.round at h5
      split_ifs at h5
      rw [← Dbl.fin.inj h5]
      exact fl_idem _
    have hA : Spec.mean (xs.map abs) = (xs.map abs).sum / xs.length := by unfold Spec.mean; rw [List.length_map]
    refine ⟨m, h2, hmf, by unfold Spec.meanError; rw [hA]; exact h4, fun x hx => ?_⟩
    have hx1 := mean_bound xs hb x hx
    have hS0 : 0 ≤ (xs.map abs).sum := List.sum_nonneg fun y hy => by
      obtain ⟨z, _, rfl⟩ := List.mem_map.1 hy
      exact abs_nonneg z
    have hA1 : (xs.map abs).sum / xs.length ≤ 2 ^ 400 := (div_le_self hS0 hn1).trans hb
    have hA0 : 0 ≤ (xs.map abs).sum / xs.length := div_nonneg hS0 (by linarith)
    have hM : |Spec.mean xs| ≤ (xs.map abs).sum / xs.length := by
      unfold Spec.mean
      rw [abs_div, Nat.abs_cast]
      gcongr
      clear * -
      induction xs with
      | nil => simp
      | cons y ys ih =>
        simp only [List.sum_cons, List.map_cons]
        exact (abs_add_le _ _).trans (by linarith)
    have hn : (xs.length : ℚ) ≤ 2 ^ 31 := by exact_mod_cast hl.le
    have hk : ((xs.length : ℚ) + 1) / 2 ^ 52 ≤ 1 := by
      rw [div_le_one (by norm_num)]
      exact (add_le_add_left hn 1).trans (by norm_num)
    have hk' := mul_le_mul_of_nonneg_right hk hA0
    have hη1 : (2 : ℚ) ^ (-1075 : Int) ≤ 1 := zpow_le_one_of_nonpos₀ (by norm_num) (by norm_num)
    have e1 : (2 : ℚ) ^ 440 = 2 ^ 40 * 2 ^ 400 := by rw [← pow_add]
    have e2 : (1 : ℚ) ≤ 2 ^ 400 := one_le_pow₀ (by norm_num)
    have h6 := abs_sub x m
    have h7 := abs_add_le (m - Spec.mean xs) (Spec.mean xs)
    rw [sub_add_cancel] at h7
    rw [e1]
    clear e1 h1 h2
    generalize (2 : ℚ) ^ (-1075 : Int) = η at *
    generalize (2 : ℚ) ^ 400 = B at *
    linarith
  have hz : ((0 : Int) : Dbl) = .fin 0 := by decide +kernel
  constructor
  · intro hne
    have hp := List.length_pos_iff.2 hne
    obtain ⟨m, h1, h2, h3, h4⟩ := key hne
    obtain ⟨q, d, h5, h6, h7, h8, h9, h10⟩ := within m h2 xs hne hd h4 hl xs.length (by omega) (by omega) 1 (.inl rfl)
      (by rw [one_mul, Int.cast_natCast]) _ h3
    have hv : varianceCont .double (xs.map .fin) = .ok (Dbl.fin q) := by
      unfold varianceCont squaresCont
      rw [h1, Out.ok_bind, hz, List.length_map, ← h5]
      rfl
    refine ⟨q, d, hv, ?_, h7, h8, ?_, ?_⟩
    · unfold stddevCont
      rw [hv, Out.ok_bind, h6]
    · rw [mul_one, Int.cast_natCast] at h9
      exact h9
    · rw [mul_one, Int.cast_natCast] at h10
      exact h10
  · intro hn
    have hne : xs ≠ [] := by rintro rfl; simp at hn
    obtain ⟨m, h1, h2, h3, h4⟩ := key hne
    have hn2 : (2 : ℚ) ≤ xs.length := by exact_mod_cast hn
    obtain ⟨q, d, h5, h6, h7, h8, h9, h10⟩ := within m h2 xs hne hd h4 hl ((xs.length : Int) - 1) (by omega) (by omega) 2
      (.inr rfl) (by push_cast; linarith) _ h3
    have e : sizeMinusOne unsigned xs.length = (xs.length : Int) - 1 := by
      unfold sizeMinusOne
      split_ifs
      · omega
      · rfl
    have hv : sampleVarianceCont .double unsigned (xs.map .fin) = .ok (Dbl.fin q) := by
      unfold sampleVarianceCont squaresCont
      rw [h1, Out.ok_bind, hz, List.length_map, e, ← h5]
      rfl
    have e4 : (2 : ℚ) * 2 = 4 := by norm_num
    have ec : (((xs.length : Int) - 1 : Int) : ℚ) = xs.length - 1 := by push_cast; ring
    rw [e4, ec] at h9 h10
    refine ⟨q, d, hv, ?_, h7, h8, h9, h10⟩
    unfold sampleStddevCont
    rw [hv, Out.ok_bind, h6]

/-- C169 (partial): for `int`s in containers, whose mean is off by at most 2^-53 of its value. -/
theorem C169_int_partial (xs : List Int) (hd : ∀ x ∈ xs, IsInt x) (hs : PartialSums xs) (hl : xs.length < 2 ^ 31)
    (unsigned : Bool) :
    (xs ≠ [] → ∃ q d, varianceCont .int xs = .ok (Dbl.fin q) ∧
      stddevCont Rand.Libm.dbl.sqrt .int xs = .ok (.fin d) ∧ 0 ≤ q ∧ 0 ≤ d ∧
      Spec.Within xs.length 2 (Spec.mean (cast xs) / 2 ^ 53) q (Spec.variance (cast xs)) ∧
      Spec.Within xs.length 2 (Spec.mean (cast xs) / 2 ^ 53) (d ^ 2) (Spec.variance (cast xs))) ∧
    (2 ≤ xs.length → ∃ q d, sampleVarianceCont .int unsigned xs = .ok (Dbl.fin q) ∧
      sampleStddevCont Rand.Libm.dbl.sqrt .int unsigned xs = .ok (.fin d) ∧ 0 ≤ q ∧ 0 ≤ d ∧
      Spec.Within xs.length 4 (Spec.mean (cast xs) / 2 ^ 53) q (Spec.sampleVariance (cast xs)) ∧
      Spec.Within xs.length 4 (Spec.mean (cast xs) / 2 ^ 53) (d ^ 2) (Spec.sampleVariance (cast xs))) := by
  have hI : INT_MAX = 2147483647 := rfl
  have hM : INT_MIN = -2147483648 := rfl
  have hz : ((0 : Int) : Dbl) = .fin 0 := by decide +kernel
  have hab : ∀ x : Int, IsInt x → |x| ≤ 2 ^ 31 := by
    intro x hx
    rw [abs_le]
    have := hx.1
    have := hx.2
    omega
  have hlen : (cast xs).length = xs.length := by simp [cast]
  have hdd : ∀ x ∈ cast xs, fl x = x := by
    intro x hx
    obtain ⟨i, hi, rfl⟩ := List.mem_map.1 hx
    exact fl_intZ ((hab i (hd i hi)).trans (by norm_num))
  have hfold : ∀ (m : ℚ) (s : Dbl), xs.foldl (fun s x => s + (((x : Int) : Dbl) - .fin m) * (((x : Int) : Dbl) - .fin m)) s =
      ((cast xs).map Dbl.fin).foldl (fun s x => s + (x - .fin m) * (x - .fin m)) s := by
    intro m
    clear hs hl hlen hdd
    induction xs with
    | nil => intro s; rfl
    | cons x xs ih =>
      intro s
      simp only [cast, List.map_cons, List.foldl_cons] at ih ⊢
      rw [cast_dbl ((hab x (hd x (by simp))).trans (by norm_num))]
      exact ih (fun y hy => hd y (by simp [hy])) _
  have key : xs ≠ [] → ∃ m, meanCont .int xs = .ok (Dbl.fin m) ∧ fl m = m ∧
      |m - Spec.mean (cast xs)| ≤ |Spec.mean (cast xs) / 2 ^ 53| ∧ ∀ x ∈ cast xs, |x - m| ≤ 2 ^ 440 := by
    intro hne
    have hp := List.length_pos_iff.2 hne
    have hn1 : (1 : ℚ) ≤ xs.length := by exact_mod_cast hp
    have hT := hs xs.length le_rfl
    rw [List.take_length] at hT
    have hTb := hab _ hT
    have hmean : Spec.mean (cast xs) = (xs.sum : Int) / xs.length := by
      unfold Spec.mean; rw [hlen, sum_cast]
    have hmb : |((xs.sum : Int) : ℚ) / xs.length| ≤ 2 ^ 31 := by
      rw [abs_div, Nat.abs_cast]
      refine (div_le_self (abs_nonneg _) hn1).trans ?_
      exact_mod_cast hTb
    have hrel : |fl (((xs.sum : Int) : ℚ) / xs.length) - ((xs.sum : Int) : ℚ) / xs.length| ≤
        |((xs.sum : Int) : ℚ) / xs.length / 2 ^ 53| := by
      by_cases h0 : xs.sum = 0
      · rw [h0]
        simp [fl_zero]
      have h1 : (1 : ℚ) ≤ |((xs.sum : Int) : ℚ)| := by exact_mod_cast Int.one_le_abs h0
      have hn : (xs.length : ℚ) ≤ 2 ^ 31 := by exact_mod_cast hl.le
      have h2 : 1 / 2 ^ 200 ≤ |((xs.sum : Int) : ℚ) / xs.length| := by
        rw [abs_div, Nat.abs_cast, div_le_div_iff₀ (by positivity) (by linarith), one_mul]
        calc (xs.length : ℚ) ≤ 2 ^ 31 := hn
          _ ≤ 1 * 2 ^ 200 := by norm_num
          _ ≤ _ := mul_le_mul_of_nonneg_right h1 (by positivity)
      rw [show ((xs.sum : Int) : ℚ) / xs.length / 2 ^ 53 = u * (((xs.sum : Int) : ℚ) / xs.length) by unfold u; ring,
        abs_mul, abs_of_pos u_pos]
      generalize ((xs.sum : Int) : ℚ) / xs.length = r at *
      rcases le_total 0 r with h3 | h3
      · rw [abs_of_nonneg h3] at h2 ⊢
        exact fl_rel h2
      · rw [abs_of_nonpos h3] at h2 ⊢
        have := fl_rel h2
        rwa [fl_neg, show -fl r - -r = -(fl r - r) by ring, abs_neg] at this
    refine ⟨fl (((xs.sum : Int) : ℚ) / xs.length), ?_, fl_idem _, by rw [hmean]; exact hrel, ?_⟩
    · unfold meanCont
      rw [sumI_eq xs hs, Out.ok_bind]
      show Out.ok (((xs.sum : Int) : Dbl) / ((xs.length : Int) : Dbl)) = _
      rw [cast_dbl (hTb.trans (by norm_num)), cast_dbl (by rw [abs_of_pos (by omega)]; omega), Int.cast_natCast,
        div_dbl (by linarith), round_small]
      exact hmb.trans (pow_le_pow_right₀ (by norm_num) (by norm_num))
    · intro x hx
      obtain ⟨i, hi, rfl⟩ := List.mem_map.1 hx
      have hi' : |(i : ℚ)| ≤ 2 ^ 31 := by exact_mod_cast hab i (hd i hi)
      have h6 := abs_sub (i : ℚ) (fl (((xs.sum : Int) : ℚ) / xs.length))
      have h7 := abs_add_le (fl (((xs.sum : Int) : ℚ) / xs.length) - ((xs.sum : Int) : ℚ) / xs.length)
        (((xs.sum : Int) : ℚ) / xs.length)
      rw [sub_add_cancel] at h7
      have h8 : |((xs.sum : Int) : ℚ) / xs.length / 2 ^ 53| ≤ |((xs.sum : Int) : ℚ) / xs.length| := by
        rw [abs_div, abs_of_pos (show (0 : ℚ) < 2 ^ 53 by norm_num)]
        exact div_le_self (abs_nonneg _) (by norm_num)
      have e1 : (2 : ℚ) ^ 33 ≤ 2 ^ 440 := pow_le_pow_right₀ (by norm_num) (by norm_num)
      refine le_trans ?_ e1
      clear e1
      linarith
  have hcne : xs ≠ [] → cast xs ≠ [] := cast_ne
  have habs : ∀ c a v, Spec.Within xs.length c |Spec.mean (cast xs) / 2 ^ 53| a v →
      Spec.Within xs.length c (Spec.mean (cast xs) / 2 ^ 53) a v := by
    intro c a v h
    unfold Spec.Within at h ⊢
    rwa [sq_abs] at h
  constructor
  · intro hne
    have hp := List.length_pos_iff.2 hne
    obtain ⟨m, h1, h2, h3, h4⟩ := key hne
    obtain ⟨q, d, h5, h6, h7, h8, h9, h10⟩ := within m h2 (cast xs) (hcne hne) hdd h4 (by omega) xs.length (by omega)
      (by omega) 1 (.inl rfl) (by rw [one_mul, Int.cast_natCast, hlen]) _ h3
    have hv : varianceCont .int xs = .ok (Dbl.fin q) := by
      unfold varianceCont squaresCont
      rw [h1, Out.ok_bind, hz, ← h5, ← hfold]
      rfl
    rw [hlen, mul_one] at h9 h10
    have ev : Spec.deviation (cast xs) / ((xs.length : Int) : ℚ) = Spec.variance (cast xs) := by
      unfold Spec.variance
      rw [hlen, Int.cast_natCast]
    rw [ev] at h9 h10
    refine ⟨q, d, hv, ?_, h7, h8, habs _ _ _ h9, habs _ _ _ h10⟩
    unfold stddevCont
    rw [hv, Out.ok_bind, h6]
  · intro hn
    have hne : xs ≠ [] := by rintro rfl; simp at hn
    obtain ⟨m, h1, h2, h3, h4⟩ := key hne
    have hn2 : (2 : ℚ) ≤ xs.length := by exact_mod_cast hn
    obtain ⟨q, d, h5, h6, h7, h8, h9, h10⟩ := within m h2 (cast xs) (hcne hne) hdd h4 (by omega) ((xs.length : Int) - 1)
      (by omega) (by omega) 2 (.inr rfl) (by rw [hlen]; push_cast; linarith) _ h3
    have e : sizeMinusOne unsigned xs.length = (xs.length : Int) - 1 := by
      unfold sizeMinusOne
      split_ifs
      · omega
      · rfl
    have hv : sampleVarianceCont .int unsigned xs = .ok (Dbl.fin q) := by
      unfold sampleVarianceCont squaresCont
      rw [h1, Out.ok_bind, hz, e, ← h5, ← hfold]
      rfl
    rw [hlen, show (2 : ℚ) * 2 = 4 by norm_num] at h9 h10
    have ev : Spec.deviation (cast xs) / (((xs.length : Int) - 1 : Int) : ℚ) = Spec.sampleVariance (cast xs) := by
      unfold Spec.sampleVariance
      rw [hlen]
      push_cast
      rfl
    rw [ev] at h9 h10
    refine ⟨q, d, hv, ?_, h7, h8, habs _ _ _ h9, habs _ _ _ h10⟩
    unfold sampleStddevCont
    rw [hv, Out.ok_bind, h6]

/-- C169 (partial): the same for arrays. -/
theorem C169_array_partial (arr : List ℚ) (size : Int) (h0 : 0 < size) (h : size ≤ arr.length) (hi : size ≤ INT_MAX) :
    let xs := arr.take size.toNat
    (∀ x ∈ xs, fl x = x) → (xs.map abs).sum ≤ 2 ^ 400 →
    (∃ q d, varianceDouble (arr.map .fin) size = .ok (Dbl.fin q) ∧
      stddevDouble Rand.Libm.dbl.sqrt (arr.map .fin) size = .ok (.fin d) ∧ 0 ≤ q ∧ 0 ≤ d ∧
      Spec.Within xs.length 2 (Spec.meanError xs) q (Spec.variance xs) ∧
      Spec.Within xs.length 2 (Spec.meanError xs) (d ^ 2) (Spec.variance xs)) ∧
    (2 ≤ size → ∃ q d, sampleVarianceArr .double (arr.map .fin) size = .ok (Dbl.fin q) ∧
      sampleStddevArr Rand.Libm.dbl.sqrt .double (arr.map .fin) size = .ok (.fin d) ∧ 0 ≤ q ∧ 0 ≤ d ∧
      Spec.Within xs.length 4 (Spec.meanError xs) q (Spec.sampleVariance xs) ∧
      Spec.Within xs.length 4 (Spec.meanError xs) (d ^ 2) (Spec.sampleVariance xs)) := by
  intro xs hd hb
  have hl : (xs.length : Int) = size := len_take arr h0.le h
  have hI : INT_MAX = 2147483647 := rfl
  obtain ⟨h1, h2⟩ := C169_double_partial xs hd (by omega) hb false
  have hm : (arr.map Dbl.fin).take size.toNat = xs.map Dbl.fin := (List.map_take).symm
  have hlen : size ≤ (arr.map Dbl.fin).length := by rw [List.length_map]; exact h
  unfold stddevDouble sampleStddevArr
  rw [varianceDouble_eq _ h0.le hlen, hm]
  refine ⟨h1 (by rintro he; rw [he] at hl; simp at hl; omega), fun hs => ?_⟩
  rw [sampleVarianceArr_eq _ _ h0.le hlen hi false (by simp), hm]
  exact h2 (by omega)

/-- C169 (partial): `sample_variance` and `sample_stddev` of `int` arrays. -/
theorem C169_int_array_partial (arr : List Int) (size : Int) (h2 : 2 ≤ size) (h : size ≤ arr.length)
    (hi : size ≤ INT_MAX) :
    let xs := arr.take size.toNat
    (∀ x ∈ xs, IsInt x) → PartialSums xs →
    ∃ q d, sampleVarianceArr .int arr size = .ok (Dbl.fin q) ∧
      sampleStddevArr Rand.Libm.dbl.sqrt .int arr size = .ok (.fin d) ∧ 0 ≤ q ∧ 0 ≤ d ∧
      Spec.Within xs.length 4 (Spec.mean (cast xs) / 2 ^ 53) q (Spec.sampleVariance (cast xs)) ∧
      Spec.Within xs.length 4 (Spec.mean (cast xs) / 2 ^ 53) (d ^ 2) (Spec.sampleVariance (cast xs)) := by
  intro xs hd hs
  have hl : (xs.length : Int) = size := len_take arr (by omega) h
  have hI : INT_MAX = 2147483647 := rfl
  unfold sampleStddevArr
  rw [sampleVarianceArr_eq _ _ (by omega) h hi false (by simp)]
  exact (C169_int_partial xs hd hs (by omega) false).2 (by omega)

/-- C169 refuted: no bound on the relative error holds (three equal numbers have a positive variance, and two different
numbers have the variance and standard deviation zero), and the variance can be infinite although the exact one is a
finite `double`. -/
theorem C169_refuted :
    (Spec.variance [tenth, tenth, tenth] = 0 ∧
      varianceCont .double [.fin tenth, .fin tenth, .fin tenth] = .ok (Dbl.fin (1 / 2 ^ 112))) ∧
    (Spec.variance [1 / 2 ^ 540, -1 / 2 ^ 540] = 1 / 2 ^ 1080 ∧
      varianceCont .double [.fin (1 / 2 ^ 540), .fin (-1 / 2 ^ 540)] = .ok (Dbl.fin 0)) ∧
    (Spec.variance [2 ^ 511, -2 ^ 511, 2 ^ 511, -2 ^ 511] = 2 ^ 1022 ∧ fl ((2 : ℚ) ^ 1022) = 2 ^ 1022 ∧
      varianceCont .double [.fin (2 ^ 511), .fin (-2 ^ 511), .fin (2 ^ 511), .fin (-2 ^ 511)] =
        .ok (Dbl.inf false)) := by
  decide +kernel

/-- the hypotheses are met, and here everything is exact up to one rounding -/
example : (∀ x ∈ [1, 2, 4, (5 : ℚ) / 2], fl x = x) ∧ ([1, 2, 4, (5 : ℚ) / 2].map abs).sum ≤ 2 ^ 400 ∧
    Spec.variance [1, 2, 4, 5 / 2] = 75 / 64 ∧
    varianceCont .double [.fin 1, .fin 2, .fin 4, .fin (5 / 2)] = .ok (Dbl.fin (75 / 64)) ∧
    sampleVarianceArr .double [.fin 1, .fin 2, .fin 4, .fin (5 / 2)] 4 = .ok (Dbl.fin (25 / 16)) := by decide +kernel
example : (∀ x ∈ [3, -4, (8 : Int)], IsInt x) ∧ PartialSums [3, -4, 8] := by
  refine ⟨by decide, ?_⟩
  intro k hk
  have : k < 4 := by simp at hk; omega
  interval_cases k <;> decide

end Stats
