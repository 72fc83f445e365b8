import Verif.Proof.Stats
import Mathlib.Tactic.IntervalCases

/-! # Property C28: statistics (exact arithmetic) -/

namespace Stats
open Cpp

/-- C28: sum, mean and variances of the first `size` of an array of `double`s follow the textbook definitions. -/
theorem C28_double (arr : List ℚ) (size : Int) (h0 : 0 < size) (h : size ≤ arr.length) (hi : size ≤ INT_MAX) :
    let xs := arr.take size.toNat
    sumArr (D := ℚ) .double arr size = .ok xs.sum ∧ meanArr .double arr size = .ok (Spec.mean xs) ∧
    varianceDouble arr size = .ok (Spec.variance xs) ∧
    (2 ≤ size → sampleVarianceArr .double arr size = .ok (Spec.sampleVariance xs)) := by
  intro xs
  have hm : meanCont (D := ℚ) .double xs = .ok (Spec.mean xs) := by
    have := meanCont_eq (.double : Elem ℚ ℚ) xs xs.sum (sumD_eq xs) (by simp [Elem.double])
    simpa [Elem.double] using this
  have hm' : meanCont (D := ℚ) .double xs = .ok (Spec.mean (xs.map (Elem.double : Elem ℚ ℚ).conv)) := by
    rw [hm]; simp [Elem.double]
  have hl : (xs.length : Int) = size := len_take arr h0.le h
  have hI : INT_MAX = 2147483647 := rfl
  refine ⟨?_, ?_, ?_, fun h2 => ?_⟩
  · rw [sumArr_eq _ arr h, sumD_eq]
  · rw [meanArr_eq _ arr h0.le h, hm]
  · rw [varianceDouble_eq arr h0.le h, varianceCont_eq _ xs hm']
    simp [Elem.double]
  · rw [sampleVarianceArr_eq _ arr h0.le h hi false (by simp),
      sampleVarianceCont_eq _ false xs (by omega) (by omega) hm']
    simp [Elem.double]

/-- C28: the same for containers of `double`s; `size()` may count in `size_t` or in `int`. -/
theorem C28_container (xs : List ℚ) (h : xs ≠ []) (hl : xs.length < 2 ^ 64) (u : Bool) :
    sumCont (D := ℚ) .double xs = .ok xs.sum ∧ meanCont (D := ℚ) .double xs = .ok (Spec.mean xs) ∧
    varianceCont (D := ℚ) .double xs = .ok (Spec.variance xs) ∧
    (2 ≤ xs.length → sampleVarianceCont (D := ℚ) .double u xs = .ok (Spec.sampleVariance xs)) ∧
    0 ≤ Spec.variance xs ∧ (Spec.variance xs = 0 ↔ ∀ x ∈ xs, ∀ y ∈ xs, x = y) := by
  have hm' : meanCont (D := ℚ) .double xs = .ok (Spec.mean (xs.map (Elem.double : Elem ℚ ℚ).conv)) :=
    meanCont_eq (.double : Elem ℚ ℚ) xs xs.sum (sumD_eq xs) (by simp [Elem.double])
  have he : xs.map (Elem.double : Elem ℚ ℚ).conv = xs := by simp [Elem.double]
  refine ⟨sumD_eq xs, ?_, ?_, fun h2 => ?_, variance_nonneg xs, variance_zero xs h⟩
  · rw [hm', he]
  · rw [varianceCont_eq _ xs hm', he]
  · rw [sampleVarianceCont_eq _ u xs h2 hl hm', he]

example : varianceDouble [1, 2, 3, 4, 77] 4 = .ok (5 / 4 : ℚ) ∧
    sampleVarianceArr (D := ℚ) .double [1, 2, 3, 4, 77] 4 = .ok (5 / 3) := by
  decide +kernel
example : varianceCont (D := ℚ) .double [3, 3, 3] = .ok 0 := by decide +kernel

/-- C28: the same for `int`s, as long as the partial sums are `int`s; the array version of `variance`
in addition needs all squares to be `int`s.  Missing: arrays with larger elements, see the refutation. -/
theorem C28_int_partial (arr : List Int) (size : Int) (h0 : 0 < size) (h : size ≤ arr.length) (hi : size ≤ INT_MAX)
    (hs : PartialSums (arr.take size.toNat)) :
    let xs := arr.take size.toNat
    sumArr (D := ℚ) .int arr size = .ok xs.sum ∧ meanArr (D := ℚ) .int arr size = .ok (Spec.mean (cast xs)) ∧
    varianceCont (D := ℚ) .int xs = .ok (Spec.variance (cast xs)) ∧
    (2 ≤ size → sampleVarianceArr (D := ℚ) .int arr size = .ok (Spec.sampleVariance (cast xs)) ∧
      ∀ u, sampleVarianceCont (D := ℚ) .int u xs = .ok (Spec.sampleVariance (cast xs))) ∧
    ((∀ x ∈ xs, IsInt (x * x)) → varianceInt (D := ℚ) arr size = .ok (Spec.variance (cast xs))) := by
  intro xs
  have hm := meanI_eq xs hs
  have hl : (xs.length : Int) = size := len_take arr h0.le h
  have hI : INT_MAX = 2147483647 := rfl
  have hsv : ∀ u, 2 ≤ size → sampleVarianceCont (D := ℚ) .int u xs = .ok (Spec.sampleVariance (cast xs)) :=
    fun u h2 => sampleVarianceCont_eq _ u xs (by omega) (by omega) hm
  refine ⟨?_, ?_, varianceCont_eq _ xs hm, fun h2 => ⟨?_, fun u => hsv u h2⟩, varianceI_eq arr h0 h hs⟩
  · rw [sumArr_eq _ arr h, sumI_eq xs hs]
  · rw [meanArr_eq _ arr h0.le h, hm]
  · rw [sampleVarianceArr_eq _ arr h0.le h hi false (by simp), hsv false h2]

example : PartialSums ([1, 2, 3, 4, 5].take 4) ∧ ∀ x ∈ [1, 2, 3, 4], IsInt (x * x) := by
  refine ⟨?_, by decide⟩
  intro k hk
  have : k < 5 := by simp at hk; omega
  interval_cases k <;> decide
example : varianceInt [1, 2, 3, 4, 5] 4 = .ok (5 / 4 : ℚ) := by decide +kernel

/-- C28: `sum` with a function adds up the values of the function. -/
theorem C28_fn {A : Type} (fn : A → Int) (gn : A → ℚ) (arr : List A) (size : Int) (h : size ≤ arr.length) :
    sumFnArr (D := ℚ) .double gn arr size = .ok ((arr.take size.toNat).map gn).sum ∧
    sumFnCont (D := ℚ) .double gn arr = .ok (arr.map gn).sum ∧
    (PartialSums ((arr.take size.toNat).map fn) →
      sumFnArr (D := ℚ) .int fn arr size = .ok ((arr.take size.toNat).map fn).sum) ∧
    (PartialSums (arr.map fn) → sumFnCont (D := ℚ) .int fn arr = .ok (arr.map fn).sum) := by
  refine ⟨?_, ?_, fun hp => ?_, fun hp => ?_⟩
  · rw [sumFnArr_eq _ _ arr h, sumFnCont_eq, sumD_eq]
  · rw [sumFnCont_eq, sumD_eq]
  · rw [sumFnArr_eq _ _ arr h, sumFnCont_eq, sumI_eq _ hp]
  · rw [sumFnCont_eq, sumI_eq _ hp]

example : sumFnArr (D := ℚ) .double (fun i : Int => (i : ℚ) / 2) [1, 2, 4, 3] 4 = .ok 5 := by decide +kernel

/-- C28, standard deviations: `stddev` is the square root (as computed by the routine `sqrt`) of the variance, and
`sample_stddev` that of the sample variance, for arrays and containers, of doubles and (without overflow) of ints. -/
theorem C28_stddev (sqrt : ℚ → ℚ) (arr : List ℚ) (iarr : List Int) (size : Int) (h0 : 0 < size) (hi : size ≤ INT_MAX)
    (u : Bool) :
    (size ≤ arr.length →
      let xs := arr.take size.toNat
      stddevDouble sqrt arr size = .ok (sqrt (Spec.variance xs)) ∧
      (2 ≤ size → sampleStddevArr sqrt .double arr size = .ok (sqrt (Spec.sampleVariance xs)))) ∧
    (size ≤ iarr.length → PartialSums (iarr.take size.toNat) →
      let xs := iarr.take size.toNat
      stddevCont sqrt .int xs = .ok (sqrt (Spec.variance (cast xs))) ∧
      ((∀ x ∈ xs, IsInt (x * x)) → stddevInt sqrt iarr size = .ok (sqrt (Spec.variance (cast xs)))) ∧
      (2 ≤ size → sampleStddevArr sqrt .int iarr size = .ok (sqrt (Spec.sampleVariance (cast xs))) ∧
        sampleStddevCont sqrt .int u xs = .ok (sqrt (Spec.sampleVariance (cast xs))))) ∧
    (arr ≠ [] → arr.length < 2 ^ 64 →
      stddevCont sqrt .double arr = .ok (sqrt (Spec.variance arr)) ∧
      (2 ≤ arr.length → sampleStddevCont sqrt .double u arr = .ok (sqrt (Spec.sampleVariance arr)))) := by
  refine ⟨fun h => ?_, fun h hs => ?_, fun h hl => ?_⟩
  · obtain ⟨_, _, h3, h4⟩ := C28_double arr size h0 h hi
    refine ⟨?_, fun h2 => ?_⟩
    · unfold stddevDouble; rw [h3]; rfl
    · unfold sampleStddevArr; rw [h4 h2]; rfl
  · obtain ⟨_, _, h3, h4, h5⟩ := C28_int_partial iarr size h0 h hi hs
    refine ⟨?_, fun hq => ?_, fun h2 => ⟨?_, ?_⟩⟩
    · unfold stddevCont; rw [h3]; rfl
    · unfold stddevInt; rw [h5 hq]; rfl
    · unfold sampleStddevArr; rw [(h4 h2).1]; rfl
    · unfold sampleStddevCont; rw [(h4 h2).2 u]; rfl
  · obtain ⟨_, _, h3, h4, _, _⟩ := C28_container arr h hl u
    refine ⟨?_, fun h2 => ?_⟩
    · unfold stddevCont; rw [h3]; rfl
    · unfold sampleStddevCont; rw [h4 h2]; rfl

example : PartialSums ([3, -5, 7] : List Int) ∧ (∀ x ∈ ([3, -5, 7] : List Int), IsInt (x * x)) := by
  refine ⟨?_, by decide⟩
  intro k hk
  have : k ≤ 3 := hk
  interval_cases k <;> decide

/-- C28 refuted for `int` arrays: one element 50000 makes `variance` undefined (the `int` square
overflows) though the variance is 0 and the container version returns it. -/
theorem C28_int_refuted :
    varianceInt (D := ℚ) [50000] 1 = .ub ∧ varianceCont (D := ℚ) .int [50000] = .ok 0 ∧
    Spec.variance [50000] = 0 := by
  refine ⟨by decide +kernel, by decide +kernel, by decide +kernel⟩

end Stats
