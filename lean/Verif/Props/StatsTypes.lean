import Verif.Proof.StatsTypes
import Mathlib.Tactic.NormNum

namespace Stats
open Cpp GcdTypes Spec FactTypes.Spec

/-! # C189: sum, mean and variance of other arithmetic types -/

/-- If the sum fits (`Fits`: the total; for `int` and the signed 64-bit type also the sums on the way), then for elements of every
integer type `sum` is the total, and in exact numbers `mean`, `variance` and `sample_variance` are the textbook values. -/
theorem C189_partial (t : ITy) (xs : List Int) (u : Bool) (hn : xs.length < 2 ^ 64) (hv : Values t xs) (h : Fits t xs) :
    sumCont (D := ℚ) (.ofType t) xs = .ok xs.sum ∧
    meanCont (D := ℚ) (.ofType t) xs = .ok (mean (nums xs)) ∧
    varianceCont (D := ℚ) (.ofType t) xs = .ok (variance (nums xs)) ∧
    (2 ≤ xs.length → sampleVarianceCont (D := ℚ) (.ofType t) u xs = .ok (sampleVariance (nums xs))) :=
  ⟨sum_right xs hv h, mean_right xs hv h, varianceCont_eq _ xs (mean_right xs hv h),
    fun h2 => sampleVarianceCont_eq _ u xs h2 hn (mean_right xs hv h)⟩

example : Values .i8 [100, 100, -90, -90] ∧ Fits .i8 [100, 100, -90, -90] ∧ ¬ SumsFit .i8 [100, 100, -90, -90] := by
  decide

/-- The same for arrays (`variance` of arrays exists for `int` and `double` only). -/
theorem C189_array_partial (t : ITy) (arr : List Int) (size : Int) (h0 : 0 ≤ size) (hs : size ≤ arr.length)
    (hv : Values t (arr.take size.toNat)) (h : Fits t (arr.take size.toNat)) :
    sumArr (D := ℚ) (.ofType t) arr size = .ok (arr.take size.toNat).sum ∧
    meanArr (D := ℚ) (.ofType t) arr size = .ok (mean (nums (arr.take size.toNat))) := by
  rw [sumArr_eq _ arr hs, meanArr_eq _ arr h0 hs]
  exact ⟨sum_right _ hv h, mean_right _ hv h⟩

example : Values .u16 ([60000, 5000, 7].take (2 : Int).toNat) ∧ Fits .u16 ([60000, 5000, 7].take (2 : Int).toNat) := by decide

/-- What happens otherwise: in `int` and the signed 64-bit type the program is undefined, in all the other types the sum is the
total modulo 2^bits, and `mean` divides that. -/
theorem C189_exact_partial (t : ITy) (xs : List Int) (hv : Values t xs) (h : ¬ Fits t xs) :
    ((t = .i32 ∨ t = .i64) → sumCont (D := ℚ) (.ofType t) xs = .ub ∧ meanCont (D := ℚ) (.ofType t) xs = .ub ∧
      varianceCont (D := ℚ) (.ofType t) xs = .ub) ∧
    (Wraps t → ∃ s : Int, s ≠ xs.sum ∧ t.In s ∧ (2 : Int) ^ t.bits ∣ s - xs.sum ∧
      sumCont (D := ℚ) (.ofType t) xs = .ok s ∧
      meanCont (D := ℚ) (.ofType t) xs = .ok ((s : ℚ) / xs.length)) := by
  constructor
  · intro ht
    have hu : sumCont (D := ℚ) (.ofType t) xs = .ub := by
      rcases ht with rfl | rfl
      · exact sum_overflow rfl rfl xs h
      · exact sum_overflow rfl rfl xs h
    have hm : meanCont (D := ℚ) (.ofType t) xs = .ub := by
      unfold meanCont; rw [hu]; rfl
    refine ⟨hu, hm, ?_⟩
    unfold varianceCont; rw [hm]; rfl
  · intro hw
    have hs := sum_wraps (D := ℚ) hw xs hv
    refine ⟨_, fun e => h ?_, FactTypes.conv_in t _, FactTypes.conv_dvd t _, hs, ?_⟩
    · have hi := FactTypes.conv_in t xs.sum
      rw [e] at hi
      revert hw hi; cases t <;> simp [Fits, Wraps]
    · unfold meanCont
      rw [hs, Out.ok_bind]
      simp [Elem.ofType]

example : Values .u8 [200, 100] ∧ ¬ Fits .u8 [200, 100] ∧ Values .i32 [2147483647, 1] ∧ ¬ Fits .i32 [2147483647, 1] := by
  decide

/-- Whenever the total of at least one value does not fit, the mean is not the mean, in every integer type. -/
theorem C189_mean_all_refuted (t : ITy) (xs : List Int) (hv : Values t xs) (h : ¬ Fits t xs) :
    meanCont (D := ℚ) (.ofType t) xs ≠ .ok (mean (nums xs)) := by
  obtain ⟨h1, h2⟩ := C189_exact_partial t xs hv h
  by_cases hw : Wraps t
  · obtain ⟨s, hne, hin, -, -, hm⟩ := h2 hw
    rw [hm]
    intro e
    have e := Out.ok.inj e
    have hl : xs ≠ [] := by
      rintro rfl
      apply h
      revert hw; cases t <;> simp [Fits, Wraps] <;> decide
    have hl' := len_ne hl
    rw [mean, ← sum_nums] at e
    have hlen : (nums xs).length = xs.length := by simp [nums]
    rw [hlen, div_left_inj' hl'] at e
    exact hne (by exact_mod_cast e)
  · have ht : t = .i32 ∨ t = .i64 := by
      revert hw; cases t <;> simp [Wraps]
    rw [(h1 ht).2.1]
    exact fun e => nomatch e

example : Values .i16 [32767, 32767] ∧ ¬ Fits .i16 [32767, 32767] := by decide

/-- Small containers refute the claim: the mean of the bytes 200 and 100 is 22 and their variance 18884 instead of 150 and 2500;
and a sum of `int`s is undefined although the total is an `int`. -/
theorem C189_refuted :
    meanCont (D := ℚ) (.ofType .u8) [200, 100] = .ok 22 ∧ mean (nums [200, 100]) = 150 ∧
    varianceCont (D := ℚ) (.ofType .u8) [200, 100] = .ok 18884 ∧ variance (nums [200, 100]) = 2500 ∧
    sumCont (D := ℚ) (.ofType .i32) [2147483647, 1, -1] = .ub := by
  refine ⟨by decide +kernel, by decide +kernel, by decide +kernel, by decide +kernel, by decide +kernel⟩

/-- Of `bool`s `sum` is whether there is one that is true, so the mean is 1/n or 0; it is the mean exactly if at most one of them is
true. -/
theorem C189_bool_partial (bs : List Bool) :
    sumCont (D := ℚ) .bool bs = .ok (bs.any id) ∧
    meanCont (D := ℚ) .bool bs = .ok ((if true ∈ bs then 1 else 0) / bs.length) ∧
    (meanCont (D := ℚ) .bool bs = .ok (mean (bits bs)) ↔ bs.count true ≤ 1) := by
  have hs := sum_bool bs
  have hm : meanCont (D := ℚ) .bool bs = .ok ((if true ∈ bs then 1 else 0) / bs.length) := by
    unfold meanCont
    rw [hs, Out.ok_bind]
    by_cases h : true ∈ bs
    · have : bs.any id = true := List.any_eq_true.2 ⟨_, h, rfl⟩
      simp [this, h, Elem.bool]
    · have : bs.any id = false := by
        rw [List.any_eq_false]; intro x hx hc
        have : x = true := hc
        exact h (this ▸ hx)
      simp [this, h, Elem.bool]
  refine ⟨hs, hm, ?_⟩
  rw [hm]
  have hb : (bits bs).sum = (bs.count true : ℚ) := by
    clear hs hm
    induction bs with
    | nil => rfl
    | cons b bs ih =>
      have e : bits (b :: bs) = (if b then 1 else 0) :: bits bs := rfl
      rw [e, List.sum_cons, ih]
      cases b <;> simp [add_comm]
  have hl : (bits bs).length = bs.length := by simp [bits]
  have hc : (if true ∈ bs then (1 : ℚ) else 0) = ((if 0 < bs.count true then 1 else 0 : Nat) : ℚ) := by
    by_cases h : true ∈ bs
    · rw [if_pos h, if_pos (List.count_pos_iff.2 h)]; rfl
    · rw [if_neg h, if_neg (fun hp => h (List.count_pos_iff.1 hp))]; rfl
  unfold mean
  rw [hb, hl, hc]
  by_cases hn : bs = []
  · subst hn; simp
  · have hne := len_ne hn
    constructor
    · intro e
      have e := Out.ok.inj e
      rw [div_left_inj' hne] at e
      have e : (if 0 < bs.count true then 1 else 0) = bs.count true := by exact_mod_cast e
      split_ifs at e <;> omega
    · intro h
      congr 3
      split_ifs <;> omega

/-- The mean of two true values is 1/2. -/
theorem C189_bool_refuted :
    meanCont (D := ℚ) .bool [true, true] = .ok (1 / 2) ∧ mean (bits [true, true]) = 1 := by
  refine ⟨by decide +kernel, by decide +kernel⟩

end Stats
