import Verif.Proof.JsonNumber

/-! # JSON: property C50, exponents without sign and integers out of range -/

namespace Json.Props
open Cpp Spec

/-- **C50, refuted for every exponent without sign.**  One digit is undefined behaviour.  Of more digits the first one is
lost: the number loaded is too small by this power of ten, so it is right just if the digit (or the number) is 0. -/
theorem C50_unsigned_refuted (n : Number) (h : n.Ok) (x : Byte) (ds : Str) (he : n.exp = some (none, x :: ds)) (w w' : Str)
    (hw : Ws w) (hw' : Ws w') :
    (ds = [] → loadJSON (w ++ n.text ++ w') = .ub) ∧
    (ds ≠ [] → IsInt (nat ds) → ∃ q, loadJSON (w ++ n.text ++ w') = .ok (.float q) ∧
      n.value = q * 10 ^ ((x.toNat - 48) * 10 ^ ds.length) ∧ (q = n.value ↔ x = byte '0' ∨ n.value = 0)) := by
  refine ⟨fun e => ?_, fun hds hi => ⟨_, load_more h he hds hi hw hw', ?_, ?_⟩⟩
  · subst e
    exact load_one h he hw hw'
  · rw [mant_value he, nat_cons, pow_add, mul_assoc]
  · have hx : 48 ≤ x := ((h.2.2 (none, x :: ds) (by rw [he]; rfl)).2 x (by simp)).1
    have hx' : 48 ≤ x.toNat := hx
    rw [mant_value he, nat_cons, pow_add, ← mul_assoc]
    have h10 : ((10 : ℚ) ^ nat ds) ≠ 0 := by positivity
    have h10' : ((10 : ℚ) ^ ((x.toNat - 48) * 10 ^ ds.length)) ≠ 0 := by positivity
    by_cases h0 : (mant n).value = 0
    · simp [h0]
    · have hm : (mant n).value * 10 ^ nat ds ≠ 0 := mul_ne_zero h0 h10
      have hz : x = byte '0' ↔ x.toNat - 48 = 0 :=
        ⟨fun e => by rw [e]; rfl, fun e => UInt8.toNat_inj.1 (by rw [show (byte '0').toNat = 48 from rfl]; omega)⟩
      have hl : 10 ^ ds.length ≠ 0 := by positivity
      rw [eq_comm, mul_eq_left₀ hm, hz]
      constructor
      · intro e
        by_contra hc
        rw [not_or] at hc
        exact absurd e (ne_of_gt (one_lt_pow₀ (by norm_num) (mul_ne_zero hc.1 hl)))
      · rintro (e | e)
        · rw [e, Nat.zero_mul, pow_zero]
        · exact absurd e (mul_ne_zero hm h10')

/-- `-1.5e12` is not loaded as -1500000000000, and `7e3` is undefined. -/
example : ∃ q, loadJSON ([] ++ bytes "-1.5e12".toList ++ [10]) = .ok (.float q) ∧ (-(15 * 10 ^ 11) : ℚ) = q * 10 ^ 10 := by
  obtain ⟨q, h1, h2, -⟩ := (C50_unsigned_refuted ⟨true, [49], some [53], some (none, [49, 50])⟩
    ⟨by decide, by simp [Digits], by simp [Digits]⟩ 49 [50] rfl [] [10] (by decide) (by decide)).2
    (by simp) ⟨by decide +kernel, by decide +kernel⟩
  refine ⟨q, h1, ?_⟩
  have : (⟨true, [49], some [53], some (none, [49, 50])⟩ : Number).value = -(15 * 10 ^ 11) := by
    decide +kernel
  rw [← this, h2]
  rfl
example : loadJSON ([] ++ bytes "7e3".toList ++ []) = .ub :=
  (C50_unsigned_refuted ⟨false, [55], none, some (none, [51])⟩ ⟨by decide, by simp, by simp [Digits]⟩ 51 [] rfl [] []
    (by decide) (by decide)).1 rfl

/-- **C50, refuted for every integer out of range, exact.**  An integer literal is loaded as the nearest `int`. -/
theorem C50_nearest_partial (n : Number) (h : n.Ok) (hf : n.frac = none) (he : n.exp = none) (i : Int) (hv : n.value = i)
    (w w' : Str) (hw : Ws w) (hw' : Ws w') :
    ∃ j, loadJSON (w ++ n.text ++ w') = .ok (.int j) ∧ IsInt j ∧ ∀ k, IsInt k → |i - j| ≤ |i - k| := by
  refine ⟨_, load_int h hf he hv hw hw', ?_, fun k hk => ?_⟩
  · constructor <;> simp [INT_MIN, INT_MAX]
  · obtain ⟨h1, h2⟩ := hk
    simp only [INT_MIN, INT_MAX] at h1 h2
    rcases le_or_gt i 2147483647 with a | a
    · rw [min_eq_right a]
      rcases le_or_gt (-2147483648) i with b | b
      · rw [max_eq_right b]; simp
      · rw [max_eq_left b.le, abs_of_nonpos (by omega), abs_of_nonpos (by omega)]; omega
    · rw [min_eq_left a.le, max_eq_right (by norm_num), abs_of_nonneg (by omega), abs_of_nonneg (by omega)]; omega

/-- `-3000000000` -/
example : ∃ j, loadJSON ([] ++ bytes "-3000000000".toList ++ []) = .ok (.int j) ∧ IsInt j ∧
    ∀ k, IsInt k → |(-3000000000 : Int) - j| ≤ |-3000000000 - k| :=
  C50_nearest_partial ⟨true, bytes "3000000000".toList, none, none⟩ ⟨by decide +kernel, by simp, by simp⟩ rfl rfl _
    (by norm_num [Number.value]; decide +kernel) [] [] (by decide) (by decide)

end Json.Props
