import Verif.Proof.JsonDouble

/-! # JSON, numbers in binary64: properties C133, C134 -/

set_option exponentiation.threshold 2000

namespace Json.Props
open Cpp Spec Rand.Spec

/-! ## C133: a number is read as the nearest double -/

/-- **C133, numbers without an exponent.**  A number with a fraction and without an exponent is read as a `double` no
other `double` is closer to; its sign bit is that of the text, also for zero. -/
theorem C133_plain (n : Number) (h : n.Ok) (hf : n.frac ≠ none) (he : n.exp = none) (w w' : Str) (hw : Ws w) (hw' : Ws w') :
    ∃ q, loadNumber (w ++ n.text ++ w') = .ok (some (.dbl ⟨n.neg, .fin q⟩)) ∧ Nearest n.value q := by
  have hvalue : n.value = mantVal n := by unfold Number.value mantVal; rw [he]; cases n.frac <;> simp
  obtain ⟨q, hq, hN, _⟩ := mant64_val n
  refine ⟨q, ?_, by rw [hvalue]; exact hN⟩
  rw [load_plain h he hf hw hw', hq, scale_zero hN.1]

/-- -0.1 -/
def minusTenth : Number := ⟨true, bytes ['0'], some (bytes ['1']), none⟩

example : minusTenth.Ok ∧ minusTenth.frac ≠ none ∧ minusTenth.exp = none ∧ minusTenth.text = bytes ['-', '0', '.', '1'] := by
  refine ⟨⟨by decide, ?_, ?_⟩, ?_, rfl, by decide⟩
  · intro f hf
    cases hf
    decide
  · intro f hf
    cases hf
  · exact fun h => nomatch h

example : loadNumber minusTenth.text = .ok (some (.dbl ⟨true, .fin (-(3602879701896397 / 2 ^ 55))⟩)) := by decide +kernel

/-- 3e-1 -/
def threeTenths : Number := ⟨false, bytes ['3'], none, some (some true, bytes ['1'])⟩
/-- 5e-324 -/
def tiny : Number := ⟨false, bytes ['5'], none, some (some true, bytes ['3', '2', '4'])⟩
/-- 0.001e+310 -/
def huge : Number := ⟨false, bytes ['0'], some (bytes ['0', '0', '1']), some (some false, bytes ['3', '1', '0'])⟩
/-- 0e+400 -/
def zero400 : Number := ⟨false, bytes ['0'], none, some (some false, bytes ['4', '0', '0'])⟩

/-- **C133, refuted.**  A number with an exponent is multiplied by a rounded power of ten, which is rounded again: `3e-1`
is not read as the double nearest to 0.3; `5e-324` is read as 0, though it is closer to 2^-1074; `0.001e+310`, which is
10^307, is read as infinity; and `0e+400`, which is 0, as NaN. -/
theorem C133_exponent_refuted :
    (∃ q, loadNumber threeTenths.text = .ok (some (.dbl ⟨false, .fin q⟩)) ∧ ¬ Nearest threeTenths.value q) ∧
    (∃ q, loadNumber tiny.text = .ok (some (.dbl ⟨false, .fin q⟩)) ∧ ¬ Nearest tiny.value q) ∧
    (huge.value = 10 ^ 307 ∧ loadNumber huge.text = .ok (some (.dbl ⟨false, .inf false⟩))) ∧
    (zero400.value = 0 ∧ loadNumber zero400.text = .ok (some (.dbl ⟨false, .nan⟩))) := by
  refine ⟨⟨1351079888211149 / 2 ^ 52, by decide +kernel, ?_⟩, ⟨0, by decide +kernel, ?_⟩, ⟨by decide +kernel, by decide +kernel⟩,
    by decide +kernel, by decide +kernel⟩
  · intro h
    have hv : threeTenths.value = 3 / 10 := by decide +kernel
    have := h.2 (5404319552844595 / 2 ^ 54) ⟨5404319552844595, -54, by norm_num, by norm_num, by norm_num, by norm_num⟩
    rw [hv, abs_of_pos (by norm_num), abs_of_neg (by norm_num)] at this
    norm_num at this
  · intro h
    have hv : tiny.value = 5 / 10 ^ 324 := by decide +kernel
    have := h.2 (1 / 2 ^ 1074) ⟨1, -1074, by norm_num, by norm_num, by norm_num, by norm_num⟩
    rw [hv, zero_sub, abs_neg, abs_of_pos (by norm_num), abs_of_neg (by norm_num)] at this
    norm_num at this

/-- **C133, texts that are no numbers.**  A minus sign with a point and no digits is not rejected: it is read as the double 0 (not
-0), and with digits behind the point as if there were a 0 before it. -/
theorem C133_point_refuted :
    loadNumber (bytes ['-', '.']) = .ok (some (.dbl ⟨false, .fin 0⟩)) ∧
    loadNumber (bytes ['-', '.', '5']) = .ok (some (.dbl ⟨true, .fin (-(1 / 2))⟩)) := by
  decide +kernel

/-- **C133, what holds with an exponent.**  If the number before the exponent is a `double` (for example a whole number
below 2^53) and the exponent is not negative and at most 22, the result is a nearest `double`. -/
theorem C133_small_exponent_partial (n : Number) (h : n.Ok) (d : Str) (he : n.exp = some (some false, d)) (hd : nat d ≤ 22)
    (hm : IsDouble n.mantissa) (hb : |n.value| ≤ (2 ^ 53 - 1) * 2 ^ 971) (w w' : Str) (hw : Ws w) (hw' : Ws w') :
    ∃ q, loadNumber (w ++ n.text ++ w') = .ok (some (.dbl ⟨n.neg, .fin q⟩)) ∧ Nearest n.value q := by
  have hM : n.mantissa = mantVal n := by unfold Number.mantissa Number.value mantVal; cases n.frac <;> simp
  have hvalue : n.value = mantVal n * (10 : ℚ) ^ nat d := by
    unfold Number.value mantVal; rw [he]; cases n.frac <;> simp
  rw [hM] at hm
  rw [hvalue] at hb ⊢
  obtain ⟨q, hq, hN, _⟩ := mant64_val n
  have hq' := nearest_self hN hm
  rw [hq'] at hq
  obtain ⟨z, hz, hz'⟩ := round_nearest hb
  refine ⟨z, ?_, hz'⟩
  have hl := load_exp64 h he (by
    unfold IsInt INT_MIN INT_MAX
    simp only [Bool.false_eq_true, if_false]
    omega) hw hw'
  rw [hl, hq]
  have hp : pow10 (nat d : Int) = .fin (10 ^ nat d) := by
    unfold pow10
    rw [zpow_natCast]
    exact isDouble_round (pow10_double hd)
  simp only [Bool.false_eq_true, if_false]
  unfold F64.scale
  rw [hp]
  show Out.ok (some (Num64.dbl ⟨n.neg, Dbl.round (mantVal n * 10 ^ nat d)⟩)) = _
  rw [hz]

/-- 7e+22 -/
def avogadro : Number := ⟨false, bytes ['7'], none, some (some false, bytes ['2', '2'])⟩

example : avogadro.Ok ∧ nat (bytes ['2', '2']) ≤ 22 ∧ IsDouble avogadro.mantissa ∧ |avogadro.value| ≤ (2 ^ 53 - 1) * 2 ^ 971 := by
  refine ⟨⟨by decide, ?_, ?_⟩, by decide, ⟨7, 0, by norm_num, by norm_num, by norm_num, by decide +kernel⟩, by decide +kernel⟩
  · intro f hf
    cases hf
  · intro f hf
    cases hf
    decide

/-- **C133, the error with an exponent.**  If the number before the exponent, the power of ten and the result are between
10^-300 and 10^300, the result is correct up to a factor of 1 ± 2^-51. -/
theorem C133_exponent_partial (n : Number) (h : n.Ok) (sign : Bool) (d : Str) (he : n.exp = some (some sign, d))
    (hd : nat d ≤ 300) (hm0 : (10 : ℚ) ^ (-300 : Int) ≤ |n.mantissa|) (hm1 : |n.mantissa| ≤ 10 ^ (300 : Int))
    (hx0 : (10 : ℚ) ^ (-300 : Int) ≤ |n.value|) (hx1 : |n.value| ≤ 10 ^ (300 : Int)) (w w' : Str) (hw : Ws w) (hw' : Ws w') :
    ∃ q, loadNumber (w ++ n.text ++ w') = .ok (some (.dbl ⟨n.neg, .fin q⟩)) ∧
      |q - n.value| ≤ 2 ^ (-51 : Int) * |n.value| := by
  have hM : n.mantissa = mantVal n := by unfold Number.mantissa Number.value mantVal; cases n.frac <;> simp
  have hvalue : n.value = mantVal n * (10 : ℚ) ^ (if sign then -(nat d : Int) else nat d) := by
    unfold Number.value mantVal; rw [he]; cases n.frac <;> cases sign <;> simp
  rw [hM] at hm0 hm1
  rw [hvalue] at hx0 hx1 ⊢
  have hi : (-300 : Int) ≤ (if sign then -(nat d : Int) else nat d) ∧ (if sign then -(nat d : Int) else nat d) ≤ 300 := by
    cases sign <;> simp <;> omega
  generalize hE : (if sign then -(nat d : Int) else nat d) = e at *
  obtain ⟨q, hq, hN, ha⟩ := mant64_val n
  have hq' : q = fl (mantVal n) := by
    have h1 : readMag |mantVal n| = fl |mantVal n| := readMag_small (by
      rw [abs_abs]
      refine hm1.trans ?_
      unfold DBL_MAX; norm_num)
    have h2 : mant64 n = ⟨n.neg, .fin (if n.neg then -fl |mantVal n| else fl |mantVal n|)⟩ := by
      unfold mant64; rw [h1]
    rw [hq] at h2
    have h3 : q = if n.neg then -fl |mantVal n| else fl |mantVal n| := by injection h2 with _ h2; injection h2
    have h4 : mantVal n = if n.neg then -|mantVal n| else |mantVal n| := mantVal_sign n
    rw [h3]
    cases hs : n.neg with
    | true => rw [hs, if_pos rfl] at h4; rw [if_pos rfl, ← fl_neg, ← h4]
    | false => rw [hs, if_neg (by simp)] at h4; rw [if_neg (by simp), ← h4]
  obtain ⟨z, hz, hz'⟩ := scale_err hm0 hm1 hi.1 hi.2 hx0 hx1 hq'
  refine ⟨z, ?_, hz'⟩
  have hl := load_exp64 h he (by
    rw [hE]
    unfold IsInt INT_MIN INT_MAX
    omega) hw hw'
  rw [hl, hE, hq]
  unfold F64.scale
  rw [hz]

/-- -6.25e-34 -/
def planck : Number := ⟨true, bytes ['6'], some (bytes ['2', '5']), some (some true, bytes ['3', '4'])⟩

example : planck.Ok ∧ nat (bytes ['3', '4']) ≤ 300 ∧ (10 : ℚ) ^ (-300 : Int) ≤ |planck.mantissa| ∧
    |planck.mantissa| ≤ 10 ^ (300 : Int) ∧ (10 : ℚ) ^ (-300 : Int) ≤ |planck.value| ∧ |planck.value| ≤ 10 ^ (300 : Int) := by
  refine ⟨⟨by decide, ?_, ?_⟩, by decide, by decide +kernel, by decide +kernel, by decide +kernel, by decide +kernel⟩
  · intro f hf
    cases hf
    decide
  · intro f hf
    cases hf
    decide

/-! ## C134: a double survives dump and load -/

/-- **C134, refuted.**  A `double` below half a millionth is lost: 2^-30 is written as `0.000000`. -/
theorem C134_refuted : ∃ q, IsDouble q ∧ 0 < q ∧ (F64.mk false (.fin q)).toText = bytes ['0', '.', '0', '0', '0', '0', '0', '0'] ∧
    loadNumber (F64.mk false (.fin q)).toText = .ok (some (.dbl ⟨false, .fin 0⟩)) :=
  ⟨1 / 2 ^ 30, ⟨1, -30, by norm_num, by norm_num, by norm_num, by norm_num⟩, by norm_num, by decide +kernel, by decide +kernel⟩

/-- **C134, refuted for values that are not finite.**  `1e+400` is read as infinity and `0e+400` as NaN; they are written
as `inf` and `nan`, perhaps with a sign, and `loadJSON` rejects these. -/
theorem C134_special_refuted :
    loadNumber (bytes ['1', 'e', '+', '4', '0', '0']) = .ok (some (.dbl ⟨false, .inf false⟩)) ∧
    loadNumber (bytes ['0', 'e', '+', '4', '0', '0']) = .ok (some (.dbl ⟨false, .nan⟩)) ∧
    ∀ d : F64, (∀ q, d.val ≠ .fin q) → loadJSON d.toText = .exit := by
  refine ⟨by decide +kernel, by decide +kernel, ?_⟩
  rintro ⟨neg, v⟩ h
  cases v with
  | nan => cases neg <;> rfl
  | inf s => cases neg <;> rfl
  | fin q => exact absurd rfl (h q)

/-- **C134, what holds for every double.**  Dumped and loaded again, a finite `double` becomes one that is nearest to a
number at most half a millionth away; the sign bit is kept, and dumping again gives the same text. -/
theorem C134_close_partial (neg : Bool) (q : ℚ) (h : IsDouble q) (hs : SignBit neg q) (w w' : Str) (hw : Ws w) (hw' : Ws w') :
    ∃ r, loadNumber (w ++ (F64.mk neg (.fin q)).toText ++ w') = .ok (some (.dbl ⟨neg, .fin r⟩)) ∧ SignBit neg r ∧
      (∃ y, |y - q| ≤ 1 / 2000000 ∧ Nearest y r) ∧ (F64.mk neg (.fin r)).toText = (F64.mk neg (.fin q)).toText := by
  have hN := readMag_nearest (x := (millionths |q| : ℚ) / 1000000) (by positivity)
  have hp := readMag_nonneg (x := (millionths |q| : ℚ) / 1000000) (by positivity)
  have hc := millionths_close (abs_nonneg q)
  have ha : IsDouble |q| := by
    rcases abs_choice q with e | e <;> rw [e]
    · exact h
    · exact isDouble_neg h
  have hst := stable ha (abs_nonneg q)
  refine ⟨_, load_toText neg q hw hw', ?_, ?_, ?_⟩
  · unfold SignBit
    cases neg <;> simp [hp]
  · cases neg with
    | true =>
      have hq : q ≤ 0 := hs
      refine ⟨-((millionths |q| : ℚ) / 1000000), ?_, ?_⟩
      · rw [abs_of_nonpos hq] at hc ⊢
        convert hc using 2
        ring
      · rw [if_pos rfl]
        exact nearest_neg hN
    | false =>
      have hq : 0 ≤ q := hs
      refine ⟨(millionths |q| : ℚ) / 1000000, ?_, ?_⟩
      · rw [abs_of_nonneg hq] at hc ⊢
        rwa [abs_sub_comm]
      · rw [if_neg (by simp)]
        exact hN
  · rw [← numMill_text, ← numMill_text]
    congr 2
    rw [← hst]
    congr 1
    cases neg <;> simp [abs_of_nonneg hp, hst]

/-- **C134, large numbers.**  A `double` from 2^33 on in absolute value is not changed by dumping and loading. -/
theorem C134_large_partial (neg : Bool) (q : ℚ) (h : IsDouble q) (hs : SignBit neg q) (hq : 2 ^ 33 ≤ |q|) (w w' : Str)
    (hw : Ws w) (hw' : Ws w') :
    loadNumber (w ++ (F64.mk neg (.fin q)).toText ++ w') = .ok (some (.dbl ⟨neg, .fin q⟩)) := by
  have ha : IsDouble |q| := by
    rcases abs_choice q with e | e <;> rw [e]
    · exact h
    · exact isDouble_neg h
  rw [load_toText neg q hw hw', big_survives ha hq]
  cases neg with
  | true =>
    have : q ≤ 0 := hs
    rw [if_pos rfl, abs_of_nonpos this, neg_neg]
  | false =>
    have : 0 ≤ q := hs
    rw [if_neg (by simp), abs_of_nonneg this]

example : IsDouble (-(2 ^ 33 + 1 / 2 ^ 19)) ∧ SignBit true (-(2 ^ 33 + 1 / 2 ^ 19)) ∧ (2 : ℚ) ^ 33 ≤ |(-(2 ^ 33 + 1 / 2 ^ 19) : ℚ)| :=
  ⟨⟨-(2 ^ 52 + 1), -19, by norm_num, by norm_num, by norm_num, by norm_num⟩, by decide +kernel, by decide +kernel⟩

/-- **C134, six places.**  What was read from a number without an exponent and with at most six digits after the point is
not changed by dumping and loading. -/
theorem C134_six_partial (n : Number) (h : n.Ok) (f : Str) (hf : n.frac = some f) (hl : f.length ≤ 6) (he : n.exp = none)
    (w w' : Str) (hw : Ws w) (hw' : Ws w') :
    ∃ d : F64, loadNumber n.text = .ok (some (.dbl d)) ∧ loadNumber (w ++ d.toText ++ w') = .ok (some (.dbl d)) := by
  have hload := load_plain (w := []) (w' := []) h he (by rw [hf]; simp) (by simp [Ws]) (by simp [Ws])
  rw [List.nil_append, List.append_nil] at hload
  obtain ⟨q, hq, hN, ha⟩ := mant64_val n
  rw [hq, scale_zero hN.1] at hload
  refine ⟨_, hload, ?_⟩
  rw [load_toText _ _ hw hw', ha]
  have hm : |mantVal n| = ((nat n.ip * 1000000 + nat f * 10 ^ (6 - f.length) : Nat) : ℚ) / 1000000 := by
    have h0 : (0 : ℚ) ≤ (nat n.ip : ℚ) + (nat f : ℚ) / 10 ^ f.length := by positivity
    have h1 : |mantVal n| = (nat n.ip : ℚ) + (nat f : ℚ) / 10 ^ f.length := by
      unfold mantVal
      rw [hf, abs_mul]
      dsimp only
      rw [abs_of_nonneg h0]
      cases n.neg <;> simp
    rw [h1]
    have h2 : (1000000 : ℚ) = 10 ^ f.length * 10 ^ (6 - f.length) := by
      rw [← pow_add, Nat.add_sub_cancel' hl]
      norm_num
    push_cast
    rw [add_div, mul_div_cancel_right₀ _ (by norm_num), h2]
    congr 1
    rw [mul_div_mul_right _ _ (by positivity)]
  have h2 : mant64 n = ⟨n.neg, .fin (if n.neg then -readMag |mantVal n| else readMag |mantVal n|)⟩ := rfl
  rw [← hq, h2, hm, millionths_survive]

/-- 0.1 -/
def tenth : Number := ⟨false, bytes ['0'], some (bytes ['1']), none⟩

example : tenth.Ok ∧ (bytes ['1']).length ≤ 6 ∧ loadNumber tenth.text = .ok (some (.dbl ⟨false, .fin (3602879701896397 / 2 ^ 55)⟩)) := by
  refine ⟨⟨by decide, ?_, ?_⟩, by decide, by decide +kernel⟩
  · intro f hf
    cases hf
    decide
  · intro f hf
    cases hf

end Json.Props
