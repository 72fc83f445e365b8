import Verif.Proof.FloatText

/-! # Floats in texts: property C190 -/

set_option exponentiation.threshold 2000

namespace Stream.Props
open Cpp Spec
open Json (F64)
open Json.Spec (IsFloat SignBit)

/-- **C190, reading.**  From a decimal number with white space before it and anything behind it that does not go on with the
number, `stringCast<float>` reads a nearest `float`; the sign is that of the text, also for zero. -/
theorem C190_read (l : Lit) (h : l.Ok) (w t : Str) (hw : Ws w) (ht : Ends t) :
    ∃ q, castFloat (w ++ l.text ++ t) = .ok ⟨l.neg, .fin q⟩ ∧ NearestFloat l.value q :=
  ⟨_, castFloat_lit hw h ht, readLit32_nearest l⟩

/-- -16777217.0e+0 -/
def oddLit : Lit := ⟨some true, bytes ['1', '6', '7', '7', '7', '2', '1', '7'], true, bytes ['0'], some (byte 'e', some false, bytes ['0'])⟩

example : oddLit.Ok ∧ oddLit.value = -16777217 ∧ Ws [32] ∧ Ends (bytes [';']) ∧
    castFloat ([32] ++ oddLit.text ++ bytes [';']) = .ok ⟨true, .fin (-16777216)⟩ :=
  ⟨by decide, by decide +kernel, by decide, by decide, by decide +kernel⟩
-- beyond the range the greatest `float` is the nearest one
example : castFloat (bytes ['1', 'e', '3', '9']) = .ok ⟨false, .fin ((2 ^ 24 - 1) * 2 ^ 104)⟩ := by decide +kernel

/-- **C190, six digits.**  If a number has at most six significant digits, is 0 or at least 10^-38, and at most the greatest `float`,
then the `float` read from it is written as a text of the same number, and read from this text again. -/
theorem C190_six_partial (l : Lit) (h : l.Ok) (m k : Int) (hv : l.value = m * 10 ^ k) (hm : |m| < 1000000)
    (h0 : l.value = 0 ∨ (10 : ℚ) ^ (-38 : Int) ≤ |l.value|) (hr : |l.value| ≤ (2 ^ 24 - 1) * 2 ^ 104) (w t : Str) (hw : Ws w)
    (ht : Ends t) :
    ∃ d : F64, castFloat l.text = .ok d ∧ castFloat (w ++ putDouble d ++ t) = .ok d ∧
      ∃ l' : Lit, l'.Ok ∧ l'.text = putDouble d ∧ l'.value = l.value := by
  have hload := castFloat_lit (w := []) (t := []) (by simp [Ws]) h (by simp [Ends])
  rw [List.nil_append, List.append_nil, readMag32_small hr] at hload
  have hw' : written (Json.flt32 |l.value|) = |l.value| := by
    refine written_flt32 (m := m.natAbs) (k := k) ?_ (by rw [Int.abs_eq_natAbs] at hm; omega) ?_
    · rcases h0 with h0 | h0
      · exact .inl (by rw [h0, abs_zero])
      · exact .inr h0
    · rw [hv, abs_mul, abs_of_pos (show (0 : ℚ) < 10 ^ k by positivity), ← Int.cast_abs, Int.abs_eq_natAbs]
      rfl
  have hn := flt32_nonneg (abs_nonneg l.value)
  have hb : abs (Json.flt32 |l.value|) ≤ FLT_MAX := by rw [abs_of_nonneg hn]; exact flt32_le_max hr
  have hs := value_sign l
  refine ⟨_, hload, ?_, litD l.neg (if l.neg then -Json.flt32 |l.value| else Json.flt32 |l.value|), litD_ok _ _, litD_text _ _, ?_⟩
  · cases hneg : l.neg with
    | true => rw [if_pos rfl, castFloat_put true (by rwa [abs_neg]) hw ht, if_pos rfl, written_neg, hw']
    | false => rw [if_neg (by simp), castFloat_put false hb hw ht, if_neg (by simp), hw']
  · rw [litD_value]
    cases hneg : l.neg with
    | true =>
      rw [if_pos rfl, if_pos rfl, written_neg, hw']
      rw [hneg, if_pos rfl] at hs
      linarith
    | false =>
      rw [if_neg (by simp), if_neg (by simp), hw']
      rw [hneg, if_neg (by simp)] at hs
      linarith

/-- 0.1 -/
def tenthText : Lit := ⟨none, bytes ['0'], true, bytes ['1'], none⟩

-- as a `float` it is written as 0.1
example : tenthText.Ok ∧ tenthText.value = (1 : Int) * 10 ^ (-1 : Int) ∧ |(1 : Int)| < 1000000 ∧
    (10 : ℚ) ^ (-38 : Int) ≤ |tenthText.value| ∧ |tenthText.value| ≤ (2 ^ 24 - 1) * 2 ^ 104 ∧
    castFloat tenthText.text = .ok ⟨false, .fin (13421773 / 2 ^ 27)⟩ ∧
    putDouble ⟨false, .fin (13421773 / 2 ^ 27)⟩ = bytes ['0', '.', '1'] :=
  ⟨by decide, by decide +kernel, by decide, by decide +kernel, by decide +kernel, by decide +kernel, by decide +kernel⟩

/-- **C190, writing and reading, what holds.**  A finite `float` that is written and read again keeps its sign and becomes a nearest
`float` to a number whose relative distance is at most 5/1000000; after that, if the first one was 0 or a normal number, writing and
reading does not change it any more. -/
theorem C190_trip_partial (neg : Bool) (q : ℚ) (h : IsFloat q) (hs : SignBit neg q) (w t : Str) (hw : Ws w) (ht : Ends t) :
    ∃ r, castFloat (w ++ putDouble ⟨neg, .fin q⟩ ++ t) = .ok ⟨neg, .fin r⟩ ∧ SignBit neg r ∧
      (∃ y, |y - q| ≤ 5 / 1000000 * |q| ∧ NearestFloat y r) ∧
      (q = 0 ∨ 2 ^ (-126 : Int) ≤ |q| → castFloat (w ++ putDouble ⟨neg, .fin r⟩ ++ t) = .ok ⟨neg, .fin r⟩) := by
  have hq := float_abs_le h
  have hw0 := written_nonneg q
  have hwm := written_le32 hq
  have hb := flt32_nonneg hw0
  have hbm : |Json.flt32 (written q)| ≤ FLT_MAX := by rw [abs_of_nonneg hb]; exact flt32_le_max hwm
  have hN : NearestFloat (written q) (Json.flt32 (written q)) := by
    have := readMag32_nearest hw0
    rwa [readMag32_small hwm] at this
  have hc := written_close q
  refine ⟨_, castFloat_put neg hq hw ht, ?_, ?_, fun hd => ?_⟩
  · unfold SignBit
    cases neg <;> simp [hb]
  · cases neg with
    | true =>
      have hq : q ≤ 0 := hs
      refine ⟨-written q, ?_, ?_⟩
      · rw [abs_of_nonpos hq] at hc ⊢
        rw [← abs_neg]
        convert hc using 2
        ring
      · rw [if_pos rfl]
        exact nearestFloat_neg hN
    | false =>
      have hq : 0 ≤ q := hs
      refine ⟨written q, ?_, ?_⟩
      · rw [abs_of_nonneg hq] at hc ⊢
        exact hc
      · rw [if_neg (by simp)]
        exact hN
  · have key : written (Json.flt32 (written q)) = written q := by
      rcases hd with rfl | hd
      · have e : written 0 = 0 := by unfold written; rw [if_pos rfl]
        rw [e]
        exact written_flt32 (.inl rfl) (m := 0) (k := 0) (by norm_num) (by norm_num)
      · have hq0 : 0 < |q| := lt_of_lt_of_le (by positivity) hd
        have e : written q = dec (six |q|) := by unfold written; rw [if_neg (abs_pos.1 hq0)]
        have hsx := six_spec hq0
        refine written_flt32 (.inr ?_) (m := (six |q|).1) (k := (six |q|).2 - 5) hsx.2.1 (by rw [e]; rfl)
        have h1 := (abs_le.1 hc).1
        have c : (10 : ℚ) ^ (-38 : Int) ≤ (1 - 5 / 1000000) * 2 ^ (-126 : Int) := by norm_num
        exact c.trans ((mul_le_mul_of_nonneg_left hd (by norm_num)).trans (by linarith))
    cases neg with
    | true => rw [if_pos rfl, castFloat_put true (by rwa [abs_neg]) hw ht, if_pos rfl, written_neg, key]
    | false => rw [if_neg (by simp), castFloat_put false hbm hw ht, if_neg (by simp), key]

-- -2/3 as a `float` is written as -0.666667
example : IsFloat (-(11184811 / 2 ^ 24)) ∧ SignBit true (-(11184811 / 2 ^ 24)) ∧ (2 : ℚ) ^ (-126 : Int) ≤ |-(11184811 / 2 ^ 24)| ∧
    putDouble ⟨true, .fin (-(11184811 / 2 ^ 24))⟩ = bytes ['-', '0', '.', '6', '6', '6', '6', '6', '7'] :=
  ⟨⟨-11184811, -24, by norm_num, by norm_num, by norm_num, by norm_num⟩, by decide +kernel, by decide +kernel, by decide +kernel⟩

/-- **C190, refuted.**  1234567 is a `float`; it is written as 1.23457e+06, which is read as 1234570.  Also two different `float`s
can be written alike. -/
theorem C190_refuted :
    (IsFloat 1234567 ∧ putDouble ⟨false, .fin 1234567⟩ = bytes ['1', '.', '2', '3', '4', '5', '7', 'e', '+', '0', '6'] ∧
      castFloat (putDouble ⟨false, .fin 1234567⟩) = .ok ⟨false, .fin 1234570⟩) ∧
    (IsFloat (13421773 / 2 ^ 27) ∧ IsFloat (13421774 / 2 ^ 27) ∧
      putDouble ⟨false, .fin (13421773 / 2 ^ 27)⟩ = putDouble ⟨false, .fin (13421774 / 2 ^ 27)⟩) :=
  ⟨⟨⟨1234567, 0, by norm_num, by norm_num, by norm_num, by norm_num⟩, by decide +kernel, by decide +kernel⟩,
    ⟨13421773, -27, by norm_num, by norm_num, by norm_num, by norm_num⟩,
    ⟨13421774, -27, by norm_num, by norm_num, by norm_num, by norm_num⟩, by decide +kernel⟩

end Stream.Props
