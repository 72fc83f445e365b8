import Verif.Model.FloatText
import Verif.Spec.FloatText
import Verif.Proof.DoubleText
import Verif.Proof.JsonConv

/-! # Helper lemmas for texts of `float`s -/

set_option exponentiation.threshold 2000

namespace Stream
open Cpp Spec
open Json (F64 flt32)
open Json.Spec (IsFloat SignBit)

/-- what is read for a number that is not negative -/
def readMag32 (x : ℚ) : ℚ := if 2 ^ 128 ≤ flt32 x then FLT_MAX else flt32 x

theorem castFloat_lit {w : Str} {l : Lit} {t : Str} (hw : Ws w) (h : l.Ok) (ht : Ends t) :
    castFloat (w ++ l.text ++ t) = .ok ⟨l.neg, .fin (if l.neg then -readMag32 |l.value| else readMag32 |l.value|)⟩ := by
  unfold castFloat IStream.getFloat
  rw [List.append_assoc, sentry_good [] hw (lit_head h t)]
  simp only [if_true, collect_lit h ht, chars_all, take_pre, chars_valid h, chars_value, chars_neg]
  unfold readMag32
  split_ifs <;> rfl

theorem flt_max_float : IsFloat FLT_MAX :=
  ⟨2 ^ 24 - 1, 104, by norm_num, by norm_num, by unfold FLT_MAX; norm_num, by unfold FLT_MAX; norm_num⟩

theorem float_le_max {r : ℚ} (h : IsFloat r) : r ≤ FLT_MAX := by
  obtain ⟨m, k, hm, hk, rfl, hb⟩ := h
  have hp : (0 : ℚ) < 2 ^ k := by positivity
  rcases le_or_gt k 103 with h | h
  · have h1 : (2 : ℚ) ^ k ≤ 2 ^ (103 : Int) := zpow_le_zpow_right₀ (by norm_num) h
    have h2 : (m : ℚ) ≤ 2 ^ 24 := by
      have := (abs_le.1 hm).2
      exact_mod_cast this
    have c : (2 : ℚ) ^ 24 * 2 ^ (103 : Int) ≤ FLT_MAX := by unfold FLT_MAX; norm_num
    calc (m : ℚ) * 2 ^ k ≤ 2 ^ 24 * 2 ^ k := mul_le_mul_of_nonneg_right h2 hp.le
      _ ≤ 2 ^ 24 * 2 ^ (103 : Int) := mul_le_mul_of_nonneg_left h1 (by norm_num)
      _ ≤ _ := c
  · obtain ⟨j, rfl⟩ : ∃ j : Nat, k = j + 104 := ⟨(k - 104).toNat, by omega⟩
    have e : (m : ℚ) * 2 ^ ((j : Int) + 104) = ((m * 2 ^ j : Int) : ℚ) * 2 ^ (104 : Int) := by
      rw [zpow_add₀ (by norm_num), zpow_natCast]; push_cast; ring
    rw [e] at hb ⊢
    have hlt : ((m * 2 ^ j : Int) : ℚ) < ((2 ^ 24 : Int) : ℚ) := by
      have := (abs_lt.1 hb).2
      by_contra hc
      push Not at hc
      have c2 : ((2 ^ 24 : Int) : ℚ) * 2 ^ (104 : Int) = 2 ^ 128 := by norm_num
      nlinarith [show (0 : ℚ) < 2 ^ (104 : Int) by positivity]
    have hlt : m * 2 ^ j < (2 ^ 24 : Int) := by exact_mod_cast hlt
    have hle : ((m * 2 ^ j : Int) : ℚ) ≤ ((2 ^ 24 - 1 : Int) : ℚ) := by exact_mod_cast (show m * 2 ^ j ≤ (2 ^ 24 - 1 : Int) by omega)
    unfold FLT_MAX
    calc _ ≤ ((2 ^ 24 - 1 : Int) : ℚ) * 2 ^ (104 : Int) := mul_le_mul_of_nonneg_right hle (by positivity)
      _ = _ := by norm_num

theorem flt32_nearest (x : ℚ) {r : ℚ} (h : IsFloat r) : |flt32 x - x| ≤ |r - x| := by
  obtain ⟨m, k, hm, hk, rfl, -⟩ := h
  exact Json.flt32_near x hm hk

theorem flt32_nonneg {x : ℚ} (h : 0 ≤ x) : 0 ≤ flt32 x := by
  unfold flt32
  rw [if_neg (by linarith)]
  unfold Json.flt32Pos
  have := roundTiesEven_nonneg (K := ℚ) (x := x / 2 ^ Json.lastBit32 x) (div_nonneg h (by positivity))
  exact mul_nonneg (by exact_mod_cast this) (by positivity)

theorem flt32_isFloat {x : ℚ} (h0 : 0 ≤ x) (h : flt32 x < 2 ^ 128) : IsFloat (flt32 x) := by
  obtain ⟨m, k, h1, h2, h3⟩ := Json.flt32_repr x
  exact ⟨m, k, h1, h2, h3, by rw [abs_of_nonneg (flt32_nonneg h0)]; exact h⟩

theorem flt32_le_max {x : ℚ} (h : x ≤ FLT_MAX) : flt32 x ≤ FLT_MAX := by
  have := flt32_nearest x flt_max_float
  rw [abs_of_nonneg (by linarith : 0 ≤ FLT_MAX - x)] at this
  have := (abs_le.1 this).2
  linarith

theorem max_lt : FLT_MAX < 2 ^ 128 := by unfold FLT_MAX; norm_num

theorem readMag32_small {x : ℚ} (h : x ≤ FLT_MAX) : readMag32 x = flt32 x := by
  unfold readMag32
  rw [if_neg (not_le.2 ((flt32_le_max h).trans_lt max_lt))]

theorem readMag32_nonneg {x : ℚ} (h : 0 ≤ x) : 0 ≤ readMag32 x := by
  unfold readMag32
  split_ifs
  · unfold FLT_MAX; norm_num
  · exact flt32_nonneg h

theorem readMag32_nearest {x : ℚ} (h0 : 0 ≤ x) : NearestFloat x (readMag32 x) := by
  unfold readMag32
  split_ifs with h
  · refine ⟨flt_max_float, fun r hr => ?_⟩
    have hle := float_le_max hr
    have hx : FLT_MAX ≤ x := by
      by_contra hc
      push Not at hc
      have := flt32_le_max hc.le
      linarith [max_lt]
    rw [abs_of_nonpos (by linarith), abs_of_nonpos (by linarith)]
    linarith
  · exact ⟨flt32_isFloat h0 (not_le.1 h), fun r hr => flt32_nearest x hr⟩

theorem isFloat_neg {q : ℚ} (h : IsFloat q) : IsFloat (-q) := by
  obtain ⟨m, k, h1, h2, h3, h4⟩ := h
  exact ⟨-m, k, by rwa [abs_neg], h2, by rw [h3]; push_cast; ring, by rwa [abs_neg]⟩

theorem nearestFloat_neg {x q : ℚ} (h : NearestFloat x q) : NearestFloat (-x) (-q) := by
  refine ⟨isFloat_neg h.1, fun r hr => ?_⟩
  have := h.2 (-r) (isFloat_neg hr)
  rw [show -q - -x = -(q - x) by ring, abs_neg, show r - -x = -(-r - x) by ring, abs_neg]
  exact this

theorem readLit32_nearest (l : Lit) :
    NearestFloat l.value (if l.neg then -readMag32 |l.value| else readMag32 |l.value|) := by
  have h := readMag32_nearest (abs_nonneg l.value)
  have hv := value_sign l
  cases hn : l.neg with
  | true =>
    rw [hn, if_pos rfl] at hv
    rw [if_pos rfl]
    have := nearestFloat_neg h
    rwa [← hv] at this
  | false =>
    rw [hn, if_neg (by simp)] at hv
    rw [if_neg (by simp)]
    rw [← hv] at h ⊢
    exact h

/-! ## six digits survive -/

theorem flt32_close {x : ℚ} (h : (10 : ℚ) ^ (-38 : Int) ≤ x) : |flt32 x - x| ≤ 3 / 2 ^ 25 * x := by
  have hx : 0 < x := lt_of_lt_of_le (by positivity) h
  have hp : (0 : ℚ) < 2 ^ Json.lastBit32 x := by positivity
  have e1 : |flt32 x - x| ≤ 2 ^ Json.lastBit32 x / 2 := by
    unfold flt32
    rw [if_neg (by linarith)]
    unfold Json.flt32Pos
    have hc := roundTiesEven_close (x / 2 ^ Json.lastBit32 x)
    have e : (roundTiesEven (x / 2 ^ Json.lastBit32 x) : ℚ) * 2 ^ Json.lastBit32 x - x =
        (roundTiesEven (x / 2 ^ Json.lastBit32 x) - x / 2 ^ Json.lastBit32 x) * 2 ^ Json.lastBit32 x := by
      field_simp
    rw [e, abs_mul, abs_of_pos hp]
    rw [abs_sub_comm] at hc
    nlinarith
  rcases lt_or_ge (-149) (Json.lastBit32 x) with hb | hb
  · have := Json.lastBit32_le hx hb
    rw [zpow_add₀ (by norm_num)] at this
    have c : (2 : ℚ) ^ (23 : Int) = 2 ^ 23 := by norm_num
    rw [c] at this
    refine e1.trans ?_
    norm_num at this ⊢
    linarith
  · have hb : Json.lastBit32 x = -149 := le_antisymm hb (le_max_right _ _)
    rw [hb] at e1
    refine e1.trans (le_trans ?_ (mul_le_mul_of_nonneg_left h (by norm_num)))
    norm_num

/-- a number of six digits has the same six digits after rounding to `float` -/
theorem six_float {n : Nat} {e : Int} (h1 : 100000 ≤ n) (h2 : n < 1000000) (hl : (10 : ℚ) ^ (-38 : Int) ≤ dec (n, e)) :
    six (flt32 (dec (n, e))) = (n, e) := by
  have hc := flt32_close hl
  obtain ⟨hb1, hb2⟩ := dec_bounds h1 h2 e
  have hp := ten_pos (e - 6)
  have e10 : (10 : ℚ) ^ (e - 5) = 10 * 10 ^ (e - 6) := by
    rw [show e - 5 = (e - 6) + 1 by ring, zpow_add₀ (by norm_num)]; norm_num; ring
  have hup : (10 : ℚ) ^ (e + 1) = 10000000 * 10 ^ (e - 6) := by rw [ten_succ, e10]; ring
  have hlow : (10 : ℚ) ^ e = 1000000 * 10 ^ (e - 6) := by rw [ten_sub5, e10]; ring
  rw [hup] at hb2
  rw [hlow] at hb1
  rcases le_or_gt ((10 : ℚ) ^ e) (flt32 (dec (n, e))) with hk | hk
  · refine six_in h1 h2 hk (lt_of_le_of_lt hc ?_)
    rw [e10]
    norm_num
    linarith
  · have hn : n = 100000 := by
      by_contra hne
      have h3 : (100001 : ℚ) ≤ n := by exact_mod_cast (show 100001 ≤ n by omega)
      have h4 : 100001 * (10 * (10 : ℚ) ^ (e - 6)) ≤ dec (n, e) := by
        unfold dec
        dsimp only
        rw [e10]
        exact mul_le_mul_of_nonneg_right h3 (by positivity)
      rw [hlow] at hk
      have := (abs_le.1 hc).1
      norm_num at this
      linarith
    subst hn
    refine six_unique h1 h2 (lt_of_le_of_lt hc ?_)
    have : dec (100000, e) = 1000000 * 10 ^ (e - 6) := by
      unfold dec
      dsimp only
      rw [e10]
      push_cast
      ring
    rw [this]
    norm_num
    linarith

theorem six_le32 {a : ℚ} (ha : 0 < a) (hm : a ≤ FLT_MAX) : dec (six a) ≤ FLT_MAX := by
  obtain ⟨h1, h2, h3, h4, h5⟩ := six_spec ha
  have hl := (log_bounds ha).2
  rw [abs_le] at h5
  rcases le_or_gt (Int.log 10 a) 37 with h | h
  · have a1 : (10 : ℚ) ^ (Int.log 10 a + 1) ≤ 10 ^ (38 : Int) := zpow_le_zpow_right₀ (by norm_num) (by omega)
    have a2 : (10 : ℚ) ^ (Int.log 10 a - 5) ≤ 10 ^ (32 : Int) := zpow_le_zpow_right₀ (by norm_num) (by omega)
    have c : (10 : ℚ) ^ (38 : Int) + 10 ^ (32 : Int) ≤ FLT_MAX := by unfold FLT_MAX; norm_num
    linarith [ten_pos 32]
  · have hlog : Int.log 10 a = 38 := by
      have : Int.log 10 a < 39 := by
        apply (Int.lt_zpow_iff_log_lt (b := 10) (by norm_num) ha).1
        refine hm.trans_lt ?_
        unfold FLT_MAX
        norm_num
      omega
    rw [hlog] at h3 h4 h5
    have c : FLT_MAX + 10 ^ (38 - 5 : Int) / 2 < 340283 * 10 ^ (33 : Int) := by unfold FLT_MAX; norm_num
    have hb := dec_bounds h1 h2 (six a).2
    rw [Prod.mk.eta] at hb
    have he : (six a).2 = 38 := by
      by_contra hne
      have : (six a).2 = 39 := by omega
      rw [this] at hb
      have c2 : (340283 : ℚ) * 10 ^ (33 : Int) < 10 ^ (39 : Int) := by norm_num
      linarith [hb.1]
    have hd : dec (six a) = (six a).1 * 10 ^ (33 : Int) := by unfold dec; rw [he]; norm_num
    have hp := ten_pos 33
    have hn : (six a).1 ≤ 340282 := by
      rw [hd] at h5
      have : ((six a).1 : ℚ) < 340283 := by
        by_contra hge
        push Not at hge
        nlinarith
      have : (six a).1 < 340283 := by exact_mod_cast this
      omega
    rw [hd]
    have hn' : ((six a).1 : ℚ) ≤ 340282 := by exact_mod_cast hn
    have c3 : (340282 : ℚ) * 10 ^ (33 : Int) ≤ FLT_MAX := by unfold FLT_MAX; norm_num
    nlinarith

theorem float_abs_le {q : ℚ} (h : IsFloat q) : |q| ≤ FLT_MAX :=
  abs_le.2 ⟨by linarith [float_le_max (isFloat_neg h)], float_le_max h⟩

theorem written_le32 {q : ℚ} (h : |q| ≤ FLT_MAX) : written q ≤ FLT_MAX := by
  unfold written
  split
  · unfold FLT_MAX; norm_num
  · rename_i h0
    exact six_le32 (abs_pos.2 h0) h

/-- reading what was written for a number up to `FLT_MAX` -/
theorem castFloat_put (neg : Bool) {q : ℚ} (h : |q| ≤ FLT_MAX) {w t : Str} (hw : Ws w) (ht : Ends t) :
    castFloat (w ++ putDouble ⟨neg, .fin q⟩ ++ t) =
      .ok ⟨neg, .fin (if neg then -flt32 (written q) else flt32 (written q))⟩ := by
  rw [← litD_text, castFloat_lit hw (litD_ok neg q) ht, litD_neg, litD_abs, readMag32_small (written_le32 h)]

/-- what is written for a `float` nearest to a number of six digits is that number -/
theorem written_flt32 {x : ℚ} (h0 : x = 0 ∨ (10 : ℚ) ^ (-38 : Int) ≤ x) {m : Nat} {k : Int} (hm : m < 1000000) (h : x = m * 10 ^ k) :
    written (flt32 x) = x := by
  rcases h0 with h0 | h0
  · rw [h0]
    have : flt32 0 = 0 := Json.flt32_exact ⟨0, 0, by norm_num, by norm_num, by norm_num, by norm_num⟩
    rw [this]
    rfl
  · obtain ⟨n, e, h1, h2, h3⟩ := six_digits (lt_of_lt_of_le (by positivity) h0) hm h
    rw [h3] at h0 ⊢
    have hs := six_float h1 h2 h0
    have hpos : 0 < flt32 (dec (n, e)) := by
      have hc := (abs_le.1 (flt32_close h0)).1
      have hd := dec_pos h1 h2 e
      norm_num at hc
      linarith
    unfold written
    rw [if_neg hpos.ne', abs_of_pos hpos, hs]

end Stream
