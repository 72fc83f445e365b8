import Verif.Proof.BigNumText

/-! # Properties C19–C24, C71, C72: `BigNum<N>`

`Spec.val b` is the integer denoted.  `Spec.Clean N b`: decimal digits without leading zeros and zeros
beyond them; `Spec.Valid N b`: the same without the demand on the unused cells. -/

namespace BigNum
open Cpp Spec

/-! ### construction and printing -/

/-- C19: `BigNum(x)` for every `int64_t` but the least one, if its digits fit: clean, denotes `x`, and
prints the decimal text unless `x = 0`. -/
theorem C19_ofInt_partial (N : Nat) (x : Int) (hx : x ≠ INT64_MIN)
    (hN : (decimalDigits x.natAbs).length ≤ N) :
    ∃ b, ofInt N x = .ok b ∧ Clean N b ∧ PosZero b ∧ val b = x ∧
      (x ≠ 0 → toString b = .ok (decimal x)) := by
  unfold ofInt
  rw [if_neg hx]
  obtain ⟨r, c, e, hb, hs, ht⟩ := ofIntLoop_spec x.natAbs _ _
    (build_zero N (if x < 0 then -1 else 1)) (by simpa [zero] using hN)
  have ht' : text c r.len = decimalDigits x.natAbs := by rw [ht]; simp [zero, text]
  have hs' : r.sign = if x < 0 then -1 else 1 := hs
  obtain ⟨hc, hm⟩ := build_clean hb (by rw [hs']; split <;> simp) _ ht'
  refine ⟨r, e, hc, ?_, ?_, ?_⟩
  · intro h0
    have hz := mag_zero h0
    rw [hs', if_neg (by omega)]
  · rw [val_eq, hm, hs']; split <;> omega
  · intro h0
    rw [build_toString hb, ht', decimal, if_neg h0, hs']
    by_cases h : x < 0
    · rw [if_pos h, if_pos (by decide), if_pos h]; rfl
    · rw [if_neg h, if_neg (by decide), if_neg h]; rfl

example : (-1024 : Int) ≠ INT64_MIN ∧ (decimalDigits (-1024 : Int).natAbs).length ≤ 8 := by
  decide +kernel
example : (do toString (← ofInt 8 (-1024))) = .ok (bytes ['-', '1', '0', '2', '4']) := by
  decide +kernel

/-- C19 refuted: 0 prints as the empty text, and the least `int64_t` is undefined. -/
theorem C19_ofInt_refuted (N : Nat) :
    (do toString (← ofInt N 0)) = .ok [] ∧ decimal 0 = bytes ['0'] ∧ ofInt N INT64_MIN = .ub := by
  refine ⟨?_, by decide +kernel, by simp [ofInt]⟩
  have : ofInt N 0 = .ok (zero N) := by
    unfold ofInt; rw [if_neg (by decide)]; unfold ofIntLoop; rfl
  rw [this]; rfl

/-- C19: a number with more than `N` digits writes past the array. -/
theorem C19_ofInt_too_long (N : Nat) (x : Int) (hN : N < (decimalDigits x.natAbs).length) :
    ofInt N x = .ub := by
  unfold ofInt
  split
  · rfl
  · exact ofIntLoop_ub _ _ _ (build_zero N _) (by simpa [zero] using hN)

example : 3 < (decimalDigits (1234 : Int).natAbs).length := by decide +kernel

/-- C19: a number built from the decimal text of `x` denotes `x` and prints the same text; it is clean
unless `x = 0`. -/
theorem C19_ofString_decimal (N : Nat) (x : Int) (h1 : 1 ≤ N)
    (hN : (decimalDigits x.natAbs).length ≤ N) :
    ∃ b, ofString N (decimal x) = .ok b ∧ val b = x ∧ toString b = .ok (decimal x) ∧
      (x ≠ 0 → Clean N b ∧ PosZero b) := by
  have gen : ∀ (s : Int) (t : Str), (s = 1 ∨ s = -1) → t.length ≤ N → (∀ c ∈ t, IsDigit c) →
      ∃ r c, ofStringLoop { zero N with sign := s } t.reverse = .ok r ∧ Build N r c ∧ r.sign = s ∧
        text c r.len = t := by
    intro s t _ hl hd
    obtain ⟨r, c, e, hb, hs', ht⟩ := ofStringLoop_spec t.reverse _ _ (build_zero N s)
      (by simpa [zero] using hl) (fun y hy => hd y (List.mem_reverse.mp hy))
    exact ⟨r, c, e, hb, hs', by rw [ht]; simp [zero, text]⟩
  by_cases h0 : x = 0
  · subst h0
    obtain ⟨r, c, e, hb, hs, ht⟩ := gen 1 [byte '0'] (.inl rfl) (by simpa using h1)
      (by intro c hc; rw [List.mem_singleton.mp hc]; exact ⟨by decide, by decide⟩)
    have hd : decimal 0 = [byte '0'] := by unfold decimal; rw [if_pos rfl]
    refine ⟨r, ?_, ?_, ?_, fun h => absurd rfl h⟩
    · rw [hd]; exact e
    · rw [val_eq, build_mag hb, ht]
      show r.sign * 0 = 0
      ring
    · rw [build_toString hb, ht, hd, hs]; rfl
  · by_cases hneg : x < 0
    · obtain ⟨r, c, e, hb, hs, ht⟩ := gen (-1) (decimalDigits x.natAbs) (.inr rfl) hN
        (decimalDigits_isDigit _)
      have hd : decimal x = byte '-' :: decimalDigits x.natAbs := by
        unfold decimal; rw [if_neg h0, if_pos hneg]
      obtain ⟨hc, hm⟩ := build_clean hb (.inr hs) _ ht
      refine ⟨r, ?_, ?_, ?_, fun _ => ⟨hc, fun hl => ?_⟩⟩
      · rw [hd]; unfold ofString; dsimp only; rw [if_pos rfl]; exact e
      · rw [val_eq, hs, hm]; omega
      · rw [build_toString hb, ht, hd, hs]; rfl
      · have := mag_zero hl; omega
    · obtain ⟨r, c, e, hb, hs, ht⟩ := gen 1 (decimalDigits x.natAbs) (.inl rfl) hN
        (decimalDigits_isDigit _)
      have hd : decimal x = decimalDigits x.natAbs := by
        unfold decimal; rw [if_neg h0, if_neg hneg]
      obtain ⟨hc, hm⟩ := build_clean hb (.inl hs) _ ht
      refine ⟨r, ?_, ?_, ?_, fun _ => ⟨hc, fun _ => hs⟩⟩
      · rw [hd]
        have hdig := decimalDigits_isDigit x.natAbs
        have hne : decimalDigits x.natAbs ≠ [] := decimalDigits_ne_nil (by omega)
        revert e hdig hne
        generalize decimalDigits x.natAbs = t
        intro e hdig hne
        cases t with
        | nil => exact absurd rfl hne
        | cons d t =>
          have : d ≠ byte '-' := by
            rintro rfl
            exact absurd (hdig (byte '-') (by simp)).1 (by decide)
          unfold ofString; dsimp only; rw [if_neg this]; exact e
      · rw [val_eq, hs, hm]; omega
      · rw [build_toString hb, ht, hd, hs]; rfl

example : (decimalDigits (-905 : Int).natAbs).length ≤ 8 := by decide +kernel
example : (do let b ← ofString 8 (decimal (-905)); Out.ok (val b)) = .ok (-905) := by decide +kernel

/-! ### addition -/

/-- C20: `a + b` for operands of equal sign, or with a non-negative sum; operands with at least one
unused cell.  Missing: different signs with a negative sum, and full-length operands. -/
theorem C20_plus_partial (N fuel : Nat) (a b : Big) (ha : Clean N a) (hb : Clean N b)
    (hl : max a.len b.len < N) (h : a.sign = b.sign ∨ 0 ≤ val a + val b) :
    ∃ r, plus N (fuel + 1) a b = .ok r ∧ Clean N r ∧ val r = val a + val b := by
  have hraw : ∃ r, plusRaw N (fuel + 1) a b = .ok r ∧ Clean N r ∧ val r = val a + val b := by
    unfold plusRaw
    by_cases hs : a.sign = b.sign
    · rw [if_pos hs]
      obtain ⟨r, e, hc, hm, hsr⟩ := add_spec ha hb hl
      exact ⟨r, e, hc, by rw [val_eq, val_eq, val_eq, hm, hsr, ← hs]; ring⟩
    · have hsum := h.resolve_left hs
      rw [if_neg hs]
      rw [val_eq, val_eq] at hsum ⊢
      rcases ha.sign with sa | sa <;> rcases hb.sign with sb | sb
      · rw [sa, sb] at hs; exact absurd rfl hs
      · rw [if_neg (by omega)]
        rw [sa, sb] at hsum ⊢
        obtain ⟨r, e, hc, hv, _⟩ := sub_mixed (fuel := fuel) ha hb sa (by linarith)
        exact ⟨r, e, hc, by rw [hv]; ring⟩
      · rw [if_pos (by omega)]
        rw [sa, sb] at hsum ⊢
        obtain ⟨r, e, hc, hv, _⟩ := sub_mixed (fuel := fuel) hb ha sb (by linarith)
        exact ⟨r, e, hc, by rw [hv]; ring⟩
      · rw [sa, sb] at hs; exact absurd rfl hs
  obtain ⟨r, e, hc, hv⟩ := hraw
  have hz := assign_clean (zero_clean N) hc (Nat.zero_le _)
  refine ⟨assign (zero N) r, ?_, hz.1, ?_⟩
  · unfold plus; rw [e]; rfl
  · rw [val_eq, hz.2.1, hz.2.2.1, ← val_eq, hv]

example : (do Out.ok (val (← plus 8 9 (← ofInt 8 999) (← ofInt 8 1)))) = .ok 1000 ∧
    (do Out.ok (val (← plus 8 9 (← ofInt 8 (-12)) (← ofInt 8 30)))) = .ok 18 := by decide +kernel

/-- C20 refuted: with different signs and a negative sum the addition never returns. -/
theorem C20_plus_diverges_refuted (N : Nat) (a b : Big) (ha : Clean N a) (hb : Clean N b)
    (hs : a.sign ≠ b.sign) (h : val a + val b < 0) (fuel : Nat) : plus N fuel a b = .diverge := by
  have : plusRaw N fuel a b = .diverge := by
    unfold plusRaw
    rw [if_neg hs]
    rw [val_eq, val_eq] at h
    rcases ha.sign with sa | sa <;> rcases hb.sign with sb | sb
    · rw [sa, sb] at hs; exact absurd rfl hs
    · rw [sa, sb] at h
      rw [if_neg (by omega)]
      exact (sub_mixed_diverges ha hb sa sb (by linarith) fuel).1
    · rw [sa, sb] at h
      rw [if_pos (by omega)]
      exact (sub_mixed_diverges hb ha sb sa (by linarith) fuel).1
    · rw [sa, sb] at hs; exact absurd rfl hs
  unfold plus; rw [this]; rfl

example : ∃ a b, ofInt 8 5 = .ok a ∧ ofInt 8 (-7) = .ok b ∧ Clean 8 a ∧ Clean 8 b ∧
    a.sign ≠ b.sign ∧ val a + val b < 0 := by
  obtain ⟨a, e1, ca, pa, va, _⟩ := C19_ofInt_partial 8 5 (by decide) (by decide +kernel)
  obtain ⟨b, e2, cb, pb, vb, _⟩ := C19_ofInt_partial 8 (-7) (by decide) (by decide +kernel)
  refine ⟨a, b, e1, e2, ca, cb, ?_, by omega⟩
  intro hs
  have ma := mag_nonneg ca.toValid
  have mb := mag_nonneg cb.toValid
  rw [val_eq] at va vb
  rcases ca.sign with h | h <;> rw [h] at va <;> rw [← hs, h] at vb <;> omega

/-- C20 refuted: `5 + (-7)`. -/
theorem C20_plus_refuted (fuel : Nat) :
    (do plus 8 fuel (← ofInt 8 5) (← ofInt 8 (-7))) = .diverge := by
  obtain ⟨a, e1, ca, _, va, _⟩ := C19_ofInt_partial 8 5 (by decide) (by decide +kernel)
  obtain ⟨b, e2, cb, _, vb, _⟩ := C19_ofInt_partial 8 (-7) (by decide) (by decide +kernel)
  rw [e1, Out.ok_bind, e2, Out.ok_bind]
  refine C20_plus_diverges_refuted 8 a b ca cb ?_ (by omega) fuel
  intro hs
  have ma := mag_nonneg ca.toValid
  have mb := mag_nonneg cb.toValid
  rw [val_eq] at va vb
  rcases ca.sign with h | h <;> rw [h] at va <;> rw [← hs, h] at vb <;> omega

/-- C20 refuted: operands of full length read past the array, even if the sum fits. -/
theorem C20_plus_full_refuted : (match (do plus 1 9 (← ofInt 1 2) (← ofInt 1 3)) with
    | .ub => true | _ => false) = true := by decide +kernel

/-- C20: `a + x` with an `int64_t` operand, under the conditions of `C20_plus_partial`. -/
theorem C20_plusInt_partial (N fuel : Nat) (a : Big) (x : Int) (ha : Clean N a) (hx : x ≠ INT64_MIN)
    (hxl : (decimalDigits x.natAbs).length < N) (hl : a.len < N)
    (h : 0 ≤ val a + x ∨ (a.sign = -1 ∧ x < 0)) :
    ∃ r, plusInt N (fuel + 1) a x = .ok r ∧ Clean N r ∧ val r = val a + x := by
  obtain ⟨b, e, hb, _, hv, _⟩ := C19_ofInt_partial N x hx hxl.le
  have hbl := ofInt_len e
  rw [← hv] at h ⊢
  obtain ⟨r, e', hc, hr⟩ := C20_plus_partial N fuel a b ha hb (by omega) (by
    rcases h with h | ⟨h1, h2⟩
    · exact .inr h
    · refine .inl ?_
      rw [h1]
      rcases hb.sign with hs | hs
      · rw [val_eq, hs] at h2
        have := mag_nonneg hb.toValid
        omega
      · exact hs.symm)
  refine ⟨r, ?_, hc, hr⟩
  unfold plusInt
  rw [hv, e]
  exact e'

example : (do Out.ok (val (← plusInt 8 9 (← ofInt 8 999) (-99)))) = .ok 900 := by decide +kernel

/-! ### subtraction -/

/-- C21: `a - b` for operands of different sign, for non-negative operands, and for equal negative
operands.  Missing: different negative operands. -/
theorem C21_minus_partial (N fuel : Nat) (a b : Big) (ha : Clean N a) (hb : Clean N b)
    (hl : max a.len b.len < N)
    (h : a.sign ≠ b.sign ∨ (a.sign = 1 ∧ b.sign = 1) ∨ val a = val b) :
    ∃ r, minus N (fuel + 2) a b = .ok r ∧ Clean N r ∧ val r = val a - val b := by
  have hraw : ∃ r, minusRaw N (fuel + 2) a b = .ok r ∧ Clean N r ∧ val r = val a - val b := by
    unfold minusRaw
    by_cases hs : a.sign = b.sign
    · rw [if_pos hs]
      rcases ha.sign with sa | sa
      · rw [if_neg (by omega)]
        obtain ⟨r, e, hc, hv, _⟩ := sub_pos (fuel := fuel) ha hb sa (by omega)
        exact ⟨r, e, hc, by rw [hv, val_eq, val_eq, sa, show b.sign = 1 by omega]; ring⟩
      · rw [if_pos (by omega)]
        have sb : b.sign = -1 := by omega
        have hv : val a = val b := by
          rcases h with h | h | h
          · exact absurd hs h
          · omega
          · exact h
        have hm : mag a = mag b := by rw [val_eq, val_eq, sa, sb] at hv; linarith
        have hc := (cmpAbs_spec hb.toValid ha.toValid).2.1 hm.symm
        obtain ⟨r, e, hc, hv', hs'⟩ := sub_direct (fuel := fuel + 1) hb ha hc (by omega) hm.le
        exact ⟨r, e, hc, by rw [hv, val_eq r, hv', hm]; ring⟩
    · rw [if_neg hs]
      obtain ⟨r, e, hc, hm, hsr⟩ := add_spec ha hb hl
      refine ⟨r, e, hc, ?_⟩
      have : b.sign = -a.sign := by
        rcases ha.sign with sa | sa <;> rcases hb.sign with sb | sb <;> omega
      rw [val_eq, val_eq, val_eq, hm, hsr, this]; ring
  obtain ⟨r, e, hc, hv⟩ := hraw
  have hz := assign_clean (zero_clean N) hc (Nat.zero_le _)
  refine ⟨assign (zero N) r, ?_, hz.1, ?_⟩
  · unfold minus; rw [e]; rfl
  · rw [val_eq, hz.2.1, hz.2.2.1, ← val_eq, hv]

example : (do Out.ok (val (← minus 8 9 (← ofInt 8 5) (← ofInt 8 1000)))) = .ok (-995) ∧
    (do Out.ok (val (← minus 8 9 (← ofInt 8 (-5)) (← ofInt 8 7)))) = .ok (-12) := by decide +kernel

/-- C21 refuted: `(-5) - (-7)` gives `-8` and `(-7) - (-5)` gives `8`. -/
theorem C21_minus_refuted :
    (do Out.ok (val (← minus 8 9 (← ofInt 8 (-5)) (← ofInt 8 (-7))))) = .ok (-8) ∧
    (do Out.ok (val (← minus 8 9 (← ofInt 8 (-7)) (← ofInt 8 (-5))))) = .ok 8 := by decide +kernel

/-- C21: `a - x` with an `int64_t` operand, for `x` and `a` not both negative. -/
theorem C21_minusInt_partial (N fuel : Nat) (a : Big) (x : Int) (ha : Clean N a) (hx : x ≠ INT64_MIN)
    (hxl : (decimalDigits x.natAbs).length < N) (hl : a.len < N) (h : a.sign = 1 ∨ 0 ≤ x) :
    ∃ r, minusInt N (fuel + 2) a x = .ok r ∧ Clean N r ∧ val r = val a - x := by
  obtain ⟨b, e, hb, pz, hv, _⟩ := C19_ofInt_partial N x hx hxl.le
  have hbl := ofInt_len e
  have hbs := ofInt_sign e
  rw [← hv] at h ⊢
  obtain ⟨r, e', hc, hr⟩ := C21_minus_partial N fuel a b ha hb (by omega) (by
    rcases ha.sign with h1 | h1
    · by_cases h2 : b.sign = 1
      · exact .inr (.inl ⟨h1, h2⟩)
      · exact .inl (by omega)
    · refine .inl ?_
      rw [if_neg (by omega)] at hbs
      omega)
  refine ⟨r, ?_, hc, hr⟩
  unfold minusInt
  rw [hv, e]
  exact e'

example : (do Out.ok (val (← minusInt 8 9 (← ofInt 8 999) (-99)))) = .ok 1098 := by decide +kernel

/-! ### multiplication -/

/-- C22: `a * b` for a non-negative right operand; the digits of the product must fit.  Missing: a
negative right operand, see the exact result in the second part. -/
theorem C22_times_partial (N : Nat) (a b : Big) (ha : Valid N a) (hb : Valid N b)
    (hN : N ≤ 20000000) (hl : a.len + b.len ≤ N) :
    ∃ r, times N a b = .ok r ∧ Clean N r ∧ (b.sign = 1 → val r = val a * val b) ∧
      (b.sign = -1 → val r = -(val a * val b)) := by
  obtain ⟨r, e, hc, hm, hs, _⟩ := mul_spec ha hb hN hl
  have key : val r = a.sign * (mag a * mag b) := by
    rw [val_eq]
    rcases hs with h | ⟨h, h'⟩
    · rw [h, hm]
    · rw [h', ← hm, h]; ring
  refine ⟨r, e, hc, fun h => ?_, fun h => ?_⟩
  · rw [key, val_eq, val_eq, h]; ring
  · rw [key, val_eq, val_eq, h]; ring

example : (do Out.ok (val (← times 8 (← ofInt 8 (-123)) (← ofInt 8 456)))) = .ok (-56088) := by
  decide +kernel

/-- C22 refuted: the sign of the right operand is ignored, and a product that fits can still write
past the array. -/
theorem C22_times_refuted :
    (do Out.ok (val (← times 8 (← ofInt 8 2) (← ofInt 8 (-3))))) = .ok 6 ∧
    (do Out.ok (val (← times 8 (← ofInt 8 (-2)) (← ofInt 8 (-3))))) = .ok (-6) ∧
    (do Out.ok (val (← times 1 (← ofInt 1 2) (← ofInt 1 3)))) = .ub := by decide +kernel

/-- C22: `a * x` and `a *= x` with an `int64_t` operand: right for `x ≥ 0`, negated for `x < 0`. -/
theorem C22_timesInt_partial (N : Nat) (a : Big) (x : Int) (ha : Valid N a) (hN : N ≤ 20000000)
    (hx : x ≠ INT64_MIN) (hl : a.len + (decimalDigits x.natAbs).length ≤ N) :
    ∃ r r', timesInt N a x = .ok r ∧ timesAssignInt N a x = .ok r' ∧ Clean N r ∧
      val r = (if 0 ≤ x then val a * x else -(val a * x)) ∧ val r' = val r := by
  obtain ⟨b, e, hb, pz, hv, _⟩ := C19_ofInt_partial N x hx (by omega)
  have hbl := ofInt_len e
  have hbs := ofInt_sign e
  obtain ⟨r, e', hc, h1, h2⟩ := C22_times_partial N a b ha hb.toValid hN (by omega)
  unfold times at e'
  have hz := assign_clean (zero_clean N) hc (Nat.zero_le _)
  refine ⟨assign (zero N) r, assign a r, ?_, ?_, hz.1, ?_, ?_⟩
  · unfold timesInt; rw [e, Out.ok_bind, e']; rfl
  · unfold timesAssignInt; rw [e, Out.ok_bind, e']; rfl
  · rw [val_eq, hz.2.1, hz.2.2.1, ← val_eq]
    split
    · rw [if_neg (by omega)] at hbs
      rw [h1 hbs, hv]
    · rw [if_pos (by omega)] at hbs
      rw [h2 hbs, hv]
  · exact val_assign _ _ _

example : (do Out.ok (val (← timesInt 8 (← ofInt 8 999) 99))) = .ok 98901 := by decide +kernel

/-! ### comparison -/

/-- C23: the six comparisons agree with the integers denoted. -/
theorem C23_compare (N : Nat) (a b : Big) (ha : Valid N a) (hb : Valid N b) (pa : PosZero a)
    (pb : PosZero b) :
    lt a b = .ok (decide (val a < val b)) ∧ le a b = .ok (decide (val a ≤ val b)) ∧
    gt a b = .ok (decide (val a > val b)) ∧ ge a b = .ok (decide (val a ≥ val b)) ∧
    eq a b = .ok (decide (val a = val b)) ∧ ne a b = .ok (decide (val a ≠ val b)) := by
  obtain ⟨c, e, h1, h2⟩ := cmp_spec ha hb pa pb
  unfold lt le gt ge eq ne
  rw [e]
  simp only [Out.ok_bind, Out.ok.injEq, decide_eq_decide]
  refine ⟨h1, ?_, ?_, ?_, h2, ?_⟩ <;> omega

example : (do lt (← ofInt 8 (-12)) (← ofInt 8 5)) = .ok true ∧
    (do ge (← ofInt 8 (-12)) (← ofInt 8 (-5))) = .ok false := by decide +kernel

/-! ### assignment and copying -/

/-- C24: assigning and copying keep the number denoted, and the result is valid; it is clean, so that
addition and subtraction work, if the old value of the target was not longer.  Missing: a longer old
value, and copy construction. -/
theorem C24_assign_partial (N : Nat) (d s : Big) (hd : Clean N d) (hs : Clean N s) :
    val (assign d s) = val s ∧ Valid N (assign d s) ∧ val (copy s) = val s ∧ Valid N (copy s) ∧
      (d.len ≤ s.len → Clean N (assign d s)) := by
  have gen : ∀ (e : Arr Int), e.size = N →
      val ⟨copyCells e s.elem s.len, s.len, s.sign⟩ = val s ∧
      Valid N ⟨copyCells e s.elem s.len, s.len, s.sign⟩ := by
    intro e he
    have dg : ∀ k, k < s.len → digit ⟨copyCells e s.elem s.len, s.len, s.sign⟩ k = digit s k := by
      intro k hk; simp [digit, copyCells, hk]
    refine ⟨?_, he, hs.len, hs.sign, ?_, ?_⟩
    · show s.sign * _ = s.sign * _
      rw [horner_congr dg]
    · intro i hi
      rw [dg i hi]
      refine ⟨?_, (hs.digits i hi).2⟩
      have : i < s.len := hi
      simp only [copyCells, this, if_true]
      exact (hs.digits i hi).1
    · intro h0
      have h0' : 0 < s.len := h0
      show digit _ (s.len - 1) ≠ 0
      rw [dg _ (by omega)]
      exact hs.top h0'
  exact ⟨(gen d.elem hd.size).1, (gen d.elem hd.size).2, (gen (Arr.new s.elem.size) hs.size).1,
    (gen (Arr.new s.elem.size) hs.size).2, fun h => (assign_clean hd hs h).1⟩

example : (do let a ← ofInt 8 7; let b ← ofInt 8 1234; Out.ok (val (assign a b), val (copy b))) =
    .ok (1234, 1234) := by decide +kernel

/-- C24 refuted: after `a = 999; a = 5;` the sum `a + 100` is 1095, and adding 100 to a copy of 5
reads indeterminate cells. -/
theorem C24_assign_refuted :
    (do
      let a := assign (← ofInt 8 999) (← ofInt 8 5)
      Out.ok (val a, val (← plusInt 8 9 a 100))) = .ok (5, 1095) ∧
    (do
      let a := copy (← ofInt 8 5)
      Out.ok (val (← plusInt 8 9 a 100))) = .ub := by decide +kernel

/-! ### compound assignment -/

/-- C71: `a += b` and `a -= b` leave `a` denoting what `a + b` and `a - b` denote. -/
theorem C71_compound_partial (N fuel : Nat) (a b r : Big) :
    (plus N fuel a b = .ok r → ∃ a', plusAssign N fuel a b = .ok a' ∧ val a' = val r) ∧
    (minus N fuel a b = .ok r → ∃ a', minusAssign N fuel a b = .ok a' ∧ val a' = val r) := by
  have gen := val_assign a (zero N)
  constructor
  · intro h
    obtain ⟨x, hx, h⟩ := Out.bind_eq_ok.mp h
    cases h
    exact ⟨assign a x, by unfold plusAssign; rw [hx]; rfl, gen x⟩
  · intro h
    obtain ⟨x, hx, h⟩ := Out.bind_eq_ok.mp h
    cases h
    exact ⟨assign a x, by unfold minusAssign; rw [hx]; rfl, gen x⟩

example : (do
    let a ← plusAssign 8 9 (← ofInt 8 95) (← ofInt 8 7)
    let b ← minusAssign 8 9 a (← ofInt 8 200)
    Out.ok (val a, val b)) = .ok (102, -98) := by decide +kernel

/-- C71: `a *= x` leaves `a` denoting what `a * x` denotes (`C22_timesInt_partial` says when that is the product). -/
theorem C71_times_partial (N : Nat) (a r : Big) (x : Int) (h : timesInt N a x = .ok r) :
    ∃ a', timesAssignInt N a x = .ok a' ∧ val a' = val r := by
  unfold timesInt at h
  obtain ⟨b, hb, h⟩ := Out.bind_eq_ok.mp h
  obtain ⟨m, hm, h⟩ := Out.bind_eq_ok.mp h
  cases h
  exact ⟨assign a m, by unfold timesAssignInt; rw [hb, Out.ok_bind, hm]; rfl, val_assign a (zero N) m⟩

example : (do
    let a ← ofInt 8 95
    Out.ok (val (← timesInt 8 a 7), val (← timesAssignInt 8 a 7))) = .ok (665, 665) := by decide +kernel

/-- C71: `++a` on numbers from -1 upwards and `--a` on all numbers. -/
theorem C71_inc_dec_partial (N fuel : Nat) (a : Big) (ha : Clean N a) (hl : a.len + 1 < N) :
    (-1 ≤ val a → ∃ r, inc N (fuel + 1) a = .ok r ∧ val r = val a + 1) ∧
    (∃ r, dec N (fuel + 2) a = .ok r ∧ val r = val a - 1) := by
  have h1 : (decimalDigits (1 : Int).natAbs).length < N := by
    have : (decimalDigits (1 : Int).natAbs).length = 1 := by decide +kernel
    omega
  constructor
  · intro h
    obtain ⟨r, e, _, hv⟩ := C20_plusInt_partial N fuel a 1 ha (by decide) h1 (by omega) (.inl (by omega))
    unfold plusInt at e
    obtain ⟨b, eb, e⟩ := Out.bind_eq_ok.mp e
    obtain ⟨a', e', hv'⟩ := (C71_compound_partial N (fuel + 1) a b r).1 e
    exact ⟨a', by unfold inc plusAssignInt; rw [eb]; exact e', by rw [hv', hv]⟩
  · obtain ⟨r, e, _, hv⟩ := C21_minusInt_partial N fuel a 1 ha (by decide) h1 (by omega) (.inr (by omega))
    unfold minusInt at e
    obtain ⟨b, eb, e⟩ := Out.bind_eq_ok.mp e
    obtain ⟨a', e', hv'⟩ := (C71_compound_partial N (fuel + 2) a b r).2 e
    exact ⟨a', by unfold dec minusAssignInt; rw [eb]; exact e', by rw [hv', hv]⟩

example : (do
    let a ← ofInt 8 999
    Out.ok (val (← inc 8 9 a), val (← dec 8 9 a))) = .ok (1000, 998) := by decide +kernel

/-- C71 refuted: after `a = 10; --a;` the value is 9, but `a + 10` gives 29.  After
`a = 12; a *= 0;` the value is 0, but `a + 5` gives 7. -/
theorem C71_compound_refuted :
    (do
      let a ← dec 8 9 (← ofInt 8 10)
      Out.ok (val a, val (← plusInt 8 9 a 10))) = .ok (9, 29) ∧
    (do
      let a ← timesAssignInt 8 (← ofInt 8 12) 0
      Out.ok (val a, val (← plusInt 8 9 a 5))) = .ok (0, 7) := by decide +kernel

/-! ### postfix operators -/

/-- The property C122 for `r = a++`: `r` is the old value and `a` is one greater. -/
def C122 : Prop :=
  ∀ (N fuel : Nat) (a : Big), Clean N a → a.len + 1 < N → -1 ≤ val a → ∃ a' ret r, postInc N (fuel + 1) a = .ok (a', ret) ∧
    val a' = val a + 1 ∧ ret.read = .ok r ∧ val r = val a

/-- C122 is false: what is returned refers to a variable that no longer exists. -/
theorem C122_refuted : ¬ C122 := by
  intro h
  obtain ⟨a, e, hc, -, hv, -⟩ := C19_ofInt_partial 8 5 (by decide) (by decide +kernel)
  have hl : (do Out.ok (← ofInt 8 5).len) = .ok 1 := by decide +kernel
  rw [e, Out.ok_bind] at hl
  injection hl with hl
  obtain ⟨_, _, _, -, -, e, -⟩ := h 8 0 a hc (by omega) (by omega)
  cases e

/-- C122, what holds: as statements `a++;` and `a--;` do what `++a;` and `--a;` do. -/
theorem C122_partial (N fuel : Nat) (a : Big) (ha : Clean N a) (hl : a.len + 1 < N) :
    (-1 ≤ val a → ∃ a' ret, postInc N (fuel + 1) a = .ok (a', ret) ∧ val a' = val a + 1) ∧
    (∃ a' ret, postDec N (fuel + 2) a = .ok (a', ret) ∧ val a' = val a - 1) := by
  obtain ⟨h1, r, e, hv⟩ := C71_inc_dec_partial N fuel a ha hl
  refine ⟨fun h => ?_, r, _, by rw [postDec, e]; rfl, hv⟩
  obtain ⟨r, e, hv⟩ := h1 h
  exact ⟨r, _, by rw [postInc, e]; rfl, hv⟩

example : (do
    let (a, _) ← postInc 8 9 (← ofInt 8 999)
    let (b, _) ← postDec 8 9 a
    Out.ok (val a, val b)) = .ok (1000, 999) := by decide +kernel

/-! ### negation -/

/-- C72: `-a` denotes the negated integer and compares correctly, except that `-0` is not the
canonical zero. -/
theorem C72_neg_partial (N : Nat) (a : Big) (ha : Valid N a) :
    val (neg a) = -val a ∧ Valid N (neg a) ∧ (a.len ≠ 0 → PosZero (neg a)) := by
  have dg : ∀ k, k < a.len → digit (neg a) k = digit a k := by
    intro k hk; simp [digit, neg, copy, copyCells, hk]
  refine ⟨?_, ⟨ha.size, ha.len, ?_, ?_, ?_⟩, fun h h' => absurd h' h⟩
  · show -a.sign * horner _ a.len = -(a.sign * horner _ a.len)
    rw [horner_congr dg]; ring
  · show -a.sign = 1 ∨ -a.sign = -1
    rcases ha.sign with h | h <;> omega
  · intro i hi
    have hi' : i < a.len := hi
    rw [dg i hi']
    refine ⟨?_, (ha.digits i hi').2⟩
    simp only [neg, copy, copyCells, hi', if_true]
    exact (ha.digits i hi').1
  · intro h0
    have h0' : 0 < a.len := h0
    show digit (neg a) (a.len - 1) ≠ 0
    rw [dg _ (by omega)]
    exact ha.top h0'

example : (do
    let a ← ofInt 8 95
    Out.ok (val (neg a), ← lt (neg a) a)) = .ok (-95, true) := by decide +kernel

/-- C72 refuted: `-0 == 0` is false, `-0 < 0` is true, and `-5 + 100` reads indeterminate cells
(the negated number is a copy). -/
theorem C72_neg_refuted :
    (do let z ← ofInt 8 0; eq (neg z) z) = .ok false ∧
    (do let z ← ofInt 8 0; lt (neg z) z) = .ok true ∧
    (do let a ← ofInt 8 5; Out.ok (val (← plusInt 8 9 (neg a) 100))) = .ub := by decide +kernel

end BigNum
