import Verif.Proof.Fraction

/-! # Properties C14–C18: `Fraction`

`Spec.val f` is the rational number denoted, `Spec.Canonical f` the canonical form,
`Spec.Small x` says `-INT_MAX ≤ x ≤ INT_MAX`. -/

namespace Fraction
open Cpp Spec

/-! ### canonical form -/

/-- C14: a constructed fraction is canonical and denotes the quotient of the arguments. -/
theorem C14_ctor_canonical (n d : Int) (f : Frac) (hn : IsInt n) (hd : IsInt d)
    (h : mk2 n d = .ok f) : Canonical f ∧ val f = (n : ℚ) / (d : ℚ) :=
  mk2_val hn hd h

/-- C14: the constructor returns for all `int`s other than `INT_MIN` with a non-zero denominator. -/
theorem C14_ctor_defined (n d : Int) (hn : Small n) (hd : Small d) (h0 : d ≠ 0) :
    ∃ f, mk2 n d = .ok f :=
  mk2_defined hn hd h0

/-- C14: a zero denominator ends the program. -/
theorem C14_ctor_zero (n : Int) : mk2 n 0 = .exit := by simp [mk2]

/-- C14: the constructors with fewer arguments: `Fraction(v)` is the integer, for every `int`, and `Fraction()` is zero. -/
theorem C14_ctor_values (v : Int) (hv : IsInt v) :
    (∃ f, ofInt v = .ok f ∧ Canonical f ∧ val f = v) ∧ ∃ f, default = .ok f ∧ Canonical f ∧ val f = 0 :=
  ⟨⟨_, ofInt_eq v, ofInt_canonical v hv, val_ofInt v⟩,
    ⟨_, ofInt_eq 0, ofInt_canonical 0 (by decide), by rw [val_ofInt]; simp⟩⟩

/-- C14: whatever an arithmetic operation returns is canonical. -/
theorem C14_ops_canonical (a b c : Frac) (ha : Canonical a) (hb : Canonical b)
    (h : add a b = .ok c ∨ sub a b = .ok c ∨ mul a b = .ok c ∨ div a b = .ok c ∨
      addAssign a b = .ok c ∨ subAssign a b = .ok c ∨ mulAssign a b = .ok c ∨
      divAssign a b = .ok c) : Canonical c := by
  rw [addAssign_eq, subAssign_eq, mulAssign_eq] at h
  rcases h with h | h | h | h | h | h | h | h
  · exact (add_val ha hb h).1
  · exact (sub_val ha hb h).1
  · exact (mul_val h).1
  · exact (div_val h).1
  · exact (add_val ha hb h).1
  · exact (sub_val ha hb h).1
  · exact (mul_val h).1
  · unfold divAssign at h
    obtain ⟨n, h1, h⟩ := Out.bind_eq_ok.mp h
    obtain ⟨d, h2, h⟩ := Out.bind_eq_ok.mp h
    rw [out_eta] at h
    exact (mk2_val (quot_isInt ha.num_int h1) (quot_isInt ha.den_int h2) h).1

example : mk2 6 (-8) = .ok ⟨-3, 4⟩ := by decide +kernel
example : Small 6 ∧ Small (-8) ∧ (-8 : Int) ≠ 0 ∧ IsInt 6 ∧ IsInt (-8) := by decide
example : Canonical ⟨-3, 4⟩ := ⟨by decide, by decide, by decide, by decide⟩

/-! ### exact arithmetic -/

/-- C15: whatever `a + b`, `a - b`, `a * b`, `a / b` return is the exact rational result. -/
theorem C15_exact (a b c : Frac) (ha : Canonical a) (hb : Canonical b) :
    (add a b = .ok c → val c = val a + val b) ∧
    (sub a b = .ok c → val c = val a - val b) ∧
    (mul a b = .ok c → val c = val a * val b) ∧
    (div a b = .ok c → val b ≠ 0 ∧ val c = val a / val b) := by
  refine ⟨fun h => (add_val ha hb h).2, fun h => (sub_val ha hb h).2, fun h => (mul_val h).2,
    fun h => ⟨?_, (div_val h).2⟩⟩
  intro h0
  have hz : b.num = 0 := by
    unfold val at h0
    rcases div_eq_zero_iff.mp h0 with h | h
    · exact_mod_cast h
    · exact absurd h (den_ne hb)
  unfold div at h
  obtain ⟨n, h1, h⟩ := Out.bind_eq_ok.mp h
  obtain ⟨d, h2, h⟩ := Out.bind_eq_ok.mp h
  rw [hz, mul_zero, int_eq_ok] at h2
  rw [← h2.2, C14_ctor_zero] at h
  cases h

/-- C15: the operations return whenever the intermediate values stay within `±INT_MAX`. -/
theorem C15_defined (a b : Frac) (ha : Canonical a) (hb : Canonical b)
    (h1 : Small (a.num * b.den)) (h2 : Small (a.den * b.num)) (h3 : Small (a.den * b.den)) :
    (Small (a.num * b.den + a.den * b.num) → ∃ c, add a b = .ok c) ∧
    (Small (a.num * b.den - a.den * b.num) → ∃ c, sub a b = .ok c) ∧
    (Small (a.num * b.num) → ∃ c, mul a b = .ok c) ∧
    (b.num ≠ 0 → ∃ c, div a b = .ok c) := by
  have hd : a.den * b.den ≠ 0 := mul_ne_zero ha.den_pos.ne' hb.den_pos.ne'
  refine ⟨fun h => ?_, fun h => ?_, fun h => ?_, fun h => ?_⟩
  · unfold add
    rw [int_ok (small_isInt h1), Out.ok_bind, int_ok (small_isInt h2), Out.ok_bind,
      int_ok (small_isInt h), Out.ok_bind, int_ok (small_isInt h3), Out.ok_bind]
    exact mk2_defined h h3 hd
  · unfold sub
    rw [int_ok (small_isInt h1), Out.ok_bind, int_ok (small_isInt h2), Out.ok_bind,
      int_ok (small_isInt h), Out.ok_bind, int_ok (small_isInt h3), Out.ok_bind]
    exact mk2_defined h h3 hd
  · unfold mul
    rw [int_ok (small_isInt h), Out.ok_bind, int_ok (small_isInt h3), Out.ok_bind]
    exact mk2_defined h h3 hd
  · unfold div
    rw [int_ok (small_isInt h1), Out.ok_bind, int_ok (small_isInt h2), Out.ok_bind]
    exact mk2_defined h1 h2 (mul_ne_zero ha.den_pos.ne' h)

/-- C15: dividing by zero ends the program (as long as the numerator product does not overflow). -/
theorem C15_div_zero (a b : Frac) (h0 : b.num = 0) (h : IsInt (a.num * b.den)) :
    div a b = .exit := by
  unfold div
  rw [int_ok h, Out.ok_bind, h0, mul_zero, int_ok (by decide), Out.ok_bind]
  exact C14_ctor_zero _

example : add ⟨1, 2⟩ ⟨1, 3⟩ = .ok ⟨5, 6⟩ ∧ sub ⟨1, 2⟩ ⟨1, 3⟩ = .ok ⟨1, 6⟩ ∧
    mul ⟨2, 3⟩ ⟨3, 4⟩ = .ok ⟨1, 2⟩ ∧ div ⟨1, 2⟩ ⟨-3, 4⟩ = .ok ⟨-2, 3⟩ ∧
    div ⟨1, 2⟩ ⟨0, 1⟩ = .exit := by decide +kernel
example : Small ((1 : Int) * 4) ∧ Small ((2 : Int) * -3) ∧ Small ((2 : Int) * 4) ∧
    Small ((1 : Int) * 4 + 2 * -3) := by decide

/-! ### comparisons -/

/-- C16: equality of canonical fractions is equality of rationals. -/
theorem C16_eq (a b : Frac) (ha : Canonical a) (hb : Canonical b) :
    (eq a b = true ↔ val a = val b) ∧ (ne a b = true ↔ val a ≠ val b) := by
  have key : val a = val b ↔ a.num = b.num ∧ a.den = b.den := by
    constructor
    · intro h; have := val_inj ha hb h; subst this; exact ⟨rfl, rfl⟩
    · rintro ⟨h1, h2⟩; unfold val; rw [h1, h2]
  refine ⟨?_, ?_⟩
  · rw [key]; simp [eq]
  · rw [Ne, key]; simp [ne]; omega

/-- C16: the order comparisons are those of the rationals, when the cross products fit. -/
theorem C16_order (a b : Frac) (ha : Canonical a) (hb : Canonical b)
    (h1 : IsInt (a.num * b.den)) (h2 : IsInt (a.den * b.num)) :
    lt a b = .ok (decide (val a < val b)) ∧ le a b = .ok (decide (val a ≤ val b)) ∧
    gt a b = .ok (decide (val b < val a)) ∧ ge a b = .ok (decide (val b ≤ val a)) := by
  have hc : cross a b = .ok (a.num * b.den, a.den * b.num) := by
    unfold cross; rw [int_ok h1, Out.ok_bind, int_ok h2, Out.ok_bind]
  have m1 : b.num * a.den = a.den * b.num := mul_comm _ _
  have m2 : b.den * a.num = a.num * b.den := mul_comm _ _
  unfold lt le gt ge
  rw [hc]
  simp only [Out.ok_bind, val_lt ha hb, val_le ha hb, val_lt hb ha, val_le hb ha, m1, m2]
  and_intros <;> trivial

example : eq ⟨1, 2⟩ ⟨1, 2⟩ = true ∧ ne ⟨1, 2⟩ ⟨2, 3⟩ = true ∧ lt ⟨-1, 2⟩ ⟨1, 3⟩ = .ok true ∧
    ge ⟨-1, 2⟩ ⟨1, 3⟩ = .ok false := by decide +kernel
example : IsInt ((-1 : Int) * 3) ∧ IsInt ((2 : Int) * 1) := by decide

/-! ### compound assignment -/

/-- C17: `+=`, `-=`, `*=` agree with the binary operators; `/=` does if the components of the divisor
divide those of the dividend. -/
theorem C17_compound_partial (a b : Frac) :
    addAssign a b = add a b ∧ subAssign a b = sub a b ∧ mulAssign a b = mul a b ∧
    (∀ c, Canonical a → Canonical b → b.num ∣ a.num → b.den ∣ a.den → divAssign a b = .ok c →
      val c = val a / val b) := by
  refine ⟨addAssign_eq a b, subAssign_eq a b, mulAssign_eq a b, ?_⟩
  intro c ha hb hn hd h
  unfold divAssign at h
  obtain ⟨n, h1, h⟩ := Out.bind_eq_ok.mp h
  obtain ⟨d, h2, h⟩ := Out.bind_eq_ok.mp h
  rw [out_eta] at h
  rw [(mk2_val (quot_isInt ha.num_int h1) (quot_isInt ha.den_int h2) h).2]
  have e1 := MathFns_quot h1 hn
  have e2 := MathFns_quot h2 hd
  have hb0 : (b.num : ℚ) ≠ 0 := by
    intro h0
    have h0' : b.num = 0 := by exact_mod_cast h0
    rw [h0'] at h1; cases h1
  have hbd := den_ne hb
  unfold val
  rw [← e1, ← e2]
  push_cast
  rw [div_div_div_eq, mul_comm (b.num : ℚ) (n : ℚ), mul_comm (b.den : ℚ) (d : ℚ)]
  have hd0 : (d : ℚ) ≠ 0 := by
    intro h0
    have h0' : d = 0 := by exact_mod_cast h0
    have := ha.den_pos
    rw [← e2, h0', mul_zero] at this
    exact absurd this (lt_irrefl _)
  field_simp
where
  MathFns_quot {x y z : Int} (h : MathFns.quot x y = .ok z) (hd : y ∣ x) : y * z = x := quot_ok h hd

example : divAssign ⟨4, 9⟩ ⟨2, 3⟩ = .ok ⟨2, 3⟩ ∧ div ⟨4, 9⟩ ⟨2, 3⟩ = .ok ⟨2, 3⟩ := by decide +kernel
example : Canonical ⟨4, 9⟩ ∧ Canonical ⟨2, 3⟩ ∧ (2 : Int) ∣ 4 ∧ (3 : Int) ∣ 9 :=
  ⟨⟨by decide, by decide, by decide, by decide⟩, ⟨by decide, by decide, by decide, by decide⟩,
    by decide, by decide⟩

/-- C17 refuted: `(5/3) /= (2/3)` gives 2 instead of 5/2, `(1/2) /= (1/3)` ends the program although
3/2 is a fraction, and `/=` by zero is undefined instead of an error. -/
theorem C17_compound_refuted :
    divAssign ⟨5, 3⟩ ⟨2, 3⟩ = .ok ⟨2, 1⟩ ∧ div ⟨5, 3⟩ ⟨2, 3⟩ = .ok ⟨5, 2⟩ ∧
    divAssign ⟨1, 2⟩ ⟨1, 3⟩ = .exit ∧ div ⟨1, 2⟩ ⟨1, 3⟩ = .ok ⟨3, 2⟩ ∧
    divAssign ⟨1, 2⟩ ⟨0, 1⟩ = .ub := by decide +kernel

/-! ### mixed operands -/

/-- C18: `f + n`, `f - n`, `f * n`, `f / n`, `n + f` and `n * f` are exact.  Missing: `n - f` and
`n / f`, which the code computes as `f - n` and `f / n`. -/
theorem C18_mixed_partial (v : Int) (f c : Frac) (hv : IsInt v) (hf : Canonical f) :
    (addInt f v = .ok c → val c = val f + v) ∧
    (subInt f v = .ok c → val c = val f - v) ∧
    (mulInt f v = .ok c → val c = val f * v) ∧
    (divInt f v = .ok c → v ≠ 0 ∧ val c = val f / v) ∧
    (intAdd v f = .ok c → val c = v + val f) ∧
    (intMul v f = .ok c → val c = v * val f) ∧
    (intSub v f = .ok c → val c = val f - v) ∧
    (intDiv v f = .ok c → val c = val f / v) := by
  have hc := ofInt_canonical v hv
  have he := C15_exact f ⟨v, 1⟩ c hf hc
  rw [val_ofInt] at he
  unfold addInt subInt mulInt divInt intAdd intMul intSub intDiv
  rw [ofInt_eq]
  simp only [Out.ok_bind]
  refine ⟨he.1, he.2.1, he.2.2.1, fun h => ?_, fun h => ?_, fun h => ?_, he.2.1,
    fun h => (he.2.2.2 h).2⟩
  · exact ⟨by exact_mod_cast (he.2.2.2 h).1, (he.2.2.2 h).2⟩
  · rw [he.1 h, add_comm]
  · rw [he.2.2.1 h, mul_comm]

example : addInt ⟨1, 2⟩ 3 = .ok ⟨7, 2⟩ ∧ intAdd 3 ⟨1, 2⟩ = .ok ⟨7, 2⟩ ∧ divInt ⟨1, 2⟩ 3 = .ok ⟨1, 6⟩ := by
  decide +kernel

/-- C18 refuted: `1 - 1/2` gives `-1/2` and `1 / (1/2)` gives `1/2`. -/
theorem C18_mixed_refuted :
    intSub 1 ⟨1, 2⟩ = .ok ⟨-1, 2⟩ ∧ val ⟨-1, 2⟩ ≠ 1 - val ⟨1, 2⟩ ∧
    intDiv 1 ⟨1, 2⟩ = .ok ⟨1, 2⟩ ∧ val ⟨1, 2⟩ ≠ 1 / val ⟨1, 2⟩ := by
  refine ⟨by decide +kernel, by norm_num [val], by decide +kernel, by norm_num [val]⟩

end Fraction
