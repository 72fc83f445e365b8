import Verif.Proof.JsonConv

/-! # JSON, conversions and loops: properties C116, C117, C118 -/

namespace Json.Props
open Cpp Spec

/-- **C116, refuted.**  An integer beyond the range of `int` is stored as another one: 3000000000 is read as
-1294967296, and 2^32 as 0. -/
theorem C116_refuted : (ofIntegral 3000000000).toInt = -1294967296 ∧ (ofIntegral (2 ^ 32)).toInt = 0 := by decide

/-- **C116, what holds.**  An integer in the range of `int` is read back. -/
theorem C116_partial (i : Int) (h : -2 ^ 31 ≤ i) (h' : i < 2 ^ 31) : (ofIntegral i).toInt = i := intOf_of_range h h'

example : (ofIntegral (-2147483648)).toInt = -2147483648 := C116_partial _ (by norm_num) (by norm_num)

/-- **C116, exactly.**  Whatever is stored, `toInt()` is the only `int` that differs from it by a multiple of 2^32; so it
is the stored integer only if that is in range. -/
theorem C116_modulo (i j : Int) : (ofIntegral i).toInt = j ↔ (-2 ^ 31 ≤ j ∧ j < 2 ^ 31) ∧ ∃ k, i = j + k * 2 ^ 32 := by
  show intOf i = j ↔ _
  constructor
  · rintro rfl
    refine ⟨intOf_range i, (i + 2 ^ 31) / 2 ^ 32, ?_⟩
    unfold intOf
    omega
  · rintro ⟨⟨h1, h2⟩, k, rfl⟩
    unfold intOf
    omega

example : (ofIntegral (2 ^ 64 - 1)).toInt = -1 := (C116_modulo _ _).2 ⟨by norm_num, 2 ^ 32, by norm_num⟩

/-- **C117, floats.**  A `float` stored in a `JSONObject` is read back by `toFloat()` unchanged. -/
theorem C117_float_roundtrip (q : ℚ) (h : IsFloat q) : toFloat (ofFloating q) = .fin q := by
  have he := flt32_exact h
  obtain ⟨m, k, _, _, _, hb⟩ := h
  simp only [toFloat, ofFloating, he]
  rw [if_neg (not_le.2 hb)]

example : IsFloat (13421773 / 2 ^ 27) := ⟨13421773, -27, by norm_num, by norm_num, by norm_num, by
  rw [abs_of_pos (by norm_num)]; norm_num⟩

/-- **C117, doubles.**  A `double` is read by `toFloat()` as a `float` that no other `float` is closer to (or as an
infinity). -/
theorem C117_nearest (d r : ℚ) (h : toFloat (ofFloating d) = .fin r) : IsFloat r ∧ ∀ g, IsFloat g → |r - d| ≤ |g - d| := by
  obtain ⟨h1, rfl⟩ := toFloat_fin h
  refine ⟨h1, fun g hg => ?_⟩
  obtain ⟨m, k, hm, hk, rfl, _⟩ := hg
  exact flt32_near d hm hk

/-- **C117, range.**  Doubles up to the largest `float` are not read as infinite. -/
theorem C117_range (d : ℚ) (h : |d| ≤ (2 ^ 24 - 1) * 2 ^ 104) : ∃ r, toFloat (ofFloating d) = .fin r := by
  refine ⟨flt32 d, ?_⟩
  simp only [toFloat, ofFloating]
  rw [if_neg]
  intro hc
  have key : ∀ x : ℚ, |x| ≤ (2 ^ 24 - 1) * 2 ^ 104 → |flt32 x| ≤ (2 ^ 24 - 1) * 2 ^ 104 := by
    intro x hx
    obtain ⟨h1, h2⟩ := abs_le.1 hx
    have a := flt32_near x (m := 2 ^ 24 - 1) (k := 104) (by norm_num) (by norm_num)
    have b := flt32_near x (m := -(2 ^ 24 - 1)) (k := 104) (by norm_num) (by norm_num)
    have e1 : (((2 ^ 24 - 1 : Int)) : ℚ) * 2 ^ (104 : Int) = (2 ^ 24 - 1) * 2 ^ 104 := by norm_num
    have e2 : ((-(2 ^ 24 - 1) : Int) : ℚ) * 2 ^ (104 : Int) = -((2 ^ 24 - 1) * 2 ^ 104) := by norm_num
    rw [e1] at a
    rw [e2] at b
    generalize ((2 : ℚ) ^ 24 - 1) * 2 ^ 104 = M at *
    rw [abs_of_nonneg (by linarith : 0 ≤ M - x)] at a
    rw [abs_of_nonpos (by linarith : -M - x ≤ 0)] at b
    have := (abs_le.1 a).2
    have := (abs_le.1 b).1
    exact abs_le.2 ⟨by linarith, by linarith⟩
  have := key d h
  have : ((2 : ℚ) ^ 24 - 1) * 2 ^ 104 < 2 ^ 128 := by norm_num
  linarith

example : |(3 : ℚ) / 10| ≤ (2 ^ 24 - 1) * 2 ^ 104 := by
  rw [abs_of_pos (by norm_num)]; norm_num

/-- **C117, infinities.**  A `double` is read as an infinity exactly from the middle between the largest `float` and
`2^128` on, and then with its sign. -/
theorem C117_infinite (d : ℚ) (neg : Bool) :
    toFloat (ofFloating d) = .inf neg ↔ (2 ^ 25 - 1) * 2 ^ 103 ≤ |d| ∧ neg = decide (d < 0) := by
  have hmid : flt32 ((2 ^ 25 - 1) * 2 ^ 103) = 2 ^ 128 := by decide +kernel
  have key : ∀ x : ℚ, 0 ≤ x → (2 ^ 128 ≤ |flt32 x| ↔ (2 ^ 25 - 1) * 2 ^ 103 ≤ x) := by
    intro x hx
    have a := flt32_near x (m := 2 ^ 24 - 1) (k := 104) (by norm_num) (by norm_num)
    have b := flt32_near x (m := 2 ^ 24) (k := 104) (by norm_num) (by norm_num)
    have e1 : (((2 ^ 24 - 1 : Int)) : ℚ) * 2 ^ (104 : Int) = (2 ^ 24 - 1) * 2 ^ 104 := by norm_num
    have e2 : ((2 ^ 24 : Int) : ℚ) * 2 ^ (104 : Int) = 2 ^ 128 := by norm_num
    rw [e1] at a
    rw [e2] at b
    have hpos : 0 ≤ flt32 x := by
      have c := flt32_near x (m := 0) (k := 0) (by norm_num) (by norm_num)
      rw [Int.cast_zero, zero_mul, zero_sub, abs_neg, abs_of_nonneg hx] at c
      have := (abs_le.1 c).1
      linarith
    rw [abs_of_nonneg hpos]
    have hM : ((2 : ℚ) ^ 24 - 1) * 2 ^ 104 = 2 ^ 128 - 2 ^ 104 := by norm_num
    have hT : ((2 : ℚ) ^ 25 - 1) * 2 ^ 103 = 2 ^ 128 - 2 ^ 103 := by norm_num
    have h1 : (2 : ℚ) ^ 104 = 2 * 2 ^ 103 := by norm_num
    rw [hT] at hmid ⊢
    rw [hM, h1] at a
    have hu : (0 : ℚ) < 2 ^ 103 := by norm_num
    constructor
    · intro h
      by_contra hc
      rw [not_le] at hc
      generalize (2 : ℚ) ^ 128 = T at *
      generalize (2 : ℚ) ^ 103 = v at *
      rw [abs_of_nonneg (by linarith)] at a
      rcases abs_cases (T - 2 * v - x) with ⟨e, _⟩ | ⟨e, _⟩ <;> rw [e] at a <;> linarith
    · intro h
      rcases h.eq_or_lt with h | h
      · rw [← h, hmid]
      by_contra hc
      rw [not_le] at hc
      have hle : flt32 x ≤ 2 ^ 128 - 2 ^ 104 := by
        obtain ⟨m, k, hm, hk, he⟩ := flt32_repr x
        rw [he] at hc ⊢
        rcases lt_or_ge k 104 with h104 | h104
        · have h2 : (2 : ℚ) ^ k ≤ 2 ^ (103 : Int) := zpow_le_zpow_right₀ (by norm_num) (by omega)
          have h3 : (m : ℚ) ≤ 2 ^ 24 := by exact_mod_cast (abs_le.1 hm).2
          have h4 : (0 : ℚ) < 2 ^ k := by positivity
          calc (m : ℚ) * 2 ^ k ≤ 2 ^ 24 * 2 ^ k := mul_le_mul_of_nonneg_right h3 h4.le
            _ ≤ 2 ^ 24 * 2 ^ (103 : Int) := mul_le_mul_of_nonneg_left h2 (by norm_num)
            _ ≤ 2 ^ 128 - 2 ^ 104 := by norm_num
        · obtain ⟨j, rfl⟩ : ∃ j : Nat, k = j + 104 := ⟨(k - 104).toNat, by omega⟩
          have e : (m : ℚ) * 2 ^ ((j : Int) + 104) = ((m * 2 ^ j : Int) : ℚ) * 2 ^ 104 := by
            rw [zpow_add₀ (by norm_num), zpow_natCast]
            push_cast
            rw [mul_assoc]
            norm_cast
          rw [e] at hc ⊢
          have h5 : ((m * 2 ^ j : Int) : ℚ) < 2 ^ 24 := by
            have : (2 : ℚ) ^ 128 = 2 ^ 24 * 2 ^ 104 := by norm_num
            rw [this] at hc
            exact lt_of_mul_lt_mul_right hc (by norm_num)
          have h6 : m * 2 ^ j ≤ 2 ^ 24 - 1 := by
            have : m * 2 ^ j < 2 ^ 24 := by exact_mod_cast h5
            omega
          have h7 : ((m * 2 ^ j : Int) : ℚ) ≤ 2 ^ 24 - 1 := by exact_mod_cast h6
          calc ((m * 2 ^ j : Int) : ℚ) * 2 ^ 104 ≤ (2 ^ 24 - 1) * 2 ^ 104 := mul_le_mul_of_nonneg_right h7 (by norm_num)
            _ = 2 ^ 128 - 2 ^ 104 := by norm_num
      rw [h1] at hle
      generalize (2 : ℚ) ^ 128 = T at *
      generalize (2 : ℚ) ^ 103 = v at *
      rw [abs_of_nonpos (by linarith)] at b
      rcases abs_cases (T - x) with ⟨e, _⟩ | ⟨e, _⟩ <;> rw [e] at b <;> linarith
  have hk : 2 ^ 128 ≤ |flt32 d| ↔ (2 ^ 25 - 1) * 2 ^ 103 ≤ |d| := by
    rcases le_or_gt 0 d with h | h
    · rw [abs_of_nonneg h]
      exact key d h
    · rw [abs_of_neg h, ← key (-d) (by linarith)]
      have : flt32 (-d) = -flt32 d := by
        unfold flt32
        rw [if_neg (by linarith), if_pos h, neg_neg]
      rw [this, abs_neg]
  simp only [toFloat, ofFloating]
  rw [← hk]
  split_ifs with h
  · simp only [Flt.inf.injEq, h, true_and]
    exact eq_comm
  · simp [h]

example : toFloat (ofFloating (-(10 ^ 39))) = .inf true := (C117_infinite _ _).2 ⟨by
  rw [abs_of_neg (by norm_num)]; norm_num, by norm_num⟩

/-- **C118, arrays.**  `for (auto& x : v.ArrayRange())` runs its body once for each element in order and stores what the
body leaves; if `v` is not an array, it does not run. -/
theorem C118_array_loop {σ : Type} (body : σ → Value → Out (σ × Value)) (st : σ) (fuel : Nat) :
    (∀ l, l.length < fuel → (arrayRange (.arr l)).forEach fuel body st = (each body st l >>= fun r => .ok (r.1, some r.2))) ∧
    ∀ v, (∀ l, v ≠ .arr l) → 0 < fuel → (arrayRange v).forEach fuel body st = .ok (st, none) := by
  refine ⟨fun l hl => forEach_some body l st hl, fun v hv hf => ?_⟩
  obtain ⟨f, rfl⟩ : ∃ f, fuel = f + 1 := ⟨fuel - 1, by omega⟩
  cases v with
  | arr l => exact absurd rfl (hv l)
  | _ => rfl

/-- **C118, objects.**  The same for `ObjectRange()`: the pairs in the order of the keys. -/
theorem C118_object_loop {σ : Type} (body : σ → Str × Value → Out (σ × (Str × Value))) (st : σ) (fuel : Nat) :
    (∀ m, m.length < fuel → (objectRange (.obj m)).forEach fuel body st = (each body st m >>= fun r => .ok (r.1, some r.2))) ∧
    ∀ v, (∀ m, v ≠ .obj m) → 0 < fuel → (objectRange v).forEach fuel body st = .ok (st, none) := by
  refine ⟨fun l hl => forEach_some body l st hl, fun v hv hf => ?_⟩
  obtain ⟨f, rfl⟩ : ∃ f, fuel = f + 1 := ⟨fuel - 1, by omega⟩
  cases v with
  | obj l => exact absurd rfl (hv l)
  | _ => rfl

/-- the sum of the integers of an array, which are set to null -/
example : (arrayRange (.arr [.int 3, .str [], .int 4])).forEach 4 (fun s x => .ok (s + x.toInt, .null)) 0 =
    .ok (7, some [.null, .null, .null]) := by
  rw [(C118_array_loop _ 0 4).1 _ (by simp)]; rfl

/-- **C118, refuted.**  A loop over a const `JSONIterator`, as in `const auto r = v.ArrayRange(); for (auto& x : r) …`, calls
`begin() const`, which calls itself for ever. -/
theorem C118_const_range_refuted (v : Value) (fuel : Nat) :
    (arrayRange v).beginConst fuel = .diverge ∧ (arrayRange v).endConst fuel = .diverge ∧
    (objectRange v).beginConst fuel = .diverge ∧ (objectRange v).endConst fuel = .diverge :=
  ⟨beginConst_diverge _ _, endConst_diverge _ _, beginConst_diverge _ _, endConst_diverge _ _⟩

end Json.Props
