import Verif.Props.DoubleText
import Verif.Props.FloatText

/-! # Which numbers survive being written and read: properties C168 and C190 -/

set_option exponentiation.threshold 2000

namespace Stream.Props
open Cpp Spec
open Json (F64)
open Json.Spec (IsFloat SignBit)

/-- the number that is written has six digits -/
private theorem written_six (neg : Bool) (q : ℚ) :
    ∃ m k : Int, (litD neg q).value = m * 10 ^ k ∧ |m| < 1000000 := by
  rw [litD_value]
  by_cases hq : q = 0
  · exact ⟨0, 0, by unfold written; rw [if_pos hq]; simp, by norm_num⟩
  · have h := (six_spec (abs_pos.2 hq)).2.1
    unfold written
    rw [if_neg hq]
    unfold dec
    cases neg with
    | true => exact ⟨-((six |q|).1 : Int), (six |q|).2 - 5, by push_cast; simp, by rw [abs_neg, Nat.abs_cast]; omega⟩
    | false => exact ⟨((six |q|).1 : Int), (six |q|).2 - 5, by push_cast; simp, by rw [Nat.abs_cast]; omega⟩

private theorem litD_abs (neg : Bool) (q : ℚ) : |(litD neg q).value| = written q := by
  rw [litD_value, abs_mul, abs_of_nonneg (written_nonneg q)]
  cases neg <;> simp

/-- **C168, exact.**  A finite `double` survives being written and read if and only if it is what is read from some number with at
most six significant digits in the range of `double`. -/
theorem C168_exact_partial (neg : Bool) (q : ℚ) (h : Rand.Spec.IsDouble q) :
    castDouble (putDouble ⟨neg, .fin q⟩) = .ok ⟨neg, .fin q⟩ ↔
      ∃ (l : Lit) (m k : Int), l.Ok ∧ l.value = m * 10 ^ k ∧ |m| < 1000000 ∧ |l.value| ≤ (2 ^ 53 - 1) * 2 ^ 971 ∧
        castDouble l.text = .ok ⟨neg, .fin q⟩ := by
  constructor
  · intro hc
    obtain ⟨m, k, hv, hm⟩ := written_six neg q
    refine ⟨litD neg q, m, k, litD_ok _ _, hv, hm, ?_, ?_⟩
    · rw [litD_abs]
      exact written_le h
    · rw [litD_text]
      exact hc
  · rintro ⟨l, m, k, hl, hv, hm, hr, hc⟩
    obtain ⟨d, h1, h2⟩ := C168_six_partial l hl m k hv hm hr [] [] (by simp [Ws]) (by simp [Ends])
    rw [hc] at h1
    injection h1 with h1
    subst h1
    simpa using h2

-- the double nearest to 0.1 survives
example : castDouble (putDouble ⟨false, .fin (3602879701896397 / 2 ^ 55)⟩) = .ok ⟨false, .fin (3602879701896397 / 2 ^ 55)⟩ :=
  (C168_exact_partial false _ ⟨3602879701896397, -55, by norm_num, by norm_num, by norm_num, by norm_num⟩).2
    ⟨tenthLit, 1, -1, by decide, by decide +kernel, by decide, by decide +kernel, by decide +kernel⟩
-- 1234567 does not: no number with six digits is read as it
example : ¬ ∃ (l : Lit) (m k : Int), l.Ok ∧ l.value = m * 10 ^ k ∧ |m| < 1000000 ∧ |l.value| ≤ (2 ^ 53 - 1) * 2 ^ 971 ∧
    castDouble l.text = .ok ⟨false, .fin 1234567⟩ := by
  rw [← C168_exact_partial false _ ⟨1234567, 0, by norm_num, by norm_num, by norm_num, by norm_num⟩]
  decide +kernel

/-- **C168, vectors, exact.**  A Vector of finite `double`s comes back unchanged if and only if each of its elements does. -/
theorem C168_vector_exact_partial (v : List F64) (hv : ∀ d ∈ v, ∃ q, d.val = .fin q ∧ Rand.Spec.IsDouble q)
    (hlen : (v.length : Int) ≤ INT_MAX) (rest : Str) :
    ∃ t, printVectorD v = .ok t ∧
      (readVectorD { rest := t ++ rest } = .ok (v, { back := t.reverse, rest := rest }) ↔
        ∀ d ∈ v, castDouble (putDouble d) = .ok d) := by
  obtain ⟨t, v', h1, h2, h3, -⟩ := C168_vector_partial v hv hlen rest
  refine ⟨t, h1, ?_⟩
  rw [h2]
  have key : v' = v ↔ ∀ d ∈ v, castDouble (putDouble d) = .ok d := by
    clear h1 h2 hv hlen
    induction h3 with
    | nil => simp
    | @cons a b l l' hab _ ih =>
      rw [List.cons.injEq, ih, List.forall_mem_cons, hab, Out.ok.injEq]
  rw [← key, Out.ok.injEq, Prod.mk.injEq]
  exact and_iff_left rfl

-- {0.5, 1e+06} survives
example : (∀ d ∈ [(⟨false, .fin (1 / 2)⟩ : F64), ⟨false, .fin 1000000⟩], ∃ q, d.val = .fin q ∧ Rand.Spec.IsDouble q) ∧
    (∀ d ∈ [(⟨false, .fin (1 / 2)⟩ : F64), ⟨false, .fin 1000000⟩], castDouble (putDouble d) = .ok d) := by
  refine ⟨fun d hd => ?_, by decide +kernel⟩
  simp only [List.mem_cons, List.not_mem_nil, or_false] at hd
  rcases hd with rfl | rfl
  · exact ⟨_, rfl, 1, -1, by norm_num, by norm_num, by norm_num, by norm_num⟩
  · exact ⟨_, rfl, 1000000, 0, by norm_num, by norm_num, by norm_num, by norm_num⟩

/-- **C190, exact.**  A normal `float`, or 0, survives being written and read if and only if it is what is read from some number
with at most six significant digits which is 0 or from 10^-38 up to the greatest `float`. -/
theorem C190_exact_partial (neg : Bool) (q : ℚ) (h : IsFloat q) (hn : q = 0 ∨ 2 ^ (-126 : Int) ≤ |q|) :
    castFloat (putDouble ⟨neg, .fin q⟩) = .ok ⟨neg, .fin q⟩ ↔
      ∃ (l : Lit) (m k : Int), l.Ok ∧ l.value = m * 10 ^ k ∧ |m| < 1000000 ∧
        (l.value = 0 ∨ (10 : ℚ) ^ (-38 : Int) ≤ |l.value|) ∧ |l.value| ≤ (2 ^ 24 - 1) * 2 ^ 104 ∧
        castFloat l.text = .ok ⟨neg, .fin q⟩ := by
  constructor
  · intro hc
    obtain ⟨m, k, hv, hm⟩ := written_six neg q
    refine ⟨litD neg q, m, k, litD_ok _ _, hv, hm, ?_, ?_, ?_⟩
    · rcases hn with rfl | hn
      · left
        rw [litD_value]
        unfold written
        rw [if_pos rfl, mul_zero]
      · right
        rw [litD_abs]
        have h1 := (abs_le.1 (written_close q)).1
        have c : (10 : ℚ) ^ (-38 : Int) ≤ (1 - 5 / 1000000) * 2 ^ (-126 : Int) := by norm_num
        exact c.trans ((mul_le_mul_of_nonneg_left hn (by norm_num)).trans (by linarith))
    · rw [litD_abs]
      exact written_le32 (float_abs_le h)
    · rw [litD_text]
      exact hc
  · rintro ⟨l, m, k, hl, hv, hm, h0, hr, hc⟩
    obtain ⟨d, h1, h2, -⟩ := C190_six_partial l hl m k hv hm h0 hr [] [] (by simp [Ws]) (by simp [Ends])
    rw [hc] at h1
    injection h1 with h1
    subst h1
    simpa using h2

-- the float nearest to 0.1 survives, 1234567 does not
example : IsFloat (13421773 / 2 ^ 27) ∧ (2 : ℚ) ^ (-126 : Int) ≤ |(13421773 / 2 ^ 27 : ℚ)| ∧
    castFloat (putDouble ⟨false, .fin (13421773 / 2 ^ 27)⟩) = .ok ⟨false, .fin (13421773 / 2 ^ 27)⟩ :=
  ⟨⟨13421773, -27, by norm_num, by norm_num, by norm_num, by norm_num⟩, by decide +kernel, by decide +kernel⟩
example : IsFloat 1234567 ∧ castFloat (putDouble ⟨false, .fin 1234567⟩) ≠ .ok ⟨false, .fin 1234567⟩ :=
  ⟨⟨1234567, 0, by norm_num, by norm_num, by norm_num, by norm_num⟩, by decide +kernel⟩

end Stream.Props
