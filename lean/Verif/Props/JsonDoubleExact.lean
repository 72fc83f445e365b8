import Verif.Props.JsonDouble

/-! # C134: exactly which doubles survive dump and load -/

set_option exponentiation.threshold 2000

namespace Json.Props
open Cpp Spec Rand.Spec

/-- **C134, exact.**  A finite `double` survives dump and load if and only if it is what is read for some number with six digits
after the point and no exponent. -/
theorem C134_exact_partial (neg : Bool) (q : ℚ) :
    loadNumber (F64.mk neg (.fin q)).toText = .ok (some (.dbl ⟨neg, .fin q⟩)) ↔
      ∃ (n : Number) (f : Str), n.Ok ∧ n.frac = some f ∧ f.length = 6 ∧ n.exp = none ∧
        loadNumber n.text = .ok (some (.dbl ⟨neg, .fin q⟩)) := by
  constructor
  · intro h
    refine ⟨numMill neg (millionths |q|), _, numMill_ok _ _, rfl, by simp [dec6], rfl, ?_⟩
    rw [numMill_text]
    exact h
  · rintro ⟨n, f, hn, hf, hl, he, h⟩
    obtain ⟨d, h1, h2⟩ := C134_six_partial n hn f hf (by omega) he [] [] (by simp [Ws]) (by simp [Ws])
    rw [h] at h1
    injection h1 with h1
    injection h1 with h1
    injection h1 with h1
    subst h1
    simpa using h2

/-- **C134, refuted for every double other than 0 below half a millionth.**  It is read back as 0. -/
theorem C134_tiny_refuted (neg : Bool) (q : ℚ) (h : |q| < 1 / 2000000) (w w' : Str) (hw : Ws w) (hw' : Ws w') :
    loadNumber (w ++ (F64.mk neg (.fin q)).toText ++ w') = .ok (some (.dbl ⟨neg, .fin 0⟩)) := by
  have hm : millionths |q| = 0 := by
    unfold millionths
    rw [roundEven_unique (n := 0) (by
      rw [Int.cast_zero, sub_zero, abs_of_nonneg (by positivity)]
      linarith)]
    rfl
  rw [load_toText neg q hw hw', hm]
  have h0 : readMag ((0 : Nat) / 1000000 : ℚ) = 0 := by
    have := (readMag_nearest (x := ((0 : Nat) / 1000000 : ℚ)) (by norm_num)).2 0 ⟨0, 0, by norm_num, by norm_num, by norm_num, by norm_num⟩
    simpa using this
  rw [h0]
  simp

/-- -2^-30 -/
example : loadNumber ([] ++ (F64.mk true (.fin (-1 / 2 ^ 30))).toText ++ []) = .ok (some (.dbl ⟨true, .fin 0⟩)) :=
  C134_tiny_refuted true _ (by rw [abs_div, abs_neg, abs_one, abs_of_pos (by positivity)]; norm_num) [] [] (by decide) (by decide)

/-- The double nearest to 0.1 survives: it is read for 0.100000. -/
example : loadNumber (F64.mk false (.fin (3602879701896397 / 2 ^ 55))).toText =
    .ok (some (.dbl ⟨false, .fin (3602879701896397 / 2 ^ 55)⟩)) :=
  (C134_exact_partial false _).2 ⟨⟨false, bytes ['0'], some (bytes ['1', '0', '0', '0', '0', '0']), none⟩, _, ⟨by decide, by
    intro f hf; cases hf; decide, by intro f hf; cases hf⟩, rfl, rfl, rfl, by decide +kernel⟩

/-- 1/3 does not: no number with six digits is read as the double nearest to it. -/
example : ¬ ∃ (n : Number) (f : Str), n.Ok ∧ n.frac = some f ∧ f.length = 6 ∧ n.exp = none ∧
    loadNumber n.text = .ok (some (.dbl ⟨false, .fin (6004799503160661 / 2 ^ 54)⟩)) := by
  rw [← C134_exact_partial]
  decide +kernel

end Json.Props
