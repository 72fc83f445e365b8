import Verif.Props.Fraction
import Mathlib.Tactic.FieldSimp
import Mathlib.Tactic.LinearCombination

/-! # Fraction: exactly when `/=`, `n - f` and `n / f` are right (C17, C18) -/

namespace Fraction
open Cpp Spec

/-- C17: what `/=` does for all fractions whose numerator is not `INT_MIN`.  By zero it is undefined; if the denominator of
the divisor is larger than that of the dividend the program ends; otherwise the components are divided as `int`s. -/
theorem C17_exact_partial (a b : Frac) (ha : Canonical a) (hb : Canonical b) (hn : a.num ≠ INT_MIN) :
    (b.num = 0 → divAssign a b = .ub) ∧
    (b.num ≠ 0 → a.den < b.den → divAssign a b = .exit) ∧
    (b.num ≠ 0 → b.den ≤ a.den → ∃ c, divAssign a b = .ok c ∧
      val c = ((a.num.tdiv b.num : Int) : ℚ) / ((a.den / b.den : Int) : ℚ)) := by
  have hbd := hb.den_pos
  have had := ha.den_pos
  have q1 : b.num ≠ 0 → MathFns.quot a.num b.num = .ok (a.num.tdiv b.num) := by
    intro h
    unfold MathFns.quot
    rw [if_neg h, if_neg (fun h => hn h.1)]
  have q2 : MathFns.quot a.den b.den = .ok (a.den / b.den) := by
    unfold MathFns.quot
    rw [if_neg (by omega), if_neg (fun h => by have := h.2; omega), Int.tdiv_eq_ediv_of_nonneg (by omega)]
  refine ⟨fun h => ?_, fun h hlt => ?_, fun h hle => ?_⟩
  · unfold divAssign MathFns.quot
    rw [if_pos h]
    rfl
  · unfold divAssign
    rw [q1 h, q2, Int.ediv_eq_zero_of_lt (by omega) hlt]
    rfl
  · have hd0 : 0 < a.den / b.den := quot_pos hbd hle
    have sn : Small (a.num.tdiv b.num) := by
      rw [isInt_small_iff, Int.natAbs_tdiv]
      refine (Nat.div_le_self _ _).trans ?_
      have := ha.num_int
      unfold IsInt INT_MIN INT_MAX at this
      unfold INT_MIN at hn
      omega
    have sd : Small (a.den / b.den) := by
      rw [isInt_small_iff]
      have h1 : a.den / b.den ≤ a.den := Int.ediv_le_self _ (by omega)
      have := ha.den_int
      unfold IsInt INT_MIN INT_MAX at this
      omega
    obtain ⟨c, hc⟩ := mk2_defined sn sd (by omega)
    refine ⟨c, ?_, ?_⟩
    · unfold divAssign
      rw [q1 h, q2]
      simp only [Out.ok_bind]
      rw [out_eta, hc]
    · exact (mk2_val (small_isInt sn) (small_isInt sd) hc).2
where
  quot_pos {x y : Int} (h : 0 < y) (hle : y ≤ x) : 0 < x / y := by
    have := Int.ediv_le_ediv h hle
    rw [Int.ediv_self (by omega)] at this
    omega

example : Canonical ⟨7, 9⟩ ∧ Canonical ⟨2, 5⟩ ∧ divAssign ⟨7, 9⟩ ⟨2, 5⟩ = .ok ⟨3, 1⟩ :=
  ⟨⟨by decide, by decide, by decide, by decide⟩, ⟨by decide, by decide, by decide, by decide⟩, by decide +kernel⟩

/-- C18, refuted: `n - f` is right only if it is 0, and `n / f` only if it is 1 or -1 (or `f` is 0). -/
theorem C18_only_refuted (v : Int) (f c : Frac) (hv : IsInt v) (hf : Canonical f) :
    (intSub v f = .ok c → (val c = v - val f ↔ val f = v)) ∧
    (intDiv v f = .ok c → f.num ≠ 0 → (val c = v / val f ↔ val f = v ∨ val f = -v)) := by
  have h := C18_mixed_partial v f c hv hf
  refine ⟨fun h1 => ?_, fun h1 h0 => ?_⟩
  · rw [h.2.2.2.2.2.2.1 h1]
    constructor
    · intro e; linarith
    · intro e; rw [e]
  · rw [h.2.2.2.2.2.2.2 h1]
    have hv0 : (v : ℚ) ≠ 0 := by
      have : divInt f v = .ok c := h1
      exact_mod_cast (h.2.2.2.1 this).1
    have hf0 : val f ≠ 0 := by
      unfold val
      exact div_ne_zero (by exact_mod_cast h0) (den_ne hf)
    rw [div_eq_div_iff hv0 hf0]
    constructor
    · intro e
      have : (val f - v) * (val f + v) = 0 := by linear_combination e
      rcases mul_eq_zero.1 this with h | h
      · exact .inl (by linarith)
      · exact .inr (by linarith)
    · rintro (e | e)
      · rw [e]
      · rw [e]; ring

example : IsInt 3 ∧ Canonical ⟨1, 2⟩ ∧ intSub 3 ⟨1, 2⟩ = .ok ⟨-5, 2⟩ ∧ intDiv 3 ⟨1, 2⟩ = .ok ⟨1, 6⟩ :=
  ⟨by decide, ⟨by decide, by decide, by decide, by decide⟩, by decide +kernel, by decide +kernel⟩

end Fraction
