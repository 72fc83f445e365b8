import Verif.Proof.RandomDouble
import Verif.Model.RandomCont
import Mathlib.Algebra.Order.Archimedean.Real.Basic

/-! # Rounding a rational number as a real number -/

namespace Cpp

theorem log_cast (q : ℚ) : Int.log 2 ((q : ℚ) : ℝ) = Int.log 2 q := by
  rcases le_or_gt q 0 with h | h
  · rw [Int.log_of_right_le_zero _ h, Int.log_of_right_le_zero]
    exact_mod_cast h
  · have h' : (0 : ℝ) < q := by exact_mod_cast h
    apply le_antisymm
    · rw [← Int.zpow_le_iff_le_log (by norm_num) h]
      have := Int.zpow_log_le_self (b := 2) (by norm_num) h'
      rw [← Rat.cast_le (K := ℝ)]
      push_cast at this ⊢
      exact this
    · rw [← Int.zpow_le_iff_le_log (by norm_num) h']
      have := Int.zpow_log_le_self (b := 2) (by norm_num) h
      rw [← Rat.cast_le (K := ℝ)] at this
      push_cast at this ⊢
      exact this

theorem roundTiesEven_cast (q : ℚ) : roundTiesEven ((q : ℚ) : ℝ) = roundTiesEven q := by
  unfold roundTiesEven
  have e : ⌊((q : ℚ) : ℝ)⌋ = ⌊q⌋ := Rat.floor_cast q
  dsimp only
  rw [e]
  have h1 : ((q : ℝ) - (⌊q⌋ : Int) < 1 / 2) ↔ (q - (⌊q⌋ : Int) < 1 / 2) := by
    rw [← Rat.cast_lt (K := ℝ)]; push_cast; rfl
  have h2 : (1 / 2 < (q : ℝ) - (⌊q⌋ : Int)) ↔ (1 / 2 < q - (⌊q⌋ : Int)) := by
    rw [← Rat.cast_lt (K := ℝ)]; push_cast; rfl
  simp only [h1, h2]

theorem flPos_cast (q : ℚ) : flPos ((q : ℚ) : ℝ) = flPos q := by
  unfold flPos lastBit
  rw [log_cast]
  have : ((q : ℝ) / 2 ^ (max (Int.log 2 q - 52) (-1074))) = ((q / 2 ^ (max (Int.log 2 q - 52) (-1074)) : ℚ) : ℝ) := by
    push_cast; rfl
  rw [this, roundTiesEven_cast]

theorem fl_cast (q : ℚ) : fl ((q : ℚ) : ℝ) = fl q := by
  unfold fl
  have h : ((q : ℝ) < 0) ↔ (q < 0) := by exact_mod_cast Iff.rfl
  have e : -(q : ℝ) = ((-q : ℚ) : ℝ) := by push_cast; rfl
  simp only [h, e, flPos_cast]

end Cpp
