import Verif.Proof.DoubleReal
import Verif.Proof.RandomCont
import Verif.Props.Random
import Mathlib.Analysis.Complex.ExponentialBounds

/-! # The continuous samplers in binary64: helper lemmas -/

set_option exponentiation.threshold 2000

namespace Rand
open Cpp Spec

variable {E : Engine}

theorem logOk_dbl : LogOk Libm.dbl.log := by
  refine ⟨by simp [Libm.dbl], fun x h0 h1 => ?_⟩
  have hx : 0 < x := lt_of_lt_of_le (by positivity) h0
  have hxr : (0 : ℝ) < x := by exact_mod_cast hx
  have hu : Real.log (x : ℝ) ≤ 0 := Real.log_nonpos hxr.le (by exact_mod_cast h1)
  have hl : (-64 : ℝ) ≤ Real.log (x : ℝ) := by
    rw [Real.le_log_iff_exp_le hxr]
    have e1 : Real.exp (-64) ≤ (2 : ℝ) ^ (-53 : Int) := by
      rw [Real.exp_neg, zpow_neg]
      apply inv_anti₀ (by positivity)
      calc (2 : ℝ) ^ (53 : Int) = 2 ^ 53 := by norm_cast
        _ ≤ 2 ^ 64 := by norm_num
        _ ≤ Real.exp 1 ^ 64 := by
          apply pow_le_pow_left₀ (by norm_num)
          have := Real.exp_one_gt_d9
          linarith
        _ = Real.exp 64 := by rw [← Real.exp_nat_mul]; norm_num
    have e2 : (2 : ℝ) ^ (-53 : Int) ≤ (x : ℝ) := by
      have : ((2 ^ (-53 : Int) : ℚ) : ℝ) ≤ (x : ℝ) := by exact_mod_cast h0
      push_cast at this
      exact this
    exact e1.trans e2
  have f1 : fl (Real.log (x : ℝ)) ≤ 0 := by
    have := fl_mono hu
    rwa [fl_zero] at this
  have f2 : -64 ≤ fl (Real.log (x : ℝ)) := by
    have h := fl_mono hl
    have e : fl (-64 : ℝ) = -64 := by
      have := fl_cast (-64)
      push_cast at this
      rw [this]
      decide +kernel
    rwa [e] at h
  refine ⟨fl (Real.log (x : ℝ)), ?_, f2, f1⟩
  show (if x = 0 then _ else if x < 0 then _ else _) = _
  rw [if_neg hx.ne', if_neg (by linarith)]
  unfold Dbl.round
  rw [if_neg]
  rw [abs_of_nonpos f1, not_le]
  have : (64 : ℚ) < 2 ^ 1024 := by norm_num
  linarith

theorem zero_dbl : ((0 : Int) : Dbl) = Dbl.fin 0 := by decide +kernel
theorem one_dbl : ((1 : Int) : Dbl) = Dbl.fin 1 := by decide +kernel

theorem sub_dbl (a b : ℚ) (h : |a - b| ≤ maxDouble) : Dbl.fin a - Dbl.fin b = Dbl.fin (fl (a - b)) := by
  show Dbl.round (a + -b) = _
  rw [← sub_eq_add_neg]
  exact round_fin h

theorem oneMinus_dbl (s : E.σ) :
    ∃ x : ℚ, oneMinus s = .ok (Dbl.fin x, (E.draw s).2) ∧ x ≤ 1 ∧
      (2 ^ 64 - 1024 ≤ (E.draw s).1.val → x = 0) ∧
      ((E.draw s).1.val < 2 ^ 64 - 1024 → 2 ^ (-53 : Int) ≤ x) := by
  have hn : nextDouble0 s = .ok (Dbl.fin (unif (E.draw s).1.val), (E.draw s).2) := by
    unfold nextDouble0
    rw [zero_dbl, one_dbl, nextDouble2_run 0 1 (by norm_num) (by norm_num) (by norm_num), ndVal_one]
  have hu0 := unif_nonneg (E.draw s).1.val
  have hu1 := unif_le_one (E.draw s).1.isLt
  have f1 : fl (1 : ℚ) = 1 := by decide +kernel
  refine ⟨fl (1 - unif (E.draw s).1.val), ?_, ?_, fun h => ?_, fun h => ?_⟩
  · unfold oneMinus
    rw [bind_run, hn]
    simp only [Out.bind]
    rw [pure_run, one_dbl, sub_dbl]
    apply big_le
    rw [abs_of_nonneg (by linarith)]
    linarith
  · have := fl_mono (show 1 - unif (E.draw s).1.val ≤ 1 by linarith)
    rwa [f1] at this
  · rw [(unif_eq_one_iff (E.draw s).1.isLt).2 h, sub_self, fl_zero]
  · have h1 : unif (E.draw s).1.val ≤ unif (2 ^ 64 - 1025) := unif_mono (by omega)
    have h2 : unif (2 ^ 64 - 1025) = 1 - 2 ^ (-53 : Int) := by decide +kernel
    have h3 := fl_mono (show 2 ^ (-53 : Int) ≤ 1 - unif (E.draw s).1.val by linarith)
    have h4 : fl ((2 : ℚ) ^ (-53 : Int)) = 2 ^ (-53 : Int) := by decide +kernel
    rwa [h4] at h3

theorem fl_mul64 (i : Nat) (hi : i ≤ 2 ^ 40) : fl (-(64 * (i : ℚ))) = -(64 * (i : ℚ)) := by
  have := fl_exact (m := -(64 * (i : Int))) (k := 0) (by rw [abs_neg, abs_of_nonneg (by omega)]; omega) (by omega)
  rw [zpow_zero, mul_one] at this
  push_cast at this
  exact this

theorem gammaSum_dbl (m : Libm Dbl) (hm : LogOk m.log) (n : Nat) (i : Nat) (hi : i + n ≤ 2 ^ 40) (a : ℚ)
    (ha0 : a ≤ 0) (ha : -(64 * (i : ℚ)) ≤ a) (s : E.σ) (hs : ∀ j < n, outAt E s j < 2 ^ 64 - 1024) :
    ∃ b : ℚ, gammaSum m n (Dbl.fin a) s = .ok (Dbl.fin b, stateAt E s n) ∧ b ≤ 0 ∧
      -(64 * ((i + n : Nat) : ℚ)) ≤ b := by
  induction n generalizing i a s with
  | zero => exact ⟨a, rfl, ha0, ha⟩
  | succ n ih =>
    obtain ⟨x, hx, hx1, _, hx2⟩ := oneMinus_dbl s
    obtain ⟨y, hy, hy0, hy1⟩ := hm.2 x (hx2 (hs 0 (by omega))) hx1
    have hb : (-(64 * ((i + 1 : Nat) : ℚ))) ≤ a + y := by push_cast; linarith
    have hadd : Dbl.fin a + Dbl.fin y = Dbl.fin (fl (a + y)) := by
      apply round_fin
      apply big_le
      rw [abs_of_nonpos (by linarith)]
      have : ((i + 1 : Nat) : ℚ) ≤ 2 ^ 40 := by exact_mod_cast (by omega : i + 1 ≤ 2 ^ 40)
      linarith
    have h1 : fl (a + y) ≤ 0 := by
      have := fl_mono (show a + y ≤ 0 by linarith)
      rwa [fl_zero] at this
    have h2 : -(64 * ((i + 1 : Nat) : ℚ)) ≤ fl (a + y) := by
      have := fl_mono hb
      rwa [fl_mul64 _ (by omega)] at this
    obtain ⟨b, hb, hb0, hb1⟩ := ih (i + 1) (by omega) (fl (a + y)) h1 h2 (E.draw s).2 (by
      intro j hj
      rw [← outAt_succ]
      exact hs (j + 1) (by omega))
    refine ⟨b, ?_, hb0, ?_⟩
    · unfold gammaSum
      rw [bind_run, hx]
      simp only [Out.bind]
      rw [hy, hadd, hb, stateAt_succ]
    · have e : i + (n + 1) = i + 1 + n := by omega
      rw [e]; exact hb1

theorem gammaSum_inf (m : Libm Dbl) (hm : LogOk m.log) (n : Nat) (s : E.σ) :
    gammaSum m n (Dbl.inf true) s = .ok (Dbl.inf true, stateAt E s n) := by
  induction n generalizing s with
  | zero => rfl
  | succ n ih =>
    obtain ⟨x, hx, hx1, hx0, hx2⟩ := oneMinus_dbl s
    have : Dbl.inf true + m.log (Dbl.fin x) = Dbl.inf true := by
      rcases Nat.lt_or_ge (E.draw s).1.val (2 ^ 64 - 1024) with h | h
      · obtain ⟨y, hy, _⟩ := hm.2 x (hx2 h) hx1
        rw [hy]; rfl
      · rw [hx0 h, hm.1]; rfl
    unfold gammaSum
    rw [bind_run, hx]
    simp only [Out.bind]
    rw [this, ih, stateAt_succ]

theorem gammaSum_dbl_inf (m : Libm Dbl) (hm : LogOk m.log) (n : Nat) (i : Nat) (hi : i + n ≤ 2 ^ 40) (a : ℚ)
    (ha0 : a ≤ 0) (ha : -(64 * (i : ℚ)) ≤ a) (s : E.σ) (hs : ∃ j < n, 2 ^ 64 - 1024 ≤ outAt E s j) :
    gammaSum m n (Dbl.fin a) s = .ok (Dbl.inf true, stateAt E s n) := by
  induction n generalizing i a s with
  | zero => obtain ⟨j, hj, _⟩ := hs; omega
  | succ n ih =>
    obtain ⟨x, hx, hx1, hx0, hx2⟩ := oneMinus_dbl s
    unfold gammaSum
    rw [bind_run, hx]
    simp only [Out.bind]
    rcases Nat.lt_or_ge (E.draw s).1.val (2 ^ 64 - 1024) with h | h
    · obtain ⟨y, hy, hy0, hy1⟩ := hm.2 x (hx2 h) hx1
      have hb : (-(64 * ((i + 1 : Nat) : ℚ))) ≤ a + y := by push_cast; linarith
      have hadd : Dbl.fin a + Dbl.fin y = Dbl.fin (fl (a + y)) := by
        apply round_fin
        apply big_le
        rw [abs_of_nonpos (by linarith)]
        have : ((i + 1 : Nat) : ℚ) ≤ 2 ^ 40 := by exact_mod_cast (by omega : i + 1 ≤ 2 ^ 40)
        linarith
      have h1 : fl (a + y) ≤ 0 := by
        have := fl_mono (show a + y ≤ 0 by linarith)
        rwa [fl_zero] at this
      have h2 : -(64 * ((i + 1 : Nat) : ℚ)) ≤ fl (a + y) := by
        have := fl_mono hb
        rwa [fl_mul64 _ (by omega)] at this
      rw [hy, hadd, ih (i + 1) (by omega) (fl (a + y)) h1 h2, stateAt_succ]
      obtain ⟨j, hj, hjo⟩ := hs
      cases j with
      | zero => rw [outAt_zero] at hjo; omega
      | succ j => exact ⟨j, by omega, by rwa [← outAt_succ]⟩
    · rw [hx0 h, hm.1]
      show gammaSum m n (Dbl.inf true) _ = _
      rw [gammaSum_inf m hm, stateAt_succ]

theorem gammaNext_dbl (m : Libm Dbl) (hi : m.toInt = Libm.dbl.toInt) (hfl : m.floor = Libm.dbl.floor)
    (fuel n : Nat) (hn : (n : Int) ≤ INT_MAX) (theta b : Dbl) (s s' : E.σ)
    (h : gammaSum m n (Dbl.fin 0) s = .ok (b, s')) :
    gammaNext m fuel ⟨Dbl.fin n, theta⟩ s = .ok (theta * -b, s') := by
  have hmn : INT_MIN = -2147483648 := rfl
  have hf : ⌊(n : ℚ)⌋ = (n : Int) := Int.floor_natCast n
  have ht : m.toInt (Dbl.fin n) = .ok (n : Int) := by
    rw [hi]
    show truncInt (n : ℚ) = _
    unfold truncInt
    rw [if_pos (by positivity), hf, int_ok ⟨by omega, hn⟩]
  unfold gammaNext
  rw [bind_run, lift_run, ht]
  simp only [Out.ok_bind, Out.bind]
  rw [bind_run, Int.toNat_natCast, zero_dbl, h]
  simp only [Out.bind]
  have hd : Dbl.fin n - m.floor (Dbl.fin n) = Dbl.fin 0 := by
    rw [hfl]
    show Dbl.round ((n : ℚ) + -((⌊(n : ℚ)⌋ : Int) : ℚ)) = _
    rw [hf]
    have : (n : ℚ) + -(((n : Int)) : ℚ) = 0 := by push_cast; ring
    rw [this]
    decide +kernel
  rw [hd, if_pos (by rw [fin_le]; simp), pure_run]

end Rand
