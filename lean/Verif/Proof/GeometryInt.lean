import Verif.Proof.GeometryDouble
import Verif.Proof.DoubleReal
import Verif.Spec.GeometryInt

/-! # The geometry functions in binary64 on whole numbers -/

set_option exponentiation.threshold 2000

namespace Geo
open Cpp

theorem dadd_int {a b : Int} (h : |a + b| ≤ 2 ^ 53) : Dbl.fin (a : ℚ) + Dbl.fin (b : ℚ) = Dbl.fin ((a + b : Int) : ℚ) := by
  show Dbl.round ((a : ℚ) + b) = _
  rw [← round_int h]
  push_cast
  rfl

theorem dzero : ((0 : Int) : Dbl) = .fin ((0 : Int) : ℚ) := round_int (by norm_num)

theorem foldl_dot (p q : Fin N → Int) : ∀ (l : List (Fin N)) (a : Int), |a| + (l.map fun i => |p i * q i|).sum ≤ 2 ^ 53 →
    l.foldl (fun ret i => ret + Dbl.fin (p i : ℚ) * Dbl.fin (q i : ℚ)) (Dbl.fin (a : ℚ)) =
      Dbl.fin ((a + (l.map fun i => p i * q i).sum : Int) : ℚ)
  | [], a, _ => by simp
  | i :: l, a, h => by
    simp only [List.map_cons, List.sum_cons] at h
    have hl : 0 ≤ (l.map fun i => |p i * q i|).sum := List.sum_nonneg (by
      intro x hx
      obtain ⟨j, _, rfl⟩ := List.mem_map.1 hx
      exact abs_nonneg _)
    have h1 : |a + p i * q i| ≤ |a| + |p i * q i| := abs_add_le _ _
    have := abs_nonneg a
    have := abs_nonneg (p i * q i)
    rw [List.foldl_cons, dmul_int (by linarith), dadd_int (by linarith), foldl_dot p q l _ (by linarith)]
    simp only [List.map_cons, List.sum_cons]
    rw [add_assoc]

theorem sum_finRange (f : Fin N → Int) : ((List.finRange N).map f).sum = ∑ i, f i := by
  rw [← List.sum_ofFn, List.ofFn_eq_map]

theorem dot_int (p q : Fin N → Int) (h : ∑ i, |p i * q i| ≤ 2 ^ 53) :
    dot (fun i => Dbl.fin (p i : ℚ)) (fun i => Dbl.fin (q i : ℚ)) = Dbl.fin ((∑ i, p i * q i : Int) : ℚ) := by
  unfold dot
  rw [dzero, foldl_dot p q _ 0 (by rw [sum_finRange, abs_zero, zero_add]; exact h), sum_finRange, zero_add]

/-- rounding a real number of ordinary size -/
theorem fl_real_rel {x : ℝ} (h : 1 ≤ x) : |((fl x : ℚ) : ℝ) - x| ≤ 2 ^ (-53 : Int) * x := by
  have hx : 0 < x := by linarith
  unfold fl
  rw [if_neg (by linarith)]
  have hb : 2 ^ (lastBit x + 52) ≤ x := by
    rcases eq_or_lt_of_le (lastBit_ge x) with he | he
    · rw [← he]
      refine le_trans ?_ h
      rw [show (-1074 : Int) + 52 = -(1022 : Int) by norm_num, zpow_neg]
      exact inv_le_one_of_one_le₀ (one_le_zpow₀ (by norm_num) (by norm_num))
    · exact lastBit_le hx he
  have hc := roundTiesEven_close (x / 2 ^ lastBit x)
  have hp : (0 : ℝ) < 2 ^ lastBit x := two_zpow_pos _
  unfold flPos
  push_cast
  have e : (roundTiesEven (x / 2 ^ lastBit x) : ℝ) * 2 ^ lastBit x - x
      = -(x / 2 ^ lastBit x - roundTiesEven (x / 2 ^ lastBit x)) * 2 ^ lastBit x := by
    field_simp; ring
  rw [e, abs_mul, abs_neg, abs_of_pos hp]
  calc _ ≤ 1 / 2 * 2 ^ lastBit x := mul_le_mul_of_nonneg_right hc hp.le
    _ = 2 ^ (-53 : Int) * 2 ^ (lastBit x + 52) := by
      rw [← zpow_add₀ (by norm_num)]
      rw [show (-53 : Int) + (lastBit x + 52) = -1 + lastBit x by ring, zpow_add₀ (by norm_num)]
      norm_num
    _ ≤ _ := mul_le_mul_of_nonneg_left hb (two_zpow_pos _).le

theorem round_real_fin {x : ℝ} (h0 : 0 ≤ x) (h : x ≤ 2 ^ 53) : Dbl.round x = .fin (fl x) := by
  unfold Dbl.round
  rw [if_neg]
  have h1 : fl x ≤ fl ((2 ^ 53 : Int) : ℝ) := fl_mono (by push_cast; norm_num at h ⊢; exact h)
  have h2 : fl ((2 ^ 53 : Int) : ℝ) = 2 ^ 53 := by
    have e : (((2 ^ 53 : Int) : ℝ)) = (((2 ^ 53 : Int) : ℚ) : ℝ) := by push_cast; rfl
    rw [e, fl_cast, fl_int (by norm_num)]
    norm_num
  rw [abs_of_nonneg (fl_nonneg h0)]
  have h3 : (2 : ℚ) ^ 53 < 2 ^ 1024 := by norm_num
  linarith

/-- `len` of a vector of whole numbers is the rounded square root of the sum of squares. -/
theorem len_int (p : Fin N → Int) (h : ∑ i, p i ^ 2 ≤ 2 ^ 53) :
    ∃ z : ℚ, len Fp.dbl (fun i => Dbl.fin (p i : ℚ)) = .fin z ∧ z = fl (Real.sqrt ((∑ i, p i ^ 2 : Int) : ℝ)) ∧
      |(z : ℝ) - Real.sqrt ((∑ i, p i ^ 2 : Int) : ℝ)| ≤ 2 ^ (-53 : Int) * Real.sqrt ((∑ i, p i ^ 2 : Int) : ℝ) := by
  have hs : dot (fun i => Dbl.fin (p i : ℚ)) (fun i => Dbl.fin (p i : ℚ)) = Dbl.fin ((∑ i, p i ^ 2 : Int) : ℚ) := by
    have e : ∑ i, |p i * p i| = ∑ i, p i ^ 2 := Finset.sum_congr rfl fun i _ => by
      rw [abs_mul_self, pow_two]
    rw [dot_int p p (by rw [e]; exact h)]
    simp only [pow_two]
  have hS : (0 : Int) ≤ ∑ i, p i ^ 2 := Finset.sum_nonneg fun i _ => sq_nonneg _
  generalize (∑ i, p i ^ 2 : Int) = S at *
  refine ⟨_, ?_, rfl, ?_⟩
  · show Fp.dbl.sqrt (dot _ _) = _
    rw [hs]
    show (if ((S : ℚ)) < 0 then Dbl.nan else Dbl.round (Real.sqrt (((S : ℚ)) : ℝ))) = _
    rw [if_neg (by rw [not_lt]; exact_mod_cast hS)]
    have e : (((S : ℚ)) : ℝ) = (S : ℝ) := by push_cast; rfl
    rw [e, round_real_fin (Real.sqrt_nonneg _)]
    rw [Real.sqrt_le_left (by norm_num)]
    have : ((S : Int) : ℝ) ≤ 2 ^ 53 := by exact_mod_cast h
    linarith [show (2 : ℝ) ^ 53 ≤ (2 ^ 53) ^ 2 by norm_num]
  · rcases eq_or_lt_of_le hS with h0 | h0
    · rw [← h0]
      simp [fl_zero]
    · apply fl_real_rel
      rw [Real.one_le_sqrt]
      exact_mod_cast h0

theorem eps_bounds : ∃ e : ℚ, Fp.dbl.eps = .fin e ∧ 0 < e ∧ e < 1 := by
  have h : |(1 / 10 ^ 6 : ℚ)| ≤ 2 ^ 1000 := by
    rw [abs_of_pos (by norm_num)]
    norm_num
  refine ⟨_, round_fin h, ?_, ?_⟩
  · have h1 := fl_err (1 / 10 ^ 6 : ℚ)
    rw [abs_of_pos (show (0 : ℚ) < 1 / 10 ^ 6 by norm_num), abs_le] at h1
    have h2 : (2 : ℚ) ^ (-53 : Int) * (1 / 10 ^ 6) + 2 ^ (-1075 : Int) < 1 / 10 ^ 6 := by norm_num
    linarith [h1.1]
  · have h1 := fl_err (1 / 10 ^ 6 : ℚ)
    rw [abs_of_pos (show (0 : ℚ) < 1 / 10 ^ 6 by norm_num), abs_le] at h1
    have h2 : (2 : ℚ) ^ (-53 : Int) * (1 / 10 ^ 6) + 2 ^ (-1075 : Int) < 1 / 10 ^ 6 := by norm_num
    have h3 : (1 : ℚ) / 10 ^ 6 + 1 / 10 ^ 6 < 1 := by norm_num
    linarith [h1.2]

theorem dcmp_int (k : Int) : dcmp Fp.dbl (.fin (k : ℚ)) = k.sign := by
  obtain ⟨e, he, h0, h1⟩ := eps_bounds
  unfold dcmp
  rw [he, dzero]
  have hl : ∀ a b : ℚ, (Dbl.fin a < Dbl.fin b) ↔ a < b := fun a b => by
    show Dbl.lt (.fin a) (.fin b) = true ↔ _
    simp [Dbl.lt]
  have hf : Fp.dbl.fabs (.fin (k : ℚ)) = .fin |(k : ℚ)| := rfl
  simp only [hf, hl]
  rcases lt_trichotomy k 0 with h | h | h
  · have h2 : (1 : ℚ) ≤ |(k : ℚ)| := by
      rw [abs_of_neg (by exact_mod_cast h)]
      have : k ≤ -1 := by omega
      have : (k : ℚ) ≤ -1 := by exact_mod_cast this
      linarith
    rw [if_neg (by linarith), if_neg (by push_cast; have : (k : ℚ) < 0 := by exact_mod_cast h
                                         linarith), Int.sign_eq_neg_one_of_neg h]
  · subst h
    rw [if_pos (by simpa using h0)]
    rfl
  · have h2 : (1 : ℚ) ≤ |(k : ℚ)| := by
      have : (1 : ℚ) ≤ k := by exact_mod_cast h
      rw [abs_of_pos (by linarith)]
      exact this
    rw [if_neg (by linarith), if_pos (by exact_mod_cast h), Int.sign_eq_one_of_pos h]

/-- the quotient at the end of the distance from a line -/
theorem quot_int (c : Int) (hc : |c| ≤ 2 ^ 53) (s : ℝ) (hs1 : 1 ≤ s) (hs2 : s ≤ 2 ^ 53) (l : ℚ)
    (hl : |(l : ℝ) - s| ≤ 2 ^ (-53 : Int) * s) :
    ∃ z : ℚ, Fp.dbl.fabs (Dbl.fin (c : ℚ) / Dbl.fin l) = .fin z ∧ abs ((z : ℝ) - |(c : ℝ) / s|) ≤ |(c : ℝ) / s| / 2 ^ 51 := by
  have e53 : (2 : ℝ) ^ (-53 : Int) = 1 / 2 ^ 53 := by norm_num
  rw [e53, abs_le] at hl
  have hl0 : (1 : ℝ) / 2 ≤ l := by
    have : 1 / 2 ^ 53 * s ≤ 1 / 2 * s := by
      apply mul_le_mul_of_nonneg_right _ (by linarith)
      norm_num
    linarith
  have hl1 : (l : ℝ) ≤ 2 ^ 54 := by
    have : 1 / 2 ^ 53 * s ≤ 1 * s := by
      apply mul_le_mul_of_nonneg_right _ (by linarith)
      norm_num
    linarith [show (2 : ℝ) ^ 53 + 2 ^ 53 ≤ 2 ^ 54 by norm_num]
  have hlq : (1 : ℚ) / 2 ≤ l := by
    have : (((1 / 2 : ℚ)) : ℝ) ≤ (l : ℝ) := by push_cast; exact hl0
    exact_mod_cast this
  have hlq1 : l ≤ 2 ^ 54 := by
    have : (l : ℝ) ≤ ((2 ^ 54 : ℚ) : ℝ) := by push_cast; exact hl1
    exact_mod_cast this
  have hlp : 0 < l := by linarith
  have hcq : |(c : ℚ)| ≤ 2 ^ 53 := by exact_mod_cast hc
  have hq : |(c : ℚ) / l| ≤ 2 ^ 54 := by
    rw [abs_div, abs_of_pos hlp, div_le_iff₀ hlp]
    have : (2 : ℚ) ^ 54 * (1 / 2) ≤ 2 ^ 54 * l := by gcongr
    linarith [show (2 : ℚ) ^ 54 * (1 / 2) = 2 ^ 53 by norm_num]
  have hdiv : Dbl.fin (c : ℚ) / Dbl.fin l = .fin (fl ((c : ℚ) / l)) := by
    show (if l = 0 then _ else Dbl.round ((c : ℚ) / l)) = _
    rw [if_neg hlp.ne', round_fin (hq.trans (by norm_num))]
  refine ⟨|fl ((c : ℚ) / l)|, by rw [hdiv]; rfl, ?_⟩
  rcases eq_or_ne c 0 with h0 | h0
  · subst h0
    simp [fl_zero]
  -- the error of the division
  have hcpos : (1 : ℚ) ≤ |(c : ℚ)| := by
    have : 1 ≤ |c| := Int.one_le_abs h0
    exact_mod_cast this
  have hbig : (2 : ℚ) ^ (-1022 : Int) ≤ |(c : ℚ) / l| := by
    rw [abs_div, abs_of_pos hlp, le_div_iff₀ hlp]
    calc (2 : ℚ) ^ (-1022 : Int) * l ≤ 2 ^ (-1022 : Int) * 2 ^ 54 := by gcongr
      _ ≤ 1 := by norm_num
      _ ≤ _ := hcpos
  have hfl : |fl ((c : ℚ) / l)| = flPos |(c : ℚ) / l| := by
    unfold fl
    split
    · rename_i h
      rw [abs_neg, abs_of_neg h, abs_of_nonneg (flPos_nonneg (by linarith))]
    · rename_i h
      rw [abs_of_nonneg (not_lt.1 h), abs_of_nonneg (flPos_nonneg (not_lt.1 h))]
  have herr := flPos_rel hbig
  rw [hfl]
  generalize hF : flPos |(c : ℚ) / l| = F at *
  have herr' : |(F : ℝ) - |(c : ℝ)| / l| ≤ 1 / 2 ^ 53 * (|(c : ℝ)| / l) := by
    have h1 : ((abs (F - |(c : ℚ) / l|) : ℚ) : ℝ) ≤ ((2 ^ (-53 : Int) * |(c : ℚ) / l| : ℚ) : ℝ) := by exact_mod_cast herr
    push_cast at h1
    rw [abs_div, abs_of_pos (show (0 : ℝ) < l by linarith), e53] at h1
    exact h1
  have hC : (0 : ℝ) ≤ |(c : ℝ)| := abs_nonneg _
  have hsp : (0 : ℝ) < s := by linarith
  have hlr : (0 : ℝ) < l := by linarith
  rw [abs_div, abs_of_pos hsp]
  generalize |(c : ℝ)| = C at *
  -- the error of the length
  have hCl : |C / l - C / s| ≤ C / s * (1 / 2 ^ 53 * 2) := by
    have e : C / (l : ℝ) - C / s = C / s * ((s - l) / l) := by field_simp
    rw [e, abs_mul, abs_of_nonneg (show 0 ≤ C / s by positivity)]
    apply mul_le_mul_of_nonneg_left _ (by positivity)
    rw [abs_div, abs_of_pos hlr, div_le_iff₀ hlr, abs_sub_comm, abs_le]
    have : s ≤ 2 * l := by
      have : 1 / 2 ^ 53 * s ≤ 1 / 2 * s := by
        apply mul_le_mul_of_nonneg_right _ (by linarith)
        norm_num
      linarith [hl.1]
    have h53 : (0 : ℝ) < 1 / 2 ^ 53 := by norm_num
    constructor <;> nlinarith
  have hCl2 : C / l ≤ C / s * 2 := by
    rw [abs_le] at hCl
    have : C / s * (1 / 2 ^ 53 * 2) ≤ C / s * 1 := by
      apply mul_le_mul_of_nonneg_left _ (by positivity)
      norm_num
    linarith [hCl.2]
  have : |(F : ℝ) - C / s| ≤ |(F : ℝ) - C / l| + |C / l - C / s| := abs_sub_le _ _ _
  have h51 : C / s / 2 ^ 51 = C / s * (1 / 2 ^ 53 * 2) + 1 / 2 ^ 53 * (C / s * 2) := by
    rw [show (2 : ℝ) ^ 53 = 2 ^ 51 * 4 by norm_num]
    field_simp
    ring
  have : 1 / 2 ^ 53 * (C / (l : ℝ)) ≤ 1 / 2 ^ 53 * (C / s * 2) := by gcongr
  linarith

open Spec

theorem sum_sq_real {N : Nat} (p q : Fin N → Int) :
    Real.sqrt ((∑ i, (p i - q i) ^ 2 : Int) : ℝ) = Spec.dist (toReal p) (toReal q) := by
  unfold Spec.dist toReal
  push_cast
  rfl

/-- the distance from the line, as computed at the end of both functions -/
theorem line_int (P A v : Fin 2 → Int) (hP : ∀ i, |P i| ≤ 2 ^ 20) (hA : ∀ i, |A i| ≤ 2 ^ 20)
    (hv : ∀ i, |v i| ≤ 2 ^ 20) (h0 : v ≠ 0) :
    ∃ z : ℚ, Fp.dbl.fabs (cross (ofInt v) (fun i => ofInt P i - ofInt A i) / len Fp.dbl (ofInt v)) = .fin z ∧
      ∀ d : ℝ, d = |cross (toReal v) (fun i => toReal P i - toReal A i) / len Fp.real (toReal v)| →
        |(z : ℝ) - d| ≤ d / 2 ^ 51 := by
  have hu : ∀ i, |P i - A i| ≤ 2 ^ 21 := fun i => (abs_sub_le' (hP i) (hA i)).trans (by norm_num)
  have hsub : (fun i => ofInt P i - ofInt A i) = ofInt fun i => P i - A i :=
    funext fun i => dsub_int ((hu i).trans (by norm_num))
  have h1 := abs_mul_le (hv 0) (hu 1)
  have h2 := abs_mul_le (hv 1) (hu 0)
  have h3 := abs_sub_le' h1 h2
  have hc : cross (ofInt v) (fun i => ofInt P i - ofInt A i) =
      .fin ((v 0 * (P 1 - A 1) - v 1 * (P 0 - A 0) : Int) : ℚ) := by
    rw [hsub]
    unfold cross ofInt
    rw [dmul_int (h1.trans (by norm_num)), dmul_int (h2.trans (by norm_num)), dsub_int (h3.trans (by norm_num))]
  have hS : ∑ i, v i ^ 2 ≤ 2 ^ 41 := by
    rw [Fin.sum_univ_two]
    have a0 := abs_mul_le (hv 0) (hv 0)
    have a1 := abs_mul_le (hv 1) (hv 1)
    rw [abs_mul_self] at a0 a1
    rw [pow_two, pow_two]
    linarith
  have hS1 : 1 ≤ ∑ i, v i ^ 2 := by
    have : ∃ i, v i ≠ 0 := by
      by_contra h
      push Not at h
      exact h0 (funext h)
    obtain ⟨i, hi⟩ := this
    have : 1 ≤ v i ^ 2 := by
      have : 0 < v i ^ 2 := by positivity
      omega
    exact this.trans (Finset.single_le_sum (f := fun i => v i ^ 2) (fun j _ => sq_nonneg _) (Finset.mem_univ i))
  obtain ⟨l, e1, -, e3⟩ := len_int v (hS.trans (by norm_num))
  obtain ⟨z, z1, z2⟩ := quot_int _ (h3.trans (by norm_num)) _
    (by rw [Real.one_le_sqrt]; exact_mod_cast hS1)
    (by
      rw [Real.sqrt_le_left (by norm_num)]
      have : ((∑ i, v i ^ 2 : Int) : ℝ) ≤ 2 ^ 41 := by exact_mod_cast hS
      exact this.trans (by norm_num)) l e3
  refine ⟨z, ?_, ?_⟩
  · rw [hc]
    show Fp.dbl.fabs (_ / len Fp.dbl fun i => Dbl.fin (v i : ℚ)) = _
    rw [e1, z1]
  · intro d hd
    have : d = |((v 0 * (P 1 - A 1) - v 1 * (P 0 - A 0) : Int) : ℝ) / Real.sqrt ((∑ i, v i ^ 2 : Int) : ℝ)| := by
      rw [hd, len2, Fin.sum_univ_two]
      unfold cross toReal
      push_cast
      rfl
    rw [this]
    exact z2

theorem toReal_ne {v : Fin 2 → Int} (h : v ≠ 0) : toReal v ≠ 0 := by
  intro hz
  apply h
  funext i
  have h2 : ((v i : Int) : ℝ) = 0 := congrFun hz i
  exact_mod_cast h2

end Geo
