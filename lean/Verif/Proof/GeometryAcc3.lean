import Verif.Proof.GeometryAcc2

/-! # Accuracy in binary64: distances, directions, lines -/

set_option exponentiation.threshold 2000

namespace Geo.Acc
open Cpp Geo Geo.Spec

variable {N : Nat}

theorem vlen_nonneg (p : Fin N → ℝ) : 0 ≤ vlen p := Real.sqrt_nonneg _

theorem vlen2 (p : Fin 2 → ℝ) : vlen p = Real.sqrt (p 0 ^ 2 + p 1 ^ 2) := by
  simp [vlen, Fin.sum_univ_two]

theorem vlen_sq (p : Fin N → ℝ) : vlen p ^ 2 = ∑ i, p i ^ 2 :=
  Real.sq_sqrt (Finset.sum_nonneg fun _ _ => sq_nonneg _)

theorem abs_le_vlen (p : Fin N → ℝ) (i : Fin N) : |p i| ≤ vlen p := by
  unfold vlen
  apply Real.le_sqrt_of_sq_le
  rw [sq_abs]
  exact Finset.single_le_sum (f := fun i => p i ^ 2) (fun j _ => sq_nonneg _) (Finset.mem_univ i)

theorem vlen_pos {p : Fin N → ℝ} (h : p ≠ 0) : 0 < vlen p := by
  obtain ⟨i, hi⟩ : ∃ i, p i ≠ 0 := by
    by_contra hc
    push Not at hc
    exact h (funext hc)
  exact lt_of_lt_of_le (abs_pos.2 hi) (abs_le_vlen p i)

theorem dist_eq (p q : Fin N → ℝ) : Spec.dist p q = vlen fun i => p i - q i := rfl

/-- Cauchy-Schwarz in the plane, with absolute values -/
theorem cs2 (a b c d : ℝ) : |a * d| + |b * c| ≤ Real.sqrt (a ^ 2 + b ^ 2) * Real.sqrt (c ^ 2 + d ^ 2) := by
  rw [← Real.sqrt_mul (by positivity)]
  apply Real.le_sqrt_of_sq_le
  rw [abs_mul, abs_mul, ← sq_abs a, ← sq_abs b, ← sq_abs c, ← sq_abs d]
  nlinarith [sq_nonneg (|a| * |c| - |b| * |d|)]

theorem cs_cross (v w : Fin 2 → ℝ) : |v 0 * w 1| + |v 1 * w 0| ≤ vlen v * vlen w := by
  rw [vlen2, vlen2]; exact cs2 _ _ _ _

theorem cs_dot (v w : Fin 2 → ℝ) : |v 0 * w 0| + |v 1 * w 1| ≤ vlen v * vlen w := by
  rw [vlen2, vlen2, add_comm (w 0 ^ 2)]; exact cs2 _ _ _ _

theorem abs_cross_le (v w : Fin 2 → ℝ) : |cross v w| ≤ vlen v * vlen w :=
  (abs_sub _ _).trans (cs_cross v w)

/-- a difference of points -/
theorem sub_moderate {P A : Fin N → ℚ} (hP : ∀ i, Moderate (P i)) (hA : ∀ i, Moderate (A i)) :
    (fun i => Dbl.fin (P i) - Dbl.fin (A i)) = (fun i => Dbl.fin (fl (P i - A i))) ∧
    (∀ i, Grid (-452) (fl (P i - A i))) ∧ (∀ i, Rel 1 ((P i : ℝ) - A i) (fl (P i - A i))) ∧
    ∀ i, |(P i : ℝ) - A i| ≤ 2 ^ 401 := by
  have hb : ∀ i, |(P i : ℝ) - A i| ≤ 2 ^ 401 := fun i => by
    have h1 := moderate_le (hP i)
    have h2 := moderate_le (hA i)
    have h3 := abs_sub (P i : ℝ) (A i)
    rw [pow_succ]
    generalize (2 : ℝ) ^ 400 = B at *
    linarith
  have hg : ∀ i, Grid (-452) (P i - A i) := fun i => (grid_of_moderate (hP i)).sub (grid_of_moderate (hA i))
  refine ⟨funext fun i => ?_, fun i => (hg i).fl, fun i => ?_, hb⟩
  · show Dbl.round (P i + -A i) = _
    rw [← sub_eq_add_neg]
    apply roundq
    push_cast
    exact (hb i).trans (pow_le_pow_right₀ (by norm_num) (by norm_num))
  · have := (hg i).rel (by norm_num)
    push_cast at this
    exact this

theorem big_of_grid {x : ℚ} (h : Grid (-452) x) : Big (-480) (x : ℝ) := h.big.mono (by norm_num)

/-- `len` of a vector of moderate numbers -/
theorem len_moderate {p : Fin N → ℚ} (hp : ∀ i, Moderate (p i)) (hN : N ≤ 2 ^ 20) :
    ∃ z : ℚ, len Fp.dbl (fun i => Dbl.fin (p i)) = .fin z ∧ Rel (N / 2 + 2) (vlen (real p)) z ∧ Big (-480) (z : ℝ) ∧
      vlen (real p) ≤ 2 ^ 440 := by
  have := len_rel (real p) p (e := 0) (fun i => Rel.refl _) (fun i => big_of_grid (grid_of_moderate (hp i))) hN (by norm_num)
    (fun i => (moderate_le (hp i)).trans (pow_le_pow_right₀ (by norm_num) (by norm_num)))
  rwa [zero_add] at this

/-- `len` of a difference of points with moderate coordinates -/
theorem dist_moderate {P A : Fin N → ℚ} (hP : ∀ i, Moderate (P i)) (hA : ∀ i, Moderate (A i)) (hN : N ≤ 2 ^ 20) :
    ∃ z : ℚ, len Fp.dbl (fun i => Dbl.fin (P i) - Dbl.fin (A i)) = .fin z ∧
      Rel (N / 2 + 3) (Spec.dist (real P) (real A)) z := by
  obtain ⟨h1, h2, h3, h4⟩ := sub_moderate hP hA
  obtain ⟨z, hz, hr, -, -⟩ := len_rel (fun i => (P i : ℝ) - A i) (fun i => fl (P i - A i)) (e := 1) h3
    (fun i => big_of_grid (h2 i)) hN (by norm_num) (fun i => (h4 i).trans (pow_le_pow_right₀ (by norm_num) (by norm_num)))
  exact ⟨z, by rw [h1]; exact hz, hr.mono (by omega)⟩

/-- the cross product: `w` is `W` up to `e` roundings -/
theorem cross_err {v w : Fin 2 → ℚ} {W : Fin 2 → ℝ} {e : Nat} (hv : ∀ i, Grid (-452) (v i)) (hw : ∀ i, Grid (-452) (w i))
    (hW : ∀ i, Rel e (W i) (w i)) (he : e ≤ 4) (hv2 : ∀ i, |(v i : ℝ)| ≤ 2 ^ 430) (hW2 : ∀ i, |W i| ≤ 2 ^ 430) :
    ∃ z : ℚ, cross (fun i => Dbl.fin (v i)) (fun i => Dbl.fin (w i)) = .fin z ∧ Grid (-904) z ∧
      |(z : ℝ) - (v 0 * W 1 - v 1 * W 0)| ≤ (e + 3) * u * (|v 0 * W 1| + |v 1 * W 0|) := by
  have hm2 : e + 1 ≤ 2 ^ 24 := by omega
  have hprod : ∀ i j, |(v i : ℝ) * W j| ≤ 2 ^ 860 := fun i j => by
    rw [abs_mul, show (2 : ℝ) ^ 860 = 2 ^ 430 * 2 ^ 430 by rw [← pow_add]]
    exact mul_le_mul (hv2 i) (hW2 j) (abs_nonneg _) (by positivity)
  have bb : (8 : ℝ) * 2 ^ 860 ≤ 2 ^ 1000 := by norm_num
  have key : ∀ i j, Dbl.fin (v i) * Dbl.fin (w j) = .fin (fl (v i * w j)) ∧ Grid (-904) (fl (v i * w j)) ∧
      |((fl (v i * w j) : ℚ) : ℝ) - v i * W j| ≤ ((1 + u) ^ (e + 1) - 1) * |v i * W j| := by
    intro i j
    have hpr : Rel e ((v i : ℝ) * W j) ((v i * w j : ℚ) : ℝ) := by
      have := (Rel.refl (v i : ℝ)).mul (hW j)
      rw [zero_add] at this
      push_cast
      exact this
    have hgr : Grid (-904) (v i * w j) := (hv i).mul (hw j)
    refine ⟨?_, hgr.fl, ?_⟩
    · show Dbl.round (v i * w j) = _
      apply roundq
      refine (hpr.double (by omega)).trans (le_trans ?_ bb)
      have := hprod i j
      generalize (2 : ℝ) ^ 860 = B at *
      linarith [abs_nonneg ((v i : ℝ) * W j)]
    · obtain ⟨t, h1, h2, h3⟩ := hpr.trans (hgr.rel (by norm_num))
      rw [h3, show ∀ x : ℝ, x * t - x = (t - 1) * x from fun x => by ring, abs_mul]
      apply mul_le_mul_of_nonneg_right _ (abs_nonneg _)
      have h4 := lo_ge (e + 1)
      have h5 := one_add_mul_le_pow (a := u) (by linarith [u_pos]) (e + 1)
      rw [abs_le]
      constructor <;> linarith
  obtain ⟨a1, a2, a3⟩ := key 0 1
  obtain ⟨b1, b2, b3⟩ := key 1 0
  have ha := hprod 0 1
  have hb := hprod 1 0
  set a : ℚ := fl (v 0 * w 1)
  set b : ℚ := fl (v 1 * w 0)
  set A : ℝ := v 0 * W 1
  set B : ℝ := v 1 * W 0
  have hmu := hi_le hm2
  have hmu2 := small_u hm2
  have hg := hi_ge (e + 1)
  have hmu3 := hi_le (m := e + 2) (by omega)
  rw [show e + 2 = e + 1 + 1 by ring, pow_succ] at hmu3
  push_cast at hmu3
  set G := (1 + u) ^ (e + 1)
  have hA0 := abs_nonneg A
  have hB0 := abs_nonneg B
  have hsum : |((a - b : ℚ) : ℝ) - (A - B)| ≤ (G - 1) * (|A| + |B|) := by
    push_cast
    have := abs_sub ((a : ℝ) - A) (b - B)
    rw [show (a : ℝ) - b - (A - B) = (a - A) - (b - B) by ring]
    linarith
  have habs : |((a - b : ℚ) : ℝ)| ≤ G * (|A| + |B|) := by
    have := abs_add_le (((a - b : ℚ) : ℝ) - (A - B)) (A - B)
    have h2 := abs_sub A B
    rw [sub_add_cancel] at this
    linarith
  have hgs : Grid (-904) (a - b) := a2.sub b2
  have hfl : |((fl (a - b) : ℚ) : ℝ) - ((a - b : ℚ) : ℝ)| ≤ u * |((a - b : ℚ) : ℝ)| := by
    rcases hgs.big with h0 | h0
    · have h0' : a - b = 0 := by exact_mod_cast h0
      rw [h0', fl_zero]; simp
    · exact flq_rel ((zpow_le_zpow_right₀ (by norm_num) (by norm_num)).trans h0)
  refine ⟨fl (a - b), ?_, hgs.fl, ?_⟩
  · unfold cross
    rw [a1, b1]
    show Dbl.round (a + -b) = _
    rw [← sub_eq_add_neg]
    apply roundq
    refine habs.trans (le_trans ?_ bb)
    have h1 : G ≤ 4 := by linarith
    have h2 : |A| + |B| ≤ 2 * 2 ^ 860 := by
      generalize (2 : ℝ) ^ 860 = B at *
      linarith
    refine (mul_le_mul h1 h2 (by linarith) (by norm_num)).trans (le_of_eq (by ring))
  · have h1 := abs_add_le (((fl (a - b) : ℚ) : ℝ) - ((a - b : ℚ) : ℝ)) (((a - b : ℚ) : ℝ) - (A - B))
    rw [sub_add_sub_cancel] at h1
    have h2 := mul_le_mul_of_nonneg_left habs u_pos.le
    have h3 : G * (1 + u) - 1 ≤ (e + 3) * u := by linarith
    have h4 := mul_le_mul_of_nonneg_right h3 (show 0 ≤ |A| + |B| by linarith)
    linarith

theorem eta_le {W : ℝ} (h : 2 ^ (-460 : Int) ≤ W) : (2 : ℝ) ^ (-1075 : Int) ≤ u * W := by
  rw [← u_eq]
  refine le_trans ?_ (mul_le_mul_of_nonneg_left h (two_zpow_pos _).le)
  rw [← zpow_add₀ (by norm_num)]
  exact zpow_le_zpow_right₀ (by norm_num) (by norm_num)

theorem u_small : u ≤ 1 / 1000000 := by unfold u; norm_num

/-- the quotient in `disToLine` -/
theorem line_err {v w : Fin 2 → ℚ} {W : Fin 2 → ℝ} (hv : ∀ i, Moderate (v i)) (hv0 : v ≠ 0) (hw : ∀ i, Grid (-452) (w i))
    (hW : ∀ i, Rel 1 (W i) (w i)) (hW2 : ∀ i, |W i| ≤ 2 ^ 401) :
    ∃ z : ℚ, Fp.dbl.fabs (cross (fun i => Dbl.fin (v i)) (fun i => Dbl.fin (w i)) / len Fp.dbl (fun i => Dbl.fin (v i))) = .fin z ∧
      |(z : ℝ) - abs (cross (real v) W / vlen (real v))| ≤ 12 * u * vlen W := by
  have hW2' : ∀ i, |W i| ≤ 2 ^ 430 := fun i => (hW2 i).trans (pow_le_pow_right₀ (by norm_num) (by norm_num))
  obtain ⟨c, hc, hcg, hce⟩ := cross_err (fun i => grid_of_moderate (hv i)) hw hW (by norm_num)
    (fun i => (moderate_le (hv i)).trans (pow_le_pow_right₀ (by norm_num) (by norm_num))) hW2'
  obtain ⟨l, hl, hlr, -, hlb⟩ := len_moderate hv (by norm_num)
  rw [hc, hl]
  have hreal : real v ≠ 0 := fun h => hv0 (funext fun i => by
    have : (v i : ℝ) = 0 := congrFun h i
    exact_mod_cast this)
  have hL := vlen_pos hreal
  set L := vlen (real v) with hLd
  have hWn := vlen_nonneg W
  have hCL : |cross (real v) W| ≤ L * vlen W := abs_cross_le _ _
  have hce2 : |(c : ℝ) - cross (real v) W| ≤ 4 * u * (L * vlen W) := by
    refine hce.trans ?_
    rw [show ((1 : Nat) : ℝ) + 3 = 4 by norm_num]
    exact mul_le_mul_of_nonneg_left (cs_cross (real v) W) (by linarith [u_pos])
  have ht := hlr.err (by norm_num)
  rw [abs_of_pos hL] at ht
  norm_num at ht
  set C := cross (real v) W with hC
  have hu := u_small
  have hu0 := u_pos
  have hlpos : L * (8 / 9) ≤ l := by
    rw [abs_le] at ht
    nlinarith
  have hl0 : (0 : ℝ) < l := by linarith [mul_pos hL (show (0 : ℝ) < 8 / 9 by norm_num)]
  have hlq : l ≠ 0 := by
    intro h
    rw [h, Rat.cast_zero] at hl0
    exact lt_irrefl _ hl0
  -- the exact quotient of the computed numbers
  have hq : |(c : ℝ) / l - C / L| ≤ 9 * u * vlen W := by
    have e : (c : ℝ) / l - C / L = ((c - C) * L - C * (l - L)) / (l * L) := by
      field_simp
      ring
    rw [e, abs_div, abs_of_pos (mul_pos hl0 hL), div_le_iff₀ (mul_pos hl0 hL)]
    have h1 := abs_sub ((c - C) * L) (C * (l - L))
    rw [abs_mul, abs_mul, abs_of_pos hL] at h1
    have h2 : |(c : ℝ) - C| * L ≤ 4 * u * (L * vlen W) * L := mul_le_mul_of_nonneg_right hce2 hL.le
    have h3 : |C| * |(l : ℝ) - L| ≤ L * vlen W * (4 * u * L) := mul_le_mul hCL ht (abs_nonneg _) (by positivity)
    refine h1.trans ((add_le_add h2 h3).trans ?_)
    have h4 : u * vlen W * L * (L * (8 / 9)) ≤ u * vlen W * L * l := mul_le_mul_of_nonneg_left hlpos (by positivity)
    nlinarith
  have hCL2 : |C / L| ≤ vlen W := by
    rw [abs_div, abs_of_pos hL, div_le_iff₀ hL]
    linarith
  have hqabs : |(c : ℝ) / l| ≤ 2 * vlen W := by
    have := abs_add_le ((c : ℝ) / l - C / L) (C / L)
    rw [sub_add_cancel] at this
    nlinarith
  have hWb : vlen W ≤ 2 ^ 402 := by
    rw [vlen2, Real.sqrt_le_left (by positivity)]
    have h0 := pow_le_pow_left₀ (abs_nonneg _) (hW2 0) 2
    have h1 := pow_le_pow_left₀ (abs_nonneg _) (hW2 1) 2
    rw [sq_abs] at h0 h1
    rw [show (2 : ℝ) ^ 402 = 2 * 2 ^ 401 by rw [pow_succ]; ring]
    generalize (2 : ℝ) ^ 401 = B at *
    nlinarith
  have hfl : |((fl (c / l) : ℚ) : ℝ) - (c : ℝ) / l| ≤ 3 * u * vlen W := by
    rcases eq_or_ne c 0 with h0 | h0
    · rw [h0, zero_div, fl_zero]
      simp only [Rat.cast_zero, zero_div, sub_self, abs_zero]
      positivity
    · have h1 := flq_err (c / l)
      push_cast at h1
      have hWpos : (2 : ℝ) ^ (-460 : Int) ≤ vlen W := by
        by_contra hcon
        push Not at hcon
        have hz : ∀ i, w i = 0 := by
          intro i
          rcases (hw i).big with h | h
          · exact_mod_cast h
          · exfalso
            have h2 := (hW i).double (by norm_num)
            have h3 := abs_le_vlen W i
            have h4 : (2 : ℝ) ^ (-452 : Int) < 2 * 2 ^ (-460 : Int) := by linarith
            have e : (2 : ℝ) * 2 ^ (-460 : Int) = 2 ^ (-459 : Int) := by
              rw [show (-459 : Int) = 1 + -460 by norm_num, zpow_add₀ (by norm_num), zpow_one]
            rw [e] at h4
            have := (zpow_lt_zpow_iff_right₀ (by norm_num : (1 : ℝ) < 2)).1 h4
            omega
        apply h0
        unfold cross at hc
        simp only [hz] at hc
        have e0 : ∀ q : ℚ, Dbl.fin q * Dbl.fin 0 = Dbl.fin 0 := fun q => by
          show Dbl.round (q * 0) = _
          rw [mul_zero]
          have := round_int (a := 0) (by norm_num)
          simpa using this
        have e1 : Dbl.fin 0 - Dbl.fin 0 = Dbl.fin 0 := by
          show Dbl.round (0 + -0 : ℚ) = _
          have := round_int (a := 0) (by norm_num)
          simpa using this
        rw [e0, e0, e1] at hc
        exact (Dbl.fin.inj hc).symm
      have h2 := eta_le hWpos
      have h3 := mul_le_mul_of_nonneg_left hqabs hu0.le
      generalize (2 : ℝ) ^ (-1075 : Int) = η at *
      linarith
  refine ⟨|fl (c / l)|, ?_, ?_⟩
  · show Fp.dbl.fabs (if l = 0 then _ else Dbl.round (c / l)) = _
    rw [if_neg hlq, roundq]
    · rfl
    · push_cast
      refine hqabs.trans ?_
      refine (mul_le_mul_of_nonneg_left hWb (by norm_num)).trans ?_
      rw [show (2 : ℝ) * 2 ^ 402 = 2 ^ 403 by rw [pow_succ _ 402]; ring]
      exact pow_le_pow_right₀ (by norm_num) (by norm_num)
  · push_cast
    refine (abs_abs_sub_abs_le_abs_sub _ _).trans ?_
    have := abs_add_le (((fl (c / l) : ℚ) : ℝ) - (c : ℝ) / l) ((c : ℝ) / l - C / L)
    rw [sub_add_sub_cancel] at this
    linarith

end Geo.Acc
