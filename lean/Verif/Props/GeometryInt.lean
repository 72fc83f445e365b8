import Verif.Props.Geometry
import Verif.Proof.GeometryInt

/-! # Points, lines and segments with whole-number coordinates in binary64: C132

`ofInt p` is the point with the whole numbers `p i` as coordinates, stored as binary64 numbers. -/

namespace Geo.Props
open Cpp Spec Geo

/-- **C132, sums, differences and products.**  With whole numbers no operation rounds as long as the exact results
stay within `2^53`: sums and differences of points, dot products and cross products are exact. -/
theorem C132_exact {N : Nat} (p q : Fin N → Int) (n : Nat) :
    ((∀ i, |p i + q i| ≤ 2 ^ 53) → ((add (ofInt p) (ofInt q)).run n).1 = ofInt fun i => p i + q i) ∧
    ((∀ i, |p i - q i| ≤ 2 ^ 53) → ((sub (ofInt p) (ofInt q)).run n).1 = ofInt fun i => p i - q i) ∧
    (∑ i, |p i * q i| ≤ 2 ^ 53 → dot (ofInt p) (ofInt q) = .fin ((∑ i, p i * q i : Int) : ℚ)) :=
  ⟨fun h => funext fun i => dadd_int (h i), fun h => funext fun i => dsub_int (h i), dot_int p q⟩

example : ∑ i, |(![3, -4, 5] : Fin 3 → Int) i * (![2 ^ 40, 7, 0] : Fin 3 → Int) i| ≤ 2 ^ 53 := by decide +kernel
example : dot (ofInt ![3, -4, 5]) (ofInt ![2, 7, 1]) = .fin (-17) := by decide +kernel

/-- **C132, orientation.**  `cross(B - A, C - A)` of points with whole coordinates up to `2^24` is exactly twice the
oriented area of the triangle `ABC`; so its sign tells correctly on which side of `AB` the point `C` lies, and it is
0 exactly if the three points lie on a line. -/
theorem C132_orientation (A B C : Fin 2 → Int) (hA : ∀ i, |A i| ≤ 2 ^ 24) (hB : ∀ i, |B i| ≤ 2 ^ 24)
    (hC : ∀ i, |C i| ≤ 2 ^ 24) (n : Nat) :
    ∃ k : Int, cross ((sub (ofInt B) (ofInt A)).run n).1 ((sub (ofInt C) (ofInt A)).run n).1 = .fin k ∧
      k = (B 0 - A 0) * (C 1 - A 1) - (B 1 - A 1) * (C 0 - A 0) ∧ dcmp Fp.dbl (.fin k) = k.sign := by
  have hu : ∀ i, |B i - A i| ≤ 2 ^ 25 := fun i => (abs_sub_le' (hB i) (hA i)).trans (by norm_num)
  have hw : ∀ i, |C i - A i| ≤ 2 ^ 25 := fun i => (abs_sub_le' (hC i) (hA i)).trans (by norm_num)
  refine ⟨_, ?_, rfl, dcmp_int _⟩
  rw [(C132_exact B A n).2.1 fun i => (hu i).trans (by norm_num),
    (C132_exact C A n).2.1 fun i => (hw i).trans (by norm_num)]
  unfold cross ofInt
  have h1 := abs_mul_le (hu 0) (hw 1)
  have h2 := abs_mul_le (hu 1) (hw 0)
  rw [dmul_int (h1.trans (by norm_num)), dmul_int (h2.trans (by norm_num)),
    dsub_int ((abs_sub_le' h1 h2).trans (by norm_num))]

-- with a million as the size of the coordinates, a point next to the line is told from one on it
example : cross ((sub (ofInt ![1000000, 999999]) (ofInt ![0, 0])).run 0).1
    ((sub (ofInt ![999999, 999998]) (ofInt ![0, 0])).run 0).1 = .fin (-1) := by decide +kernel

/-- **C132, distance of two points.**  `len(P - Q)` is the distance of the points with relative error at most
`2^-53`, and it is the distance itself if that is a whole number. -/
theorem C132_len {N : Nat} (p q : Fin N → Int) (h : ∑ i, (p i - q i) ^ 2 ≤ 2 ^ 53) (n : Nat) :
    ∃ z : ℚ, len Fp.dbl ((sub (ofInt p) (ofInt q)).run n).1 = .fin z ∧
      |(z : ℝ) - Spec.dist (toReal p) (toReal q)| ≤ Spec.dist (toReal p) (toReal q) / 2 ^ 53 ∧
      ∀ d : Nat, Spec.dist (toReal p) (toReal q) = d → z = d := by
  have hle : ∀ i, |p i - q i| ≤ 2 ^ 53 := fun i => by
    have h1 : (p i - q i) ^ 2 ≤ 2 ^ 53 :=
      (Finset.single_le_sum (f := fun i => (p i - q i) ^ 2) (fun j _ => sq_nonneg _) (Finset.mem_univ i)).trans h
    rw [← sq_abs] at h1
    nlinarith [abs_nonneg (p i - q i)]
  obtain ⟨z, h1, h2, h3⟩ := len_int (fun i => p i - q i) h
  refine ⟨z, ?_, ?_, ?_⟩
  · rw [(C132_exact p q n).2.1 hle]
    exact h1
  · rw [sum_sq_real] at h3
    refine h3.trans (le_of_eq ?_)
    rw [zpow_neg]
    norm_num
    ring
  · intro d hd
    rw [sum_sq_real, hd] at h2
    have hd2 : ((∑ i, (p i - q i) ^ 2 : Int) : ℝ) = (d : ℝ) ^ 2 := by
      rw [← hd, ← sum_sq_real, Real.sq_sqrt]
      exact_mod_cast Finset.sum_nonneg fun i _ => sq_nonneg (p i - q i)
    have hd3 : (d : Int) ^ 2 ≤ 2 ^ 53 := by
      have : (∑ i, (p i - q i) ^ 2 : Int) = (d : Int) ^ 2 := by exact_mod_cast hd2
      rw [← this]
      exact h
    rw [h2, show (d : ℝ) = (((d : Int) : ℚ) : ℝ) by push_cast; rfl, fl_cast, fl_int]
    · push_cast; rfl
    · rw [abs_of_nonneg (Int.natCast_nonneg d)]
      nlinarith [Int.natCast_nonneg d]

-- the points (1, 2, 3) and (4, 6, 15) have distance 13
example : ∑ i, ((![1, 2, 3] : Fin 3 → Int) i - (![4, 6, 15] : Fin 3 → Int) i) ^ 2 = 13 ^ 2 := by decide
example : Spec.dist (toReal ![1, 2, 3]) (toReal ![4, 6, 15]) = (13 : Nat) := by
  rw [← sum_sq_real]
  rw [show (∑ i, ((![1, 2, 3] : Fin 3 → Int) i - (![4, 6, 15] : Fin 3 → Int) i) ^ 2 : Int) = 13 ^ 2 by decide]
  rw [show (((13 ^ 2 : Int)) : ℝ) = ((13 : Nat) : ℝ) ^ 2 by norm_num]
  exact Real.sqrt_sq (Nat.cast_nonneg _)

/-- **C132, distance from a line.**  For whole coordinates up to `2^20` the result of `disToLine` is a finite number
and the distance `d` of the point from the line with relative error at most `2^-51`; so it is 0 exactly if the point
lies on the line. -/
theorem C132_line (P A v : Fin 2 → Int) (hP : ∀ i, |P i| ≤ 2 ^ 20) (hA : ∀ i, |A i| ≤ 2 ^ 20)
    (hv : ∀ i, |v i| ≤ 2 ^ 20) (h0 : v ≠ 0) (n : Nat) :
    ∃ (z : ℚ) (d : ℝ), ((disToLine Fp.dbl (ofInt P) ⟨ofInt A, ofInt v⟩).run n).1 = .fin z ∧
      IsDist (line (toReal A) (toReal v)) (toReal P) d ∧ |(z : ℝ) - d| ≤ d / 2 ^ 51 ∧
      (z = 0 ↔ toReal P ∈ line (toReal A) (toReal v)) := by
  obtain ⟨z, h1, h2⟩ := line_int P A v hP hA hv h0
  have hd := C64_line (toReal P) ⟨toReal A, toReal v⟩ (toReal_ne h0) n
  have hz := h2 _ rfl
  rw [disToLine_run] at hd
  dsimp only at hd
  refine ⟨z, _, h1, hd, hz, ?_⟩
  generalize |cross (toReal v) (fun i => toReal P i - toReal A i) / len Fp.real (toReal v)| = d at *
  have hd0 : 0 ≤ d := by
    obtain ⟨⟨X, _, hX⟩, _⟩ := hd
    rw [← hX]
    exact Real.sqrt_nonneg _
  constructor
  · intro h
    subst h
    rw [Rat.cast_zero, zero_sub, abs_neg, abs_of_nonneg hd0] at hz
    have : d = 0 := by
      rw [le_div_iff₀ (by norm_num)] at hz
      nlinarith
    obtain ⟨⟨X, hX, hX2⟩, _⟩ := hd
    rw [this, dist2, Real.sqrt_eq_zero (by positivity)] at hX2
    have e0 : toReal P 0 = X 0 := by nlinarith [sq_nonneg (toReal P 0 - X 0), sq_nonneg (toReal P 1 - X 1)]
    have e1 : toReal P 1 = X 1 := by nlinarith [sq_nonneg (toReal P 0 - X 0), sq_nonneg (toReal P 1 - X 1)]
    have : toReal P = X := by
      funext i
      fin_cases i
      · exact e0
      · exact e1
    rw [this]
    exact hX
  · intro h
    have := hd.2 _ h
    rw [dist2, sub_self, sub_self] at this
    norm_num at this
    have : d = 0 := le_antisymm this hd0
    rw [this, zero_div, sub_zero, abs_nonpos_iff] at hz
    exact_mod_cast hz

example : (![3, 4] : Fin 2 → Int) ≠ 0 ∧ ∀ i, |(![3, 4] : Fin 2 → Int) i| ≤ 2 ^ 20 := by decide +kernel

/-- **C132, distance from a segment.**  For whole coordinates up to `2^20` and a segment of positive length the
result of `disToSegment` is a finite number and the distance `d` of the point from the segment with relative error at
most `2^-51`: the tolerance `EPS`, which spoils the result for very short segments (C64), does no harm. -/
theorem C132_segment (P A v : Fin 2 → Int) (hP : ∀ i, |P i| ≤ 2 ^ 20) (hA : ∀ i, |A i| ≤ 2 ^ 20)
    (hv : ∀ i, |v i| ≤ 2 ^ 20) (h0 : v ≠ 0) (n : Nat) :
    ∃ (z : ℚ) (d : ℝ), ((disToSegment Fp.dbl (ofInt P) ⟨ofInt A, ofInt v⟩).run n).1 = .fin z ∧
      IsDist (segment (toReal A) (toReal v)) (toReal P) d ∧ |(z : ℝ) - d| ≤ d / 2 ^ 51 := by
  obtain ⟨d, r, hd, hr, -, -, heq⟩ := C64_segment_partial (toReal P) ⟨toReal A, toReal v⟩ (toReal_ne h0) n
  have hu : ∀ i, |P i - A i| ≤ 2 ^ 21 := fun i => (abs_sub_le' (hP i) (hA i)).trans (by norm_num)
  have hw : ∀ i, |P i - A i - v i| ≤ 2 ^ 22 := fun i => (abs_sub_le' (hu i) (hv i)).trans (by norm_num)
  have hsub : (fun i => ofInt P i - ofInt A i) = ofInt fun i => P i - A i :=
    funext fun i => dsub_int ((hu i).trans (by norm_num))
  have hsub2 : (fun i => ofInt P i - ofInt A i - ofInt v i) = ofInt fun i => P i - A i - v i := by
    funext i
    rw [show ofInt P i - ofInt A i = ofInt (fun i => P i - A i) i from congrFun hsub i]
    exact dsub_int ((hw i).trans (by norm_num))
  have hdot : ∀ w : Fin 2 → Int, (∀ i, |w i| ≤ 2 ^ 22) → dot (ofInt v) (ofInt w) = .fin ((∑ i, v i * w i : Int) : ℚ) := by
    intro w hw
    apply dot_int
    rw [Fin.sum_univ_two]
    linarith [abs_mul_le (hv 0) (hw 0), abs_mul_le (hv 1) (hw 1)]
  have hsq : ∀ w : Fin 2 → Int, (∀ i, |w i| ≤ 2 ^ 22) → ∑ i, w i ^ 2 ≤ 2 ^ 53 := by
    intro w hw
    rw [Fin.sum_univ_two]
    have a0 := abs_mul_le (hw 0) (hw 0)
    have a1 := abs_mul_le (hw 1) (hw 1)
    rw [abs_mul_self] at a0 a1
    rw [pow_two, pow_two]
    linarith
  have hlen : ∀ w : Fin 2 → Int, (∀ i, |w i| ≤ 2 ^ 22) → ∃ z : ℚ, len Fp.dbl (ofInt w) = .fin z ∧
      |(z : ℝ) - len Fp.real (toReal w)| ≤ len Fp.real (toReal w) / 2 ^ 51 := by
    intro w hw
    obtain ⟨z, e1, -, e3⟩ := len_int w (hsq w hw)
    have e : Real.sqrt ((∑ i, w i ^ 2 : Int) : ℝ) = len Fp.real (toReal w) := by
      rw [len2, Fin.sum_univ_two]
      unfold toReal
      push_cast
      rfl
    rw [e] at e3
    refine ⟨z, e1, e3.trans ?_⟩
    have h0 : 0 ≤ len Fp.real (toReal w) := by rw [len2]; exact Real.sqrt_nonneg _
    rw [div_eq_mul_inv, mul_comm]
    apply mul_le_mul_of_nonneg_left _ h0
    norm_num
  -- the whole numbers that decide
  have hs1 : ∑ i, toReal v i * (toReal P i - toReal A i) = ((∑ i, v i * (P i - A i) : Int) : ℝ) := by
    unfold toReal
    push_cast
    rfl
  have hs2 : ∑ i, toReal v i ^ 2 = ((∑ i, v i ^ 2 : Int) : ℝ) := by
    unfold toReal
    push_cast
    rfl
  have hs3 : ∑ i, v i * (P i - A i - v i) = ∑ i, v i * (P i - A i) - ∑ i, v i ^ 2 := by
    simp only [Fin.sum_univ_two]
    ring
  have h6 : (1 : ℝ) / 10 ^ 6 ≤ 1 := by norm_num
  have hrd : r = d := by
    apply heq
    · dsimp only
      rw [hs1]
      rcases le_or_gt 0 (∑ i, v i * (P i - A i)) with h | h
      · left; exact_mod_cast h
      · right
        have : (∑ i, v i * (P i - A i)) ≤ -1 := by omega
        have : ((∑ i, v i * (P i - A i) : Int) : ℝ) ≤ -1 := by exact_mod_cast this
        rw [neg_div]
        linarith
    · dsimp only
      rw [hs1, hs2]
      rcases le_or_gt (∑ i, v i * (P i - A i)) (∑ i, v i ^ 2) with h | h
      · left; exact_mod_cast h
      · right
        have : ((∑ i, v i ^ 2 : Int) : ℝ) + 1 ≤ ((∑ i, v i * (P i - A i) : Int) : ℝ) := by exact_mod_cast h
        linarith
  subst hrd
  have hdr : ∀ w : Fin 2 → Int, dot (toReal v) (toReal w) = ((∑ i, v i * w i : Int) : ℝ) := by
    intro w
    rw [dot2, Fin.sum_univ_two]
    unfold toReal
    push_cast
    rfl
  have hsubr : (fun i => toReal P i - toReal A i) = toReal fun i => P i - A i := by
    funext i
    unfold toReal
    push_cast
    rfl
  have hsubr2 : (fun i => toReal P i - toReal A i - toReal v i) = toReal fun i => P i - A i - v i := by
    funext i
    unfold toReal
    push_cast
    rfl
  -- the same case is taken in both
  have hn : ∀ k : Int, dcmp Fp.real (k : ℝ) < 0 ↔ k.sign < 0 := by
    intro k
    rw [dcmp_neg, Int.sign_neg_iff]
    constructor
    · intro h
      have : (k : ℝ) < 0 := by linarith [show (0 : ℝ) < 1 / 10 ^ 6 by norm_num]
      exact_mod_cast this
    · intro h
      have : k ≤ -1 := by omega
      have : (k : ℝ) ≤ -1 := by exact_mod_cast this
      linarith
  have hp : ∀ k : Int, 0 < dcmp Fp.real (k : ℝ) ↔ 0 < k.sign := by
    intro k
    rw [dcmp_pos, Int.sign_pos_iff]
    constructor
    · intro h
      have : (0 : ℝ) < k := by linarith [show (0 : ℝ) < 1 / 10 ^ 6 by norm_num]
      exact_mod_cast this
    · intro h
      have : (1 : ℝ) ≤ k := by exact_mod_cast h
      linarith
  rw [disToSegment_run] at hr ⊢
  dsimp only at hr ⊢
  have hl := line_int P A v hP hA hv h0
  rw [hsub] at hl
  rw [hsubr] at hl
  rw [hsubr, hsubr2, hdr, hdr] at hr
  simp only [hn, hp] at hr
  rw [hsub, hsub2, hdot _ (fun i => (hu i).trans (by norm_num)), hdot _ hw, dcmp_int, dcmp_int]
  split_ifs at hr ⊢ with c1 c2
  · obtain ⟨z, e1, e2⟩ := hlen _ (fun i => (hu i).trans (by norm_num))
    exact ⟨z, r, e1, hd, hr ▸ e2⟩
  · obtain ⟨z, e1, e2⟩ := hlen _ hw
    exact ⟨z, r, e1, hd, hr ▸ e2⟩
  · obtain ⟨z, e1, e2⟩ := hl
    exact ⟨z, r, e1, hd, e2 r hr.symm⟩

-- a point beside, before and behind the segment from (1, 1) to (5, 4)
example : (![4, 3] : Fin 2 → Int) ≠ 0 ∧
    ∑ i, (![4, 3] : Fin 2 → Int) i * ((![2, 6] : Fin 2 → Int) i - (![1, 1] : Fin 2 → Int) i) = 19 ∧
    ∑ i, (![4, 3] : Fin 2 → Int) i * ((![-3, 0] : Fin 2 → Int) i - (![1, 1] : Fin 2 → Int) i) = -19 ∧
    ∑ i, (![4, 3] : Fin 2 → Int) i * ((![7, 5] : Fin 2 → Int) i - (![1, 1] : Fin 2 → Int) i) = 36 := by decide

end Geo.Props
