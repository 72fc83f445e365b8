import Verif.Proof.GeometryAcc6
import Verif.Props.Geometry

/-! # Accuracy of points, lines and circles in binary64: C137

`dbl p` is the point with the given coordinates as `double` values, `real p` the same point over the real
numbers, `vlen` the Euclidean length.  A number is `Moderate` if it is a `double` that is 0 or between `2^-400`
and `2^400` in size. -/

set_option exponentiation.threshold 2000

namespace Geo.Props
open Cpp Spec Geo Geo.Acc

/-- **C137, length.**  `len` is finite and off by at most `N/2 + 3` times `2^-53` of the length. -/
theorem C137_len {N : Nat} (hN : N ≤ 2 ^ 20) (p : Fin N → ℚ) (hp : ∀ i, Moderate (p i)) :
    ∃ z : ℚ, len Fp.dbl (dbl p) = .fin z ∧ |(z : ℝ) - vlen (real p)| ≤ (N / 2 + 3) / 2 ^ 53 * vlen (real p) := by
  obtain ⟨z, hz, hr, -, -⟩ := len_moderate hp hN
  refine ⟨z, hz, (hr.err (by omega)).trans ?_⟩
  rw [abs_of_nonneg (vlen_nonneg _)]
  refine mul_le_mul_of_nonneg_right ?_ (vlen_nonneg _)
  have h : ((N / 2 : Nat) : ℝ) ≤ N / 2 := Nat.cast_div_le
  unfold u
  push_cast
  linarith

/-- **C137, distance.**  The length of the difference of two points is finite and off by at most `N/2 + 4` times
`2^-53` of their distance: no cancellation, however close the points are. -/
theorem C137_distance {N : Nat} (hN : N ≤ 2 ^ 20) (p q : Fin N → ℚ) (hp : ∀ i, Moderate (p i))
    (hq : ∀ i, Moderate (q i)) (n : Nat) :
    ∃ z : ℚ, len Fp.dbl ((sub (dbl p) (dbl q)).run n).1 = .fin z ∧
      |(z : ℝ) - Spec.dist (real p) (real q)| ≤ (N / 2 + 4) / 2 ^ 53 * Spec.dist (real p) (real q) := by
  obtain ⟨z, hz, hr⟩ := dist_moderate hp hq hN
  have h0 : 0 ≤ Spec.dist (real p) (real q) := Real.sqrt_nonneg _
  refine ⟨z, hz, (hr.err (by omega)).trans ?_⟩
  rw [abs_of_nonneg h0]
  refine mul_le_mul_of_nonneg_right ?_ h0
  have h : ((N / 2 : Nat) : ℝ) ≤ N / 2 := Nat.cast_div_le
  unfold u
  push_cast
  linarith

/-- **C137, direction.**  `normalize` of a vector other than 0 divides every coordinate by the length up to a relative
error of `N + 6` times `2^-53`, and the length of the result differs from 1 by no more than that. -/
theorem C137_normalize {N : Nat} (hN : N ≤ 2 ^ 20) (p : Fin N → ℚ) (hp : ∀ i, Moderate (p i)) (h0 : p ≠ 0) :
    ∃ z : Fin N → ℚ, normalize Fp.dbl (dbl p) = dbl z ∧
      (∀ i, |(z i : ℝ) - p i / vlen (real p)| ≤ (N + 6) / 2 ^ 53 * (|(p i : ℝ)| / vlen (real p))) ∧
      |vlen (real z) - 1| ≤ (N + 6) / 2 ^ 53 := by
  obtain ⟨z, hz, hr⟩ := normalize_err hp hN h0
  have hL : 0 < vlen (real p) := vlen_pos fun h => h0 (funext fun i => by
    have : (p i : ℝ) = 0 := congrFun h i
    exact_mod_cast this)
  have hu : ((N + 5 : Nat) + 1 : ℝ) * u = (N + 6) / 2 ^ 53 := by
    unfold u
    push_cast
    ring
  refine ⟨z, hz, fun i => ?_, ?_⟩
  · have := (hr i).err (by omega)
    rw [hu, abs_div, abs_of_pos hL] at this
    exact this
  · have h1 : vlen (fun i => (p i : ℝ) / vlen (real p)) = 1 := by
      show Real.sqrt _ = 1
      rw [Real.sqrt_eq_one]
      simp only [div_pow]
      rw [← Finset.sum_div, vlen_sq]
      exact div_self (by rw [← vlen_sq]; positivity)
    have := (vlen_rel hr).err (by omega)
    rw [h1, hu, abs_one, mul_one] at this
    exact this

/-- **C137, dot product.**  `dot` is off by at most `N + 2` times `2^-53` of the sum of the absolute products. -/
theorem C137_dot {N : Nat} (hN : N ≤ 2 ^ 20) (p q : Fin N → ℚ) (hp : ∀ i, Moderate (p i)) (hq : ∀ i, Moderate (q i)) :
    ∃ z : ℚ, dot (dbl p) (dbl q) = .fin z ∧
      |(z : ℝ) - ∑ i, (p i * q i : ℝ)| ≤ (N + 2) / 2 ^ 53 * ∑ i, |(p i * q i : ℝ)| := by
  have up : ∀ {x : ℝ}, x ≤ 2 ^ 400 → x ≤ 2 ^ 430 := fun h => h.trans (pow_le_pow_right₀ (by norm_num) (by norm_num))
  obtain ⟨z, hz, hr⟩ := dot_err p q (real q) (e := 0) (fun i => grid_of_moderate (hp i)) (fun i => grid_of_moderate (hq i))
    (fun i => Rel.refl _) hN (by norm_num) (fun i => up (moderate_le (hp i))) (fun i => up (moderate_le (hq i)))
  refine ⟨z, hz, hr.trans (le_of_eq ?_)⟩
  unfold u real
  push_cast
  ring

/-- **C137, cross product.**  `cross` is off by at most `3/2^53` of the two products' absolute values, so that its sign
is right whenever the exact value is larger than that. -/
theorem C137_cross (v w : Fin 2 → ℚ) (hv : ∀ i, Moderate (v i)) (hw : ∀ i, Moderate (w i)) :
    ∃ z : ℚ, cross (dbl v) (dbl w) = .fin z ∧
      |(z : ℝ) - (v 0 * w 1 - v 1 * w 0)| ≤ 3 / 2 ^ 53 * (|(v 0 * w 1 : ℝ)| + |(v 1 * w 0 : ℝ)|) ∧
      (3 / 2 ^ 53 * (|(v 0 * w 1 : ℝ)| + |(v 1 * w 0 : ℝ)|) < |(v 0 * w 1 - v 1 * w 0 : ℝ)| →
        (0 < z ↔ 0 < v 0 * w 1 - v 1 * w 0) ∧ (z < 0 ↔ v 0 * w 1 - v 1 * w 0 < 0)) := by
  have up : ∀ {x : ℝ}, x ≤ 2 ^ 400 → x ≤ 2 ^ 430 := fun h => h.trans (pow_le_pow_right₀ (by norm_num) (by norm_num))
  obtain ⟨z, hz, -, hr⟩ := cross_err (W := real w) (e := 0) (fun i => grid_of_moderate (hv i)) (fun i => grid_of_moderate (hw i))
    (fun i => Rel.refl _) (by norm_num) (fun i => up (moderate_le (hv i))) (fun i => up (moderate_le (hw i)))
  have hr' : |(z : ℝ) - (v 0 * w 1 - v 1 * w 0)| ≤ 3 / 2 ^ 53 * (|(v 0 * w 1 : ℝ)| + |(v 1 * w 0 : ℝ)|) := by
    refine hr.trans (le_of_eq ?_)
    unfold u real
    push_cast
    ring
  refine ⟨z, hz, hr', fun hlt => ?_⟩
  have h := lt_of_le_of_lt hr' hlt
  have e : ((v 0 * w 1 - v 1 * w 0 : ℚ) : ℝ) = v 0 * w 1 - v 1 * w 0 := by push_cast; rfl
  rw [← e] at h
  generalize v 0 * w 1 - v 1 * w 0 = y at h
  have h' : |z - y| < |y| := by exact_mod_cast h
  rcases lt_trichotomy y 0 with hy | hy | hy
  · rw [abs_of_neg hy] at h'
    have := abs_lt.1 h'
    exact ⟨⟨fun _ => by linarith, fun _ => by linarith⟩, ⟨fun _ => hy, fun _ => by linarith⟩⟩
  · rw [hy, abs_zero] at h'
    exact absurd h' (not_lt.2 (abs_nonneg _))
  · rw [abs_of_pos hy] at h'
    have := abs_lt.1 h'
    exact ⟨⟨fun _ => hy, fun _ => by linarith⟩, ⟨fun _ => by linarith, fun _ => by linarith⟩⟩

/-- **C137, distance from a line.**  `disToLine` is off by at most `2^-49` times the distance of the two points. -/
theorem C137_line (P A v : Fin 2 → ℚ) (hP : ∀ i, Moderate (P i)) (hA : ∀ i, Moderate (A i)) (hv : ∀ i, Moderate (v i))
    (hv0 : v ≠ 0) (n : Nat) :
    ∃ (z : ℚ) (d : ℝ), ((disToLine Fp.dbl (dbl P) ⟨dbl A, dbl v⟩).run n).1 = .fin z ∧
      IsDist (line (real A) (real v)) (real P) d ∧ |(z : ℝ) - d| ≤ Spec.dist (real P) (real A) / 2 ^ 49 := by
  obtain ⟨s1, s2, s3, s4⟩ := sub_moderate hP hA
  obtain ⟨z, hz, hr⟩ := line_err hv hv0 s2 s3 s4
  have hreal : real v ≠ 0 := fun h => hv0 (funext fun i => by
    have : (v i : ℝ) = 0 := congrFun h i
    exact_mod_cast this)
  refine ⟨z, _, ?_, C64_line (real P) ⟨real A, real v⟩ hreal 0, ?_⟩
  · show Fp.dbl.fabs (cross (dbl v) (fun i => Dbl.fin (P i) - Dbl.fin (A i)) / len Fp.dbl (dbl v)) = _
    rw [s1]
    exact hz
  · rw [disToLine_run, len2, ← vlen2]
    refine hr.trans ?_
    rw [dist_eq]
    have h := vlen_nonneg (fun i => (P i : ℝ) - A i)
    show _ ≤ vlen (fun i => (P i : ℝ) - A i) / 2 ^ 49
    unfold u
    linarith

/-- **C137, distance from a segment.**  `disToSegment` is off by at most `2^-48` times the distances of the point from the
two ends, plus what the tolerance `EPS` contributes: `10^-6` by the length of the segment. -/
theorem C137_segment (P A v : Fin 2 → ℚ) (hP : ∀ i, Moderate (P i)) (hA : ∀ i, Moderate (A i)) (hv : ∀ i, Moderate (v i))
    (hv0 : v ≠ 0) (n : Nat) :
    ∃ (z : ℚ) (d : ℝ), ((disToSegment Fp.dbl (dbl P) ⟨dbl A, dbl v⟩).run n).1 = .fin z ∧
      IsDist (segment (real A) (real v)) (real P) d ∧
      |(z : ℝ) - d| ≤ (Spec.dist (real P) (real A) + Spec.dist (real P) (fun i => A i + v i)) / 2 ^ 48 +
        (1 / 10 ^ 6 + 1 / 10 ^ 20) / vlen (real v) := by
  have hreal : real v ≠ 0 := fun h => hv0 (funext fun i => by
    have : (v i : ℝ) = 0 := congrFun h i
    exact_mod_cast this)
  obtain ⟨d, -, hd, -⟩ := C64_segment_partial (real P) ⟨real A, real v⟩ hreal 0
  obtain ⟨z, hz, hr⟩ := seg_err hP hA hv hv0 hd n
  refine ⟨z, d, hz, hd, hr.trans (le_of_eq ?_)⟩
  have e : Spec.dist (real P) (fun i => (A i : ℝ) + v i) = vlen (fun i => (P i : ℝ) - A i - v i) := by
    rw [dist_eq]
    congr 1
    funext i
    show (P i : ℝ) - _ = _
    ring
  rw [e]
  show _ = (vlen (fun i => (P i : ℝ) - A i) + _) / 2 ^ 48 + _
  unfold u
  ring

/-- **C137, intersection.**  For two lines whose directions enclose an angle with sine at least `κ ≥ 2^-20`, the
coordinates of `getIntersection` are off from those of the common point by at most `2^-48` times the coordinate of `A`
plus the distance of the two given points divided by `κ²`. -/
theorem C137_intersection (A v B w : Fin 2 → ℚ) (hA : ∀ i, Moderate (A i)) (hv : ∀ i, Moderate (v i))
    (hB : ∀ i, Moderate (B i)) (hw : ∀ i, Moderate (w i)) (hv0 : v ≠ 0) (hw0 : w ≠ 0) (κ : ℝ) (hκ : 1 / 2 ^ 20 ≤ κ)
    (hc : κ * (vlen (real v) * vlen (real w)) ≤ |(v 0 * w 1 - v 1 * w 0 : ℝ)|) (n : Nat) :
    ∃ (z : Fin 2 → ℚ) (X : Fin 2 → ℝ), ((getIntersection ⟨dbl A, dbl v⟩ ⟨dbl B, dbl w⟩).run n).1 = dbl z ∧
      X ∈ line (real A) (real v) ∧ X ∈ line (real B) (real w) ∧
      ∀ i, |(z i : ℝ) - X i| ≤ (|(A i : ℝ)| + Spec.dist (real A) (real B) / κ ^ 2) / 2 ^ 48 := by
  have hpos : ∀ {p : Fin 2 → ℚ}, p ≠ 0 → 0 < vlen (real p) := by
    intro p hp
    refine vlen_pos fun h => hp (funext fun i => ?_)
    have : ((p i : ℚ) : ℝ) = 0 := congrFun h i
    exact Rat.cast_eq_zero.1 this
  have hnp : ¬ Parallel (real v) (real w) := by
    rw [parallel_iff]
    intro h
    have h' : (v 0 * w 1 - v 1 * w 0 : ℝ) = 0 := h
    rw [h', abs_zero] at hc
    have hκ0 : 0 < κ := lt_of_lt_of_le (by norm_num) hκ
    exact absurd hc (not_le.2 (mul_pos hκ0 (mul_pos (hpos hv0) (hpos hw0))))
  obtain ⟨X, -, hX, hX', -⟩ := C63_intersection ⟨real A, real v⟩ ⟨real B, real w⟩ hnp 0
  obtain ⟨z, hz, hr⟩ := inter_err hA hv hB hw hv0 hw0 hκ hc hX hX' n
  refine ⟨z, X, hz, hX, hX', fun i => (hr i).trans (le_of_eq ?_)⟩
  show 32 * u * (|(A i : ℝ)| + vlen (fun i => (A i : ℝ) - B i) / κ ^ 2) =
    (|(A i : ℝ)| + vlen (fun i => (A i : ℝ) - B i) / κ ^ 2) / 2 ^ 48
  unfold u
  ring

/-- **C137, circle.**  Area and perimeter are within `4/2^53` of what the constant 3.1415926 gives, hence within
`2/10^8` of the true values, relatively. -/
theorem C137_circle (O : Point 2 Dbl) (r : ℚ) (hr : Moderate r) (h0 : 0 < r) :
    ∃ a p : ℚ, Circle.getArea Fp.dbl ⟨O, .fin r⟩ = .fin a ∧ Circle.getPerimeter Fp.dbl ⟨O, .fin r⟩ = .fin p ∧
      |(a : ℝ) - 3.1415926 * (r : ℝ) ^ 2| ≤ 4 / 2 ^ 53 * (3.1415926 * (r : ℝ) ^ 2) ∧
      |(p : ℝ) - 2 * 3.1415926 * (r : ℝ)| ≤ 4 / 2 ^ 53 * (2 * 3.1415926 * (r : ℝ)) ∧
      |(a : ℝ) - Real.pi * (r : ℝ) ^ 2| ≤ 2 / 10 ^ 8 * (Real.pi * (r : ℝ) ^ 2) ∧
      |(p : ℝ) - 2 * Real.pi * (r : ℝ)| ≤ 2 / 10 ^ 8 * (2 * Real.pi * (r : ℝ)) := by
  obtain ⟨a, p, ha, har, hp, hpr⟩ := circle_err (c := O) hr h0
  have hr0 : (0 : ℝ) < r := by exact_mod_cast h0
  have h1 := har.err (by norm_num)
  have h2 := hpr.err (by norm_num)
  have e : (31415926 / 10 ^ 7 : ℝ) = 3.1415926 := by norm_num
  rw [e] at h1 h2
  rw [abs_of_pos (a := 3.1415926 * (r : ℝ) ^ 2) (by positivity)] at h1
  rw [abs_of_pos (a := 2 * 3.1415926 * (r : ℝ)) (by positivity)] at h2
  have hu : (((3 : Nat) : ℝ) + 1) * u = 4 / 2 ^ 53 := by unfold u; norm_num
  rw [hu] at h1 h2
  have hπ1 := Real.pi_gt_d20
  have hπ2 := Real.pi_lt_d20
  have key : ∀ x y : ℝ, 0 < y → |x - 3.1415926 * y| ≤ 4 / 2 ^ 53 * (3.1415926 * y) →
      |x - Real.pi * y| ≤ 2 / 10 ^ 8 * (Real.pi * y) := by
    intro x y hy h
    have hb := abs_le.1 h
    have p1 := mul_le_mul_of_nonneg_right hπ1.le hy.le
    have p2 := mul_le_mul_of_nonneg_right hπ2.le hy.le
    rw [abs_le]
    constructor <;> linarith
  refine ⟨a, p, ha, hp, h1, h2, key a _ (by positivity) h1, ?_⟩
  have := key p (2 * r) (by positivity) (by
    rw [show (3.1415926 : ℝ) * (2 * r) = 2 * 3.1415926 * r by ring]
    exact h2)
  rwa [show Real.pi * (2 * r) = 2 * Real.pi * r by ring] at this

/-- **C137, points of a circle.**  For every finite angle the coordinates of `getPoint` are off by at most `2^-51` times
the coordinate of the centre plus the radius. -/
theorem C137_point (O : Fin 2 → ℚ) (r rad : ℚ) (hO : ∀ i, Moderate (O i)) (hr : Moderate r) (h0 : 0 < r) (n : Nat) :
    ∃ z : Fin 2 → ℚ, ((Circle.getPoint Fp.dbl ⟨dbl O, .fin r⟩ (.fin rad)).run n).1 = dbl z ∧
      |(z 0 : ℝ) - (O 0 + r * Real.cos rad)| ≤ (|(O 0 : ℝ)| + r) / 2 ^ 51 ∧
      |(z 1 : ℝ) - (O 1 + r * Real.sin rad)| ≤ (|(O 1 : ℝ)| + r) / 2 ^ 51 := by
  obtain ⟨x, hx, hxr⟩ := point_err (hO 0) hr h0 (Real.abs_cos_le_one rad)
  obtain ⟨y, hy, hyr⟩ := point_err (hO 1) hr h0 (Real.abs_sin_le_one rad)
  refine ⟨![x, y], ?_, hxr.trans (le_of_eq ?_), hyr.trans (le_of_eq ?_)⟩
  · funext i
    fin_cases i
    · exact hx
    · exact hy
  · unfold u
    ring
  · unfold u
    ring

/-! ### The hypotheses can be met -/

/-- `0.1` as a `double`, 3 and 0 are moderate. -/
example : (∀ i, Moderate (![3602879701896397 / 2 ^ 55, 3] i)) ∧ Moderate 0 ∧ (![3602879701896397 / 2 ^ 55, 3] : Fin 2 → ℚ) ≠ 0 := by
  refine ⟨fun i => ?_, moderate_zero, fun h => ?_⟩
  · fin_cases i
    · have := moderate_mk (m := 3602879701896397) (k := -55) (by norm_num) (by norm_num) (by norm_num) (by norm_num)
      norm_num at this ⊢
      exact this
    · have := moderate_mk (m := 3) (k := 0) (by norm_num) (by norm_num) (by norm_num) (by norm_num)
      norm_num at this ⊢
      exact this
  · have := congrFun h 1
    norm_num at this

/-- Directions `(1, 0)` and `(3, 4)`: the sine of the angle is `4/5`. -/
example : (1 : ℝ) / 2 ^ 20 ≤ 4 / 5 ∧ (4 / 5 : ℝ) * (vlen (real ![1, 0]) * vlen (real ![3, 4])) ≤
    |(((![1, 0] : Fin 2 → ℚ) 0 : ℚ) * ((![3, 4] : Fin 2 → ℚ) 1 : ℚ) - ((![1, 0] : Fin 2 → ℚ) 1 : ℚ) * ((![3, 4] : Fin 2 → ℚ) 0 : ℚ) : ℝ)| := by
  refine ⟨by norm_num, ?_⟩
  rw [vlen2, vlen2]
  have h1 : Real.sqrt (real ![1, 0] 0 ^ 2 + real ![1, 0] 1 ^ 2) = 1 := by
    rw [Real.sqrt_eq_one]
    norm_num [real]
  have h2 : Real.sqrt (real ![3, 4] 0 ^ 2 + real ![3, 4] 1 ^ 2) = 5 := by
    rw [Real.sqrt_eq_iff_mul_self_eq_of_pos (by norm_num)]
    norm_num [real]
  rw [h1, h2]
  norm_num

end Geo.Props
