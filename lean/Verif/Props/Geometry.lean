import Verif.Proof.GeometryDouble
import Mathlib.Algebra.BigOperators.Field
import Mathlib.Analysis.Real.Pi.Bounds

/-! # Properties of Point, Line and Circle: C63–C65, C97–C101

`Fp.real` is exact arithmetic, `Fp.dbl` binary64.  `(f …).run n` is the result of a function together
with the number of points allocated and not freed, `n` being that number before the call. -/

namespace Geo.Props
open Cpp Spec Geo

/-! ### C63 -/

/-- **C63.**  For lines that are not parallel, `getIntersection` returns the point that lies on both
(exact arithmetic). -/
theorem C63_intersection (l1 l2 : Line ℝ) (h : ¬ Parallel l1.v l2.v) (n : Nat) :
    ∃ X, ((getIntersection l1 l2).run n).1 = X ∧ X ∈ line l1.A l1.v ∧ X ∈ line l2.A l2.v ∧
      ∀ Y, Y ∈ line l1.A l1.v → Y ∈ line l2.A l2.v → Y = X := by
  rw [parallel_iff] at h
  have hc : l1.v 0 * l2.v 1 - l1.v 1 * l2.v 0 ≠ 0 := h
  rw [getIntersection_run]
  refine ⟨_, rfl, ⟨_, fun i => by rw [mul_comm]⟩,
    ⟨cross l1.v (fun i => l1.A i - l2.A i) / cross l1.v l2.v, ?_⟩, ?_⟩
  · have e1 := div_mul_cancel₀ (cross l2.v (fun i => l1.A i - l2.A i)) h
    have e2 := div_mul_cancel₀ (cross l1.v (fun i => l1.A i - l2.A i)) h
    generalize cross l2.v (fun i => l1.A i - l2.A i) / cross l1.v l2.v = t at e1 ⊢
    generalize cross l1.v (fun i => l1.A i - l2.A i) / cross l1.v l2.v = t' at e2 ⊢
    unfold cross at e1 e2
    intro i
    apply mul_right_cancel₀ hc
    fin_cases i
    · show (l1.A 0 + l1.v 0 * t) * _ = (l2.A 0 + t' * l2.v 0) * _
      linear_combination l1.v 0 * e1 - l2.v 0 * e2
    · show (l1.A 1 + l1.v 1 * t) * _ = (l2.A 1 + t' * l2.v 1) * _
      linear_combination l1.v 1 * e1 - l2.v 1 * e2
  · rintro Y ⟨t, ht⟩ ⟨t', ht'⟩
    have h0 := (ht 0).symm.trans (ht' 0)
    have h1 := (ht 1).symm.trans (ht' 1)
    have e : t = cross l2.v (fun i => l1.A i - l2.A i) / cross l1.v l2.v := by
      unfold cross
      rw [eq_div_iff hc]
      linear_combination l2.v 1 * h0 - l2.v 0 * h1
    funext i
    rw [ht i, e, mul_comm]

-- the diagonals of the square meet in the middle
example : ¬ Parallel ![1, 1] ![1, -1] := by
  rw [parallel_iff]
  norm_num [cross]
example : ((getIntersection ⟨![0, 0], ![1, 1]⟩ ⟨![0, 2], ![1, -1]⟩).run 0).1 = (![1, 1] : Point 2 ℝ) := by
  rw [getIntersection_run]
  funext i
  fin_cases i <;> norm_num [cross]

/-! ### C101 -/

/-- **C101, refuted (binary64).**  The axes with directions `(2^-600, 0)` and `(0, 2^-600)` meet in `(0, 1)`, but the
product of the directions underflows and `getIntersection` returns the point `(NaN, NaN)`. -/
theorem C101_refuted : ¬ Parallel ![1 / 2 ^ 600, 0] ![0, 1 / 2 ^ 600] ∧
    ((getIntersection (⟨![.fin 0, .fin 1], ![.fin (1 / 2 ^ 600), .fin 0]⟩ : Line Dbl)
      ⟨![.fin 0, .fin 0], ![.fin 0, .fin (1 / 2 ^ 600)]⟩).run 0).1 = ![.nan, .nan] := by
  constructor
  · rw [parallel_iff]
    unfold cross
    simp
  · funext i
    fin_cases i <;> decide +kernel

/-- **C101, what holds (binary64).**  For lines that are not parallel, given by whole numbers up to `2^20`, the
result is finite, and each coordinate is that of the intersection `A + t v` up to `2^-51` of `|A| + |t v|`.
Missing: other coordinates. -/
theorem C101_partial (A v B w : Fin 2 → Int) (hA : ∀ i, |A i| ≤ 2 ^ 20) (hv : ∀ i, |v i| ≤ 2 ^ 20)
    (hB : ∀ i, |B i| ≤ 2 ^ 20) (hw : ∀ i, |w i| ≤ 2 ^ 20) (hc : ¬ Parallel (fun i => v i) (fun i => w i)) (n : Nat) :
    ∃ (z : Fin 2 → ℚ) (t t' : ℚ), ((getIntersection (⟨fun i => .fin (A i), fun i => .fin (v i)⟩ : Line Dbl)
        ⟨fun i => .fin (B i), fun i => .fin (w i)⟩).run n).1 = (fun i => .fin (z i)) ∧
      (∀ i, (A i : ℚ) + t * v i = B i + t' * w i) ∧
      ∀ i, |z i - (A i + t * v i)| ≤ (|(A i : ℚ)| + |t * v i|) / 2 ^ 51 + 1 / 2 ^ 1000 := by
  rw [parallel_iff] at hc
  have hc' : v 0 * w 1 - v 1 * w 0 ≠ 0 := by
    intro h
    apply hc
    unfold cross
    dsimp only
    exact_mod_cast h
  have hu : ∀ i, |A i - B i| ≤ 2 ^ 21 := fun i => (abs_sub_le' (hA i) (hB i)).trans (by norm_num)
  have hn : |w 0 * (A 1 - B 1) - w 1 * (A 0 - B 0)| ≤ 2 ^ 42 :=
    (abs_sub_le' (abs_mul_le (hw 0) (hu 1)) (abs_mul_le (hw 1) (hu 0))).trans (by norm_num)
  have hd : |v 0 * w 1 - v 1 * w 0| ≤ 2 ^ 42 :=
    (abs_sub_le' (abs_mul_le (hv 0) (hw 1)) (abs_mul_le (hv 1) (hw 0))).trans (by norm_num)
  have hsub : ∀ i, Dbl.fin (A i : ℚ) - Dbl.fin (B i : ℚ) = Dbl.fin ((A i - B i : Int) : ℚ) := fun i =>
    dsub_int ((hu i).trans (by norm_num))
  have hnum : cross (fun i => Dbl.fin (w i : ℚ)) (fun i => Dbl.fin (A i : ℚ) - Dbl.fin (B i : ℚ)) =
      Dbl.fin ((w 0 * (A 1 - B 1) - w 1 * (A 0 - B 0) : Int) : ℚ) := by
    unfold cross
    simp only [hsub]
    rw [dmul_int ((abs_mul_le (hw 0) (hu 1)).trans (by norm_num)),
      dmul_int ((abs_mul_le (hw 1) (hu 0)).trans (by norm_num)), dsub_int (hn.trans (by norm_num))]
  have hden : cross (fun i => Dbl.fin (v i : ℚ)) (fun i => Dbl.fin (w i : ℚ)) =
      Dbl.fin ((v 0 * w 1 - v 1 * w 0 : Int) : ℚ) := by
    unfold cross
    rw [dmul_int ((abs_mul_le (hv 0) (hw 1)).trans (by norm_num)),
      dmul_int ((abs_mul_le (hv 1) (hw 0)).trans (by norm_num)), dsub_int (hd.trans (by norm_num))]
  choose z hz1 hz2 using fun i => combine (A i) (v i) _ _ (hA i) (hv i) hn hc'
  have hcq : ((v 0 * w 1 - v 1 * w 0 : Int) : ℚ) ≠ 0 := by exact_mod_cast hc'
  refine ⟨z, ((w 0 * (A 1 - B 1) - w 1 * (A 0 - B 0) : Int) : ℚ) / ((v 0 * w 1 - v 1 * w 0 : Int) : ℚ),
    ((v 0 * (A 1 - B 1) - v 1 * (A 0 - B 0) : Int) : ℚ) / ((v 0 * w 1 - v 1 * w 0 : Int) : ℚ), ?_, ?_, ?_⟩
  · have : ((getIntersection (⟨fun i => .fin (A i), fun i => .fin (v i)⟩ : Line Dbl)
        ⟨fun i => .fin (B i), fun i => .fin (w i)⟩).run n).1 = fun i => Dbl.fin (A i : ℚ) + Dbl.fin (v i : ℚ) *
          (cross (fun i => Dbl.fin (w i : ℚ)) (fun i => Dbl.fin (A i : ℚ) - Dbl.fin (B i : ℚ)) /
            cross (fun i => Dbl.fin (v i : ℚ)) (fun i => Dbl.fin (w i : ℚ))) := rfl
    rw [this, hnum, hden]
    funext i
    exact hz1 i
  · intro i
    apply mul_right_cancel₀ hcq
    rw [add_mul, add_mul, mul_right_comm, div_mul_cancel₀ _ hcq, mul_right_comm (_ / _), div_mul_cancel₀ _ hcq]
    push_cast
    fin_cases i <;> simp <;> ring
  · intro i
    have := hz2 i
    rw [mul_comm (v i : ℚ)] at this
    exact this

-- small whole numbers: the diagonals of a square
example : ¬ Parallel (fun i => ((![1, 1] : Fin 2 → Int) i : ℝ)) (fun i => ((![1, -1] : Fin 2 → Int) i : ℝ)) := by
  rw [parallel_iff]
  norm_num [cross]
example : ((getIntersection (⟨![.fin 0, .fin 0], ![.fin 1, .fin 1]⟩ : Line Dbl)
      ⟨![.fin 0, .fin 2], ![.fin 1, .fin (-1)]⟩).run 0).1 = ![.fin 1, .fin 1] := by
  funext i
  fin_cases i <;> decide +kernel

/-! ### C64 -/

/-- **C64.**  `disToLine` is the distance from the line (exact arithmetic). -/
theorem C64_line (P : Point 2 ℝ) (l : Line ℝ) (hv : l.v ≠ 0) (n : Nat) :
    IsDist (line l.A l.v) P ((disToLine Fp.real P l).run n).1 := by
  have hpos := normSq_pos l.v hv
  rw [disToLine_run, len2]
  dsimp only [cross]
  rw [lineDist]
  constructor
  · refine ⟨fun i => l.A i + ((l.v 0 * (P 0 - l.A 0) + l.v 1 * (P 1 - l.A 1)) / (l.v 0 ^ 2 + l.v 1 ^ 2)) * l.v i,
      ⟨_, fun i => rfl⟩, ?_⟩
    rw [dist2]
    congr 1
    rw [eq_div_iff hpos.ne']
    have := pythagoras (P 0 - l.A 0) (P 1 - l.A 1) (l.v 0) (l.v 1)
      ((l.v 0 * (P 0 - l.A 0) + l.v 1 * (P 1 - l.A 1)) / (l.v 0 ^ 2 + l.v 1 ^ 2))
    rw [div_mul_cancel₀ _ hpos.ne'] at this
    linear_combination this
  · rintro X ⟨t, ht⟩
    rw [dist2, ht, ht]
    apply Real.sqrt_le_sqrt
    rw [div_le_iff₀ hpos]
    have := pythagoras (P 0 - l.A 0) (P 1 - l.A 1) (l.v 0) (l.v 1) t
    have h2 := sq_nonneg (l.v 0 * (P 0 - l.A 0) + l.v 1 * (P 1 - l.A 1) - t * (l.v 0 ^ 2 + l.v 1 ^ 2))
    nlinarith

example : ((disToLine Fp.real ![0, 5] ⟨![0, 0], ![3, 4]⟩).run 0).1 = 3 := by
  rw [disToLine_run, len2]
  have : Real.sqrt (3 ^ 2 + 4 ^ 2) = 5 := by
    rw [show (3 : ℝ) ^ 2 + 4 ^ 2 = 5 ^ 2 by norm_num]
    exact Real.sqrt_sq (by norm_num)
  norm_num [cross] at this ⊢
  rw [this]
  norm_num

/-- **C64, what holds for segments (exact arithmetic).**  The result of `disToSegment` never exceeds
the distance `d` from the segment and is less by at most `10^-6 / |v|`; it is equal unless the foot of the
perpendicular lies outside the segment by less than that. -/
theorem C64_segment_partial (P : Point 2 ℝ) (l : Line ℝ) (hv : l.v ≠ 0) (n : Nat) :
    ∃ d r, IsDist (segment l.A l.v) P d ∧ ((disToSegment Fp.real P l).run n).1 = r ∧
      r ≤ d ∧ d ≤ r + 1 / 10 ^ 6 / Real.sqrt (l.v 0 ^ 2 + l.v 1 ^ 2) ∧
      ((0 ≤ ∑ i, l.v i * (P i - l.A i) ∨ ∑ i, l.v i * (P i - l.A i) ≤ -1 / 10 ^ 6) →
       (∑ i, l.v i * (P i - l.A i) ≤ ∑ i, l.v i ^ 2 ∨
          ∑ i, l.v i ^ 2 + 1 / 10 ^ 6 ≤ ∑ i, l.v i * (P i - l.A i)) → r = d) := by
  have hpos := normSq_pos l.v hv
  have hs := Real.sqrt_pos.2 hpos
  have hq : 0 ≤ 1 / 10 ^ 6 / Real.sqrt (l.v 0 ^ 2 + l.v 1 ^ 2) := by positivity
  rw [disToSegment_run]
  simp only [dcmp_neg, dcmp_pos, dot2, len2, Fin.sum_univ_two]
  dsimp only [cross, Fp.real]
  rw [lineDist]
  set x := P 0 - l.A 0 with hx
  set y := P 1 - l.A 1 with hy
  set a := l.v 0 with ha
  set b := l.v 1 with hb
  have hpt : ∀ t, ((x - t * a) ^ 2 + (y - t * b) ^ 2) * (a ^ 2 + b ^ 2) =
      (a * y - b * x) ^ 2 + (a * x + b * y - t * (a ^ 2 + b ^ 2)) ^ 2 := pythagoras x y a b
  have hdist : ∀ t, Spec.dist P (fun i => l.A i + t * l.v i) =
      Real.sqrt ((x - t * a) ^ 2 + (y - t * b) ^ 2) := by
    intro t
    rw [dist2]
    congr 1
    rw [hx, hy, ha, hb]
    ring
  have hdiv : ∀ t, (x - t * a) ^ 2 + (y - t * b) ^ 2 = (a * y - b * x) ^ 2 / (a ^ 2 + b ^ 2) +
      (a * x + b * y - t * (a ^ 2 + b ^ 2)) ^ 2 / (a ^ 2 + b ^ 2) := by
    intro t
    rw [← add_div, eq_div_iff hpos.ne', hpt]
  -- the nearest parameter is the one of the foot, clipped to `[0, 1]`
  have hnear : ∀ t0, 0 ≤ t0 → t0 ≤ 1 →
      (∀ t, 0 ≤ t → t ≤ 1 → (a * x + b * y - t0 * (a ^ 2 + b ^ 2)) ^ 2 ≤
        (a * x + b * y - t * (a ^ 2 + b ^ 2)) ^ 2) →
      IsDist (segment l.A l.v) P (Real.sqrt ((x - t0 * a) ^ 2 + (y - t0 * b) ^ 2)) := by
    intro t0 h0 h1 hm
    refine ⟨⟨fun i => l.A i + t0 * l.v i, ⟨t0, h0, h1, fun i => rfl⟩, hdist t0⟩, ?_⟩
    rintro X ⟨t, ht0, ht1, hX⟩
    have : X = fun i => l.A i + t * l.v i := funext hX
    rw [this, hdist]
    apply Real.sqrt_le_sqrt
    rw [hdiv, hdiv]
    have := div_le_div_of_nonneg_right (hm t ht0 ht1) hpos.le
    linarith
  have h6 : (0 : ℝ) < 1 / 10 ^ 6 := by norm_num
  -- the distance of the foot from the clipped point
  have hgap : ∀ z : ℝ, |z| ≤ 1 / 10 ^ 6 → Real.sqrt ((a * y - b * x) ^ 2 / (a ^ 2 + b ^ 2) + z ^ 2 / (a ^ 2 + b ^ 2)) ≤
      Real.sqrt ((a * y - b * x) ^ 2 / (a ^ 2 + b ^ 2)) + 1 / 10 ^ 6 / Real.sqrt (a ^ 2 + b ^ 2) := by
    intro z hz
    have h1 : 0 ≤ (a * y - b * x) ^ 2 / (a ^ 2 + b ^ 2) := by positivity
    have h2 : Real.sqrt (z ^ 2 / (a ^ 2 + b ^ 2)) ≤ 1 / 10 ^ 6 / Real.sqrt (a ^ 2 + b ^ 2) := by
      rw [Real.sqrt_div (sq_nonneg _), Real.sqrt_sq_eq_abs]
      exact div_le_div_of_nonneg_right hz hs.le
    refine le_trans ?_ (add_le_add_right h2 (Real.sqrt ((a * y - b * x) ^ 2 / (a ^ 2 + b ^ 2))))
    have h3 : 0 ≤ z ^ 2 / (a ^ 2 + b ^ 2) := by positivity
    rw [Real.sqrt_le_left (by positivity)]
    have e1 := Real.sq_sqrt h1
    have e2 := Real.sq_sqrt h3
    have := mul_nonneg (Real.sqrt_nonneg ((a * y - b * x) ^ 2 / (a ^ 2 + b ^ 2)))
      (Real.sqrt_nonneg (z ^ 2 / (a ^ 2 + b ^ 2)))
    nlinarith
  rcases lt_trichotomy (a * x + b * y) 0 with hneg | hzero | hgt0
  · -- before `A`
    refine ⟨_, _, hnear 0 le_rfl zero_le_one ?_, rfl, ?_⟩
    · intro t ht0 _
      have : 0 ≤ t * (a ^ 2 + b ^ 2) := by positivity
      nlinarith
    · by_cases h : a * x + b * y ≤ -(1 / 10 ^ 6)
      · rw [if_pos h]
        simp only [zero_mul, sub_zero]
        exact ⟨le_rfl, by linarith, fun _ _ => trivial⟩
      · rw [if_neg h, if_neg (by
          rw [not_le]
          have : a * (x - a) + b * (y - b) = a * x + b * y - (a ^ 2 + b ^ 2) := by ring
          linarith)]
        rw [hdiv]
        refine ⟨Real.sqrt_le_sqrt (by linarith [show 0 ≤ (a * x + b * y - 0 * (a ^ 2 + b ^ 2)) ^ 2 / (a ^ 2 + b ^ 2) by positivity]), hgap _ ?_, ?_⟩
        · rw [zero_mul, sub_zero, abs_le]
          constructor <;> linarith
        · rintro (h' | h') _
          · linarith
          · exfalso; apply h; rw [neg_div] at h'; exact h'
  · refine ⟨_, _, hnear 0 le_rfl zero_le_one ?_, rfl, ?_⟩
    · intro t _ _
      rw [hzero, zero_mul, sub_zero, zero_pow two_ne_zero]
      positivity
    · rw [if_neg (by linarith), if_neg (by
        rw [not_le]
        have : a * (x - a) + b * (y - b) = a * x + b * y - (a ^ 2 + b ^ 2) := by ring
        linarith), hdiv, hzero, zero_mul, sub_zero, zero_pow two_ne_zero, zero_div, add_zero]
      exact ⟨le_rfl, by linarith, fun _ _ => rfl⟩
  · rw [if_neg (by linarith)]
    rcases le_or_gt (a * x + b * y) (a ^ 2 + b ^ 2) with hle | hgt
    · -- the foot is in the segment
      refine ⟨_, _, hnear ((a * x + b * y) / (a ^ 2 + b ^ 2)) (by positivity) ((div_le_one hpos).2 hle) ?_, rfl, ?_⟩
      · intro t _ _
        rw [div_mul_cancel₀ _ hpos.ne', sub_self, zero_pow two_ne_zero]
        positivity
      · rw [if_neg (by
          rw [not_le]
          have : a * (x - a) + b * (y - b) = a * x + b * y - (a ^ 2 + b ^ 2) := by ring
          linarith), hdiv, div_mul_cancel₀ _ hpos.ne', sub_self, zero_pow two_ne_zero, zero_div, add_zero]
        exact ⟨le_rfl, by linarith, fun _ _ => rfl⟩
    · -- behind `A + v`
      refine ⟨_, _, hnear 1 zero_le_one le_rfl ?_, rfl, ?_⟩
      · intro t _ ht1
        have : t * (a ^ 2 + b ^ 2) ≤ 1 * (a ^ 2 + b ^ 2) := by gcongr
        nlinarith
      · have he : a * (x - a) + b * (y - b) = a * x + b * y - (a ^ 2 + b ^ 2) := by ring
        by_cases h : 1 / 10 ^ 6 ≤ a * (x - a) + b * (y - b)
        · rw [if_pos h]
          simp only [one_mul]
          exact ⟨le_rfl, by linarith, fun _ _ => trivial⟩
        · rw [if_neg h, hdiv]
          refine ⟨Real.sqrt_le_sqrt (by linarith [show 0 ≤ (a * x + b * y - 1 * (a ^ 2 + b ^ 2)) ^ 2 / (a ^ 2 + b ^ 2) by positivity]), hgap _ ?_, ?_⟩
          · rw [one_mul, abs_le]
            constructor <;> linarith
          · rintro _ (h' | h')
            · linarith
            · exfalso; apply h; linarith

-- the point (3, 3) is nearest to the end (2, 0) of the segment from (0, 0) to (2, 0)
example : ((disToSegment Fp.real ![5, 4] ⟨![0, 0], ![2, 0]⟩).run 0).1 = 5 := by
  rw [disToSegment_run]
  simp only [dcmp_neg, dcmp_pos, dot2, len2]
  norm_num
  rw [show (25 : ℝ) = 5 ^ 2 by norm_num]
  exact Real.sqrt_sq (by norm_num)

/-- **C64, refuted for segments.**  For the segment from `(0, 0)` to `(10^-9, 0)` and the point
`(-100, 0)` the result is 0, though the distance is 100 (exact arithmetic). -/
theorem C64_segment_refuted :
    ((disToSegment Fp.real ![-100, 0] ⟨![0, 0], ![1 / 10 ^ 9, 0]⟩).run 0).1 = 0 ∧
    IsDist (segment ![0, 0] ![1 / 10 ^ 9, 0]) ![-100, 0] 100 := by
  constructor
  · rw [disToSegment_run]
    simp only [dcmp_neg, dcmp_pos, dot2, len2]
    norm_num [cross]
    simp [Fp.real]
  · constructor
    · refine ⟨![0, 0], ⟨0, le_rfl, zero_le_one, fun i => by fin_cases i <;> simp⟩, ?_⟩
      rw [dist2]
      norm_num
      rw [show (10000 : ℝ) = 100 ^ 2 by norm_num]
      exact Real.sqrt_sq (by norm_num)
    · rintro X ⟨t, h0, _, hX⟩
      rw [dist2, hX 0, hX 1]
      apply Real.le_sqrt_of_sq_le
      simp
      nlinarith

/-- **C64, refuted for degenerate segments (binary64).**  The distance of `(3, 4)` from the segment
from `(0, 0)` to `(0, 0)` is NaN. -/
theorem C64_degenerate_refuted :
    ((disToSegment Fp.dbl ![.fin 3, .fin 4] ⟨![.fin 0, .fin 0], ![.fin 0, .fin 0]⟩).run 0).1 = .nan := by
  have hs : Fp.dbl.sqrt (.fin 0) = .fin 0 := by
    show (if (0 : ℚ) < 0 then Dbl.nan else .round (Real.sqrt ((0 : ℚ) : ℝ))) = _
    rw [if_neg (lt_irrefl _), Rat.cast_zero, Real.sqrt_zero]
    simp [Dbl.round, fl, flPos, roundTiesEven]
  have hd1 : dcmp Fp.dbl (dot ![.fin 0, .fin 0] fun i : Fin 2 => ![.fin 3, .fin 4] i - ![.fin 0, .fin 0] i) = 0 := by
    decide +kernel
  have hd2 : dcmp Fp.dbl (dot ![.fin 0, .fin 0] fun i : Fin 2 =>
      ![.fin 3, .fin 4] i - ![.fin 0, .fin 0] i - ![.fin 0, .fin 0] i) = 0 := by
    decide +kernel
  have hl : len Fp.dbl ![.fin 0, .fin 0] = .fin 0 := by
    have : len Fp.dbl ![.fin 0, .fin 0] = Fp.dbl.sqrt ((List.finRange 2).foldl
      (fun ret i => ret + (![.fin 0, .fin 0] : Point 2 Dbl) i * (![.fin 0, .fin 0] : Point 2 Dbl) i) ((0 : Int) : Dbl)) := rfl
    rw [this, show (List.finRange 2).foldl (fun ret i => ret + (![.fin 0, .fin 0] : Point 2 Dbl) i *
      (![.fin 0, .fin 0] : Point 2 Dbl) i) ((0 : Int) : Dbl) = .fin 0 by decide +kernel, hs]
  rw [disToSegment_run, hd1, hd2, hl, if_neg (lt_irrefl _), if_neg (lt_irrefl _)]
  decide +kernel

/-! ### C65 -/

/-- **C65, what holds.**  `<` on points without NaN is the lexicographic order, a strict total order, and
`<=`, `>`, `>=` belong to it.  Missing: points with NaN; `==`. -/
theorem C65_order_partial (N : Nat) (p q r : Point N Dbl) (hp : ∀ i, p i ≠ .nan) (hq : ∀ i, q i ≠ .nan)
    (hr : ∀ i, r i ≠ .nan) :
    (lt Fp.dbl p q = true ↔ ∃ i, p i < q i ∧ ∀ j < i, p j = q j) ∧
    lt Fp.dbl p p = false ∧
    (lt Fp.dbl p q = true → lt Fp.dbl q r = true → lt Fp.dbl p r = true) ∧
    (lt Fp.dbl p q = true ∨ p = q ∨ lt Fp.dbl q p = true) ∧
    (le Fp.dbl p q = true ↔ lt Fp.dbl p q = true ∨ p = q) ∧
    gt Fp.dbl p q = lt Fp.dbl q p ∧ ge Fp.dbl p q = le Fp.dbl q p := by
  have key : ∀ p q : Point N Dbl, (∀ i, p i ≠ .nan) → (∀ i, q i ≠ .nan) → _ := fun p q hp hq =>
    cmp_iff key Fp.dbl p q (fun i => by
      show decide (p i ≠ q i ∨ p i = .nan) = _
      simp only [hp i, or_false, ne_eq, key_inj _ _ (hp i) (hq i)])
      (fun i => key_lt _ _ (hp i) (hq i)) (fun i => key_lt _ _ (hq i) (hp i))
  have hinj : ∀ p q : Point N Dbl, (∀ i, p i ≠ .nan) → (∀ i, q i ≠ .nan) →
      ((∀ i, Geo.key (p i) = Geo.key (q i)) ↔ p = q) := by
    intro p q hp hq
    rw [funext_iff]
    exact forall_congr' fun i => key_inj _ _ (hp i) (hq i)
  obtain ⟨k1, k2, k3, k4⟩ := key p q hp hq
  obtain ⟨m1, m2, m3, m4⟩ := key q p hq hp
  refine ⟨?_, ?_, ?_, ?_, ?_, ?_, ?_⟩
  · rw [k1]
    refine exists_congr fun i => and_congr (key_lt _ _ (hp i) (hq i)).symm ?_
    exact forall₂_congr fun j _ => key_inj _ _ (hp j) (hq j)
  · rw [← Bool.not_eq_true, (key p p hp hp).1]
    exact lexLt_irrefl _
  · rw [k1, (key q r hq hr).1, (key p r hp hr).1]
    exact lexLt_trans _ _ _
  · rw [k1, m1, ← hinj p q hp hq, ← funext_iff (f := fun i => Geo.key (p i))]
    exact lexLt_total _ _
  · rw [k3, k1, hinj p q hp hq]
  · rw [Bool.eq_iff_iff, k2, m1]
  · rw [Bool.eq_iff_iff, k4, m3]
    simp only [eq_comm]

/-- **C65.**  In exact arithmetic the same holds for all points. -/
theorem C65_order_real (N : Nat) (p q r : Point N ℝ) :
    (lt Fp.real p q = true ↔ ∃ i, p i < q i ∧ ∀ j < i, p j = q j) ∧
    lt Fp.real p p = false ∧
    (lt Fp.real p q = true → lt Fp.real q r = true → lt Fp.real p r = true) ∧
    (lt Fp.real p q = true ∨ p = q ∨ lt Fp.real q p = true) ∧
    (le Fp.real p q = true ↔ lt Fp.real p q = true ∨ p = q) ∧
    gt Fp.real p q = lt Fp.real q p ∧ ge Fp.real p q = le Fp.real q p := by
  have key : ∀ p q : Point N ℝ, _ := fun p q =>
    cmp_iff id Fp.real p q (fun i => rfl) (fun i => Iff.rfl) (fun i => Iff.rfl)
  obtain ⟨k1, k2, k3, k4⟩ := key p q
  obtain ⟨m1, m2, m3, m4⟩ := key q p
  refine ⟨k1, ?_, ?_, ?_, ?_, ?_, ?_⟩
  · rw [← Bool.not_eq_true, (key p p).1]
    exact lexLt_irrefl _
  · rw [k1, (key q r).1, (key p r).1]
    exact lexLt_trans _ _ _
  · rw [k1, m1]
    exact lexLt_total _ _
  · rw [k3, k1, funext_iff]
    rfl
  · rw [Bool.eq_iff_iff, k2, m1]
  · rw [Bool.eq_iff_iff, k4, m3]
    simp only [eq_comm]

example : lt Fp.dbl ![.fin 1, .inf false] ![.fin 2, .fin 0] = true := by decide +kernel

/-- **C65, what holds for `==` (exact arithmetic).**  It is reflexive and symmetric, and it is the
coordinatewise comparison up to `10^-6`. -/
theorem C65_eq_partial (N : Nat) (p q : Point N ℝ) :
    (eq Fp.real p q = true ↔ ∀ i, |p i - q i| ≤ 1 / 10 ^ 6) ∧ eq Fp.real p p = true ∧
    eq Fp.real p q = eq Fp.real q p := by
  have key : ∀ p q : Point N ℝ, (eq Fp.real p q = true ↔ ∀ i, |p i - q i| ≤ 1 / 10 ^ 6) := by
    intro p q
    simp [eq, Fp.real, List.all_eq_true]
  refine ⟨key p q, (key p p).2 fun i => by rw [sub_self, abs_zero]; positivity, ?_⟩
  rw [Bool.eq_iff_iff, key, key]
  simp only [abs_sub_comm]

/-- **C65, refuted.**  `==` is not transitive, and points that are `==` can be `<` (exact arithmetic). -/
theorem C65_eq_refuted : ∃ p q r : Point 1 ℝ,
    eq Fp.real p q = true ∧ eq Fp.real q r = true ∧ eq Fp.real p r = false ∧ lt Fp.real p q = true := by
  refine ⟨![0], ![1 / 10 ^ 6], ![2 / 10 ^ 6], ?_, ?_, ?_, ?_⟩
  · rw [(C65_eq_partial 1 _ _).1]
    intro i; fin_cases i; norm_num [abs_le]
  · rw [(C65_eq_partial 1 _ _).1]
    intro i; fin_cases i; norm_num [abs_le]
  · rw [← Bool.not_eq_true, (C65_eq_partial 1 _ _).1]
    intro h
    have := h 0
    norm_num [abs_le] at this
  · rw [(C65_order_real 1 _ _ ![0]).1]
    exact ⟨0, by norm_num, fun j hj => absurd hj (by omega)⟩

/-- **C65, refuted (binary64).**  A point with all coordinates NaN is `==` to every point. -/
theorem C65_nan_refuted (N : Nat) (q : Point N Dbl) : eq Fp.dbl (fun _ => .nan) q = true ∧
    eq Fp.dbl q (fun _ => .nan) = true := by
  have h1 : ∀ x : Dbl, Dbl.nan - x = .nan := by
    intro x
    show Dbl.add .nan (Dbl.neg x) = .nan
    cases x <;> rfl
  have h2 : ∀ x : Dbl, x - Dbl.nan = .nan := by
    intro x
    show Dbl.add x .nan = .nan
    cases x <;> rfl
  have h3 : ¬ Fp.dbl.eps < Dbl.nan := by
    show ¬ Dbl.lt _ .nan = true
    cases Fp.dbl.eps <;> simp [Dbl.lt]
  constructor <;> unfold eq <;> rw [List.all_eq_true] <;> intro i _
  · rw [h1]
    have : Fp.dbl.fabs .nan = .nan := rfl
    rw [this, decide_eq_false h3]
    rfl
  · rw [h2]
    have : Fp.dbl.fabs .nan = .nan := rfl
    rw [this, decide_eq_false h3]
    rfl

/-- **C65, refuted (binary64).**  With NaN, `<` is no strict weak order: `1 < 2`, yet neither is
comparable with NaN. -/
theorem C65_weak_refuted : ∃ p q r : Point 1 Dbl, lt Fp.dbl p r = true ∧
    lt Fp.dbl p q = false ∧ lt Fp.dbl q p = false ∧ lt Fp.dbl q r = false ∧ lt Fp.dbl r q = false :=
  ⟨![.fin 1], ![.nan], ![.fin 2], by decide +kernel, by decide +kernel, by decide +kernel,
    by decide +kernel, by decide +kernel⟩

/-! ### C97 -/

section
variable {D : Type} [Add D] [Sub D] [Mul D] [Div D]

/-- **C97, what holds** (any arithmetic).  `p += q`, `p -= q` (also with `p` itself for `q`), `p *= c` and
`p /= c` with a number `c` leave in `p` the result of the binary operator, which acts on the coordinates.
Missing: `c` a reference to a coordinate of `p`. -/
theorem C97_compound_partial (N : Nat) (p q : Point N D) (c : D) (n : Nat) :
    addAssign p (.other q) = ((add p q).run n).1 ∧ ((add p q).run n).1 = (fun i => p i + q i) ∧
    addAssign p .self = ((add p p).run n).1 ∧
    subAssign p (.other q) = ((sub p q).run n).1 ∧ ((sub p q).run n).1 = (fun i => p i - q i) ∧
    subAssign p .self = ((sub p p).run n).1 ∧
    mulAssign p (.val c) = ((smul p c).run n).1 ∧ ((smul p c).run n).1 = (fun i => p i * c) ∧
    divAssign p (.val c) = ((sdiv p c).run n).1 ∧ ((sdiv p c).run n).1 = (fun i => p i / c) := by
  refine ⟨?_, rfl, ?_, ?_, rfl, ?_, ?_, rfl, ?_, rfl⟩
  · exact foldl_update_all (fun i x => x + q i) p
  · exact foldl_update_all (fun i x => x + x) p
  · exact foldl_update_all (fun i x => x - q i) p
  · exact foldl_update_all (fun i x => x - x) p
  · exact foldl_update_all (fun i x => x * c) p
  · exact foldl_update_all (fun i x => x / c) p

omit [Add D] [Sub D] in
/-- **C97, what happens with a reference to coordinate `k`:** the coordinates behind it are combined with its
new value. -/
theorem C97_alias_partial (N : Nat) (p : Point N D) (k : Fin N) :
    mulAssign p (.elem k) = (fun i => if i ≤ k then p i * p k else p i * (p k * p k)) ∧
    divAssign p (.elem k) = (fun i => if i ≤ k then p i / p k else p i / (p k / p k)) := by
  constructor <;> funext j
  · have := foldl_alias (fun x y : D => x * y) k (List.finRange N) p (finRange_pairwise N) j
    unfold mulAssign
    refine this.trans ?_
    simp only [List.mem_finRange, true_and, if_true, ← not_lt, ite_not]
  · have := foldl_alias (fun x y : D => x / y) k (List.finRange N) p (finRange_pairwise N) j
    unfold divAssign
    refine this.trans ?_
    simp only [List.mem_finRange, true_and, if_true, ← not_lt, ite_not]

end

/-- **C97, refuted.**  `p *= p[0]` and `p /= p[0]` do not multiply and divide `p` by its first coordinate:
`(2, 3)` becomes `(4, 12)` and `(1, 3)` (exact arithmetic). -/
theorem C97_alias_refuted :
    mulAssign ![2, 3] (.elem 0) = (![4, 12] : Point 2 ℝ) ∧ ((smul ![2, 3] 2).run 0).1 = (![4, 6] : Point 2 ℝ) ∧
    divAssign ![2, 3] (.elem 0) = (![1, 3] : Point 2 ℝ) ∧
    ((sdiv ![2, 3] 2).run 0).1 = (![1, 3 / 2] : Point 2 ℝ) := by
  refine ⟨?_, ?_, ?_, ?_⟩
  · rw [(C97_alias_partial 2 _ 0).1]
    funext i; fin_cases i <;> norm_num
  · rw [(C97_compound_partial 2 ![2, 3] ![2, 3] (2 : ℝ) 0).2.2.2.2.2.2.2.1]
    funext i; fin_cases i <;> norm_num
  · rw [(C97_alias_partial 2 _ 0).2]
    funext i; fin_cases i <;> norm_num
  · rw [(C97_compound_partial 2 ![2, 3] ![2, 3] (2 : ℝ) 0).2.2.2.2.2.2.2.2.2]
    funext i; fin_cases i <;> norm_num

example : addAssign ![1, 2] (.other ![3, 4]) = (![4, 6] : Point 2 ℝ) := by
  rw [(C97_compound_partial 2 _ _ (0 : ℝ) 0).1]
  rw [(C97_compound_partial 2 ![1, 2] ![3, 4] (0 : ℝ) 0).2.1]
  funext i; fin_cases i <;> norm_num

/-- **C97.**  For an index within `0 … N - 1`, reading returns what was last written. -/
theorem C97_index_partial (N : Nat) (p : Point N ℝ) (i j : Int) (x : ℝ) :
    (0 ≤ i ∧ i < N) → ∃ p', set p i x = .ok p' ∧ get p' i = .ok x ∧ (j ≠ i → get p' j = get p j) := by
  intro h
  refine ⟨_, dif_pos h, ?_, ?_⟩
  · unfold get
    rw [dif_pos h]
    simp
  · intro hj
    unfold get
    split_ifs with hj'
    · congr 1
      apply Function.update_of_ne
      intro he
      have := congrArg Fin.val he
      simp at this
      omega
    · rfl

/-- **C97, refuted.**  Any other index is not rejected: the access is undefined. -/
theorem C97_index_refuted (N : Nat) (p : Point N ℝ) (i : Int) (x : ℝ) (h : ¬ (0 ≤ i ∧ i < N)) :
    set p i x = .ub ∧ get p i = .ub := by
  exact ⟨dif_neg h, dif_neg h⟩

example : (0 ≤ (1 : Int) ∧ (1 : Int) < (2 : Nat)) ∧ ¬ (0 ≤ (2 : Int) ∧ (2 : Int) < (2 : Nat)) := by decide

/-! ### C98 -/

/-- **C98 (exact arithmetic).**  The dot product, `len` and `normalize` in any dimension: `len` is the
distance from the origin, and `normalize` makes a non-zero vector into the positive multiple of length 1. -/
theorem C98_vector_partial (N : Nat) (p q : Point N ℝ) :
    dot p q = ∑ i, p i * q i ∧ len Fp.real p = Spec.dist p 0 ∧
    (p ≠ 0 → ∃ c : ℝ, 0 < c ∧ normalize Fp.real p = (fun i => c * p i) ∧ len Fp.real (normalize Fp.real p) = 1) := by
  have hsum : ∀ (f : Fin N → ℝ), (List.finRange N).foldl (fun ret i => ret + f i) ((0 : Int) : ℝ) = ∑ i, f i := by
    intro f
    rw [← List.sum_ofFn, List.ofFn_eq_map, List.sum_eq_foldl, List.foldl_map]
    simp
  have hlen : ∀ p : Point N ℝ, len Fp.real p = Real.sqrt (∑ i, p i ^ 2) := by
    intro p
    show Real.sqrt _ = _
    rw [hsum fun i => p i * p i]
    simp only [pow_two]
  refine ⟨hsum _, ?_, ?_⟩
  · rw [hlen]
    simp [Spec.dist]
  · intro hp
    have hpos : 0 < ∑ i, p i ^ 2 := by
      obtain ⟨i, hi⟩ : ∃ i, p i ≠ 0 := by
        by_contra h
        push Not at h
        exact hp (funext h)
      exact Finset.sum_pos' (fun j _ => sq_nonneg _) ⟨i, Finset.mem_univ _, by positivity⟩
    have hn : normalize Fp.real p = fun i => p i / len Fp.real p :=
      foldl_update_all (fun _ x => x / len Fp.real p) p
    refine ⟨1 / len Fp.real p, ?_, ?_, ?_⟩
    · rw [hlen]
      have := Real.sqrt_pos.2 hpos
      positivity
    · rw [hn]
      funext i
      ring
    · rw [hn, hlen, hlen]
      simp only [div_pow]
      rw [← Finset.sum_div, Real.sq_sqrt hpos.le, div_self hpos.ne', Real.sqrt_one]

/-- **C98 (exact arithmetic).**  Lagrange's identity relates `cross`, `dot` and `len`; `cross` is 0 exactly for
parallel vectors. -/
theorem C98_cross (v w : Point 2 ℝ) :
    cross v w ^ 2 + dot v w ^ 2 = len Fp.real v ^ 2 * len Fp.real w ^ 2 ∧ (cross v w = 0 ↔ Parallel v w) ∧
    cross v w = -cross w v := by
  refine ⟨?_, (parallel_iff v w).symm, ?_⟩
  · rw [len2, len2, dot2, Real.sq_sqrt (by positivity), Real.sq_sqrt (by positivity)]
    unfold cross
    ring
  · unfold cross
    ring

example : (![3, 4] : Point 2 ℝ) ≠ 0 ∧ len Fp.real ![3, 4] = 5 := by
  constructor
  · intro h
    have := congrFun h 0
    norm_num at this
  · rw [len2]
    rw [show (![3, 4] : Point 2 ℝ) 0 ^ 2 + (![3, 4] : Point 2 ℝ) 1 ^ 2 = 5 ^ 2 by norm_num]
    exact Real.sqrt_sq (by norm_num)

/-- **C98, refuted (binary64).**  `normalize` makes `(2^600, 0)` into the zero vector. -/
theorem C98_refuted : normalize Fp.dbl ![.fin (2 ^ 600), .fin 0] = ![.fin 0, .fin 0] := by
  have hl : len Fp.dbl ![.fin (2 ^ 600), .fin 0] = .inf false := by
    have : len Fp.dbl ![.fin (2 ^ 600), .fin 0] = Fp.dbl.sqrt ((List.finRange 2).foldl
      (fun ret i => ret + (![.fin (2 ^ 600), .fin 0] : Point 2 Dbl) i * (![.fin (2 ^ 600), .fin 0] : Point 2 Dbl) i)
        ((0 : Int) : Dbl)) := rfl
    rw [this, show (List.finRange 2).foldl (fun ret i => ret + (![.fin (2 ^ 600), .fin 0] : Point 2 Dbl) i *
      (![.fin (2 ^ 600), .fin 0] : Point 2 Dbl) i) ((0 : Int) : Dbl) = .inf false by decide +kernel]
    rfl
  have hn : normalize Fp.dbl ![.fin (2 ^ 600), .fin 0] =
      fun i => (![.fin (2 ^ 600), .fin 0] : Point 2 Dbl) i / len Fp.dbl ![.fin (2 ^ 600), .fin 0] :=
    foldl_update_all (fun _ x => x / len Fp.dbl ![.fin (2 ^ 600), .fin 0]) _
  rw [hn, hl]
  funext i
  fin_cases i <;> rfl

/-! ### C99 -/

/-- **C99, what holds (exact arithmetic).**  `getPoint` returns a point at distance `r` from the centre, in the
given direction; area and perimeter are less than the true values by less than 2 parts in 10^8. -/
theorem C99_partial (c : Circle ℝ) (hr : 0 < c.r) (rad : ℝ) (n : Nat) :
    Spec.dist ((c.getPoint Fp.real rad).run n).1 c.O = c.r ∧
    (∃ X, ((c.getPoint Fp.real rad).run n).1 = X ∧ X 0 = c.O 0 + c.r * Real.cos rad ∧
      X 1 = c.O 1 + c.r * Real.sin rad) ∧
    (Real.pi * c.r ^ 2 * (1 - 2 / 10 ^ 8) < c.getArea Fp.real ∧ c.getArea Fp.real < Real.pi * c.r ^ 2) ∧
    (2 * Real.pi * c.r * (1 - 2 / 10 ^ 8) < c.getPerimeter Fp.real ∧
      c.getPerimeter Fp.real < 2 * Real.pi * c.r) ∧
    c.getArea Fp.real = c.getPerimeter Fp.real * c.r / 2 := by
  have hrun : ((c.getPoint Fp.real rad).run n).1 =
      fun i => c.O i + (![c.r * Real.cos rad, c.r * Real.sin rad] : Point 2 ℝ) i := rfl
  have hA : c.getArea Fp.real = 31415926 / 10 ^ 7 * c.r * c.r := rfl
  have hP : c.getPerimeter Fp.real = ((2 : Int) : ℝ) * (31415926 / 10 ^ 7) * c.r := rfl
  have h1 := Real.pi_gt_d20
  have h2 := Real.pi_lt_d20
  refine ⟨?_, ⟨_, rfl, ?_, ?_⟩, ?_, ?_, ?_⟩
  · rw [hrun, dist2]
    have : (c.O 0 + (![c.r * Real.cos rad, c.r * Real.sin rad] : Point 2 ℝ) 0 - c.O 0) ^ 2 +
        (c.O 1 + (![c.r * Real.cos rad, c.r * Real.sin rad] : Point 2 ℝ) 1 - c.O 1) ^ 2 = c.r ^ 2 := by
      simp
      linear_combination c.r ^ 2 * Real.cos_sq_add_sin_sq rad
    rw [this]
    exact Real.sqrt_sq hr.le
  · rw [hrun]; simp
  · rw [hrun]; simp
  · rw [hA]
    have h3 : 0 < c.r * c.r := by positivity
    constructor
    · rw [show 31415926 / 10 ^ 7 * c.r * c.r = 31415926 / 10 ^ 7 * (c.r * c.r) by ring,
        show Real.pi * c.r ^ 2 * (1 - 2 / 10 ^ 8) = Real.pi * (1 - 2 / 10 ^ 8) * (c.r * c.r) by ring]
      apply mul_lt_mul_of_pos_right _ h3
      linarith
    · rw [show 31415926 / 10 ^ 7 * c.r * c.r = 31415926 / 10 ^ 7 * (c.r * c.r) by ring, pow_two]
      apply mul_lt_mul_of_pos_right _ h3
      linarith
  · rw [hP]
    push_cast
    constructor
    · rw [show 2 * Real.pi * c.r * (1 - 2 / 10 ^ 8) = 2 * (Real.pi * (1 - 2 / 10 ^ 8)) * c.r by ring]
      apply mul_lt_mul_of_pos_right _ hr
      linarith
    · apply mul_lt_mul_of_pos_right _ hr
      linarith
  · rw [hA, hP]
    push_cast
    ring

/-- **C99, refuted.**  The area of the unit circle is not pi (the code uses 3.1415926). -/
theorem C99_refuted : (Circle.ofR 1).getArea Fp.real ≠ Real.pi ∧
    5 / 10 ^ 8 < Real.pi - (Circle.ofR 1).getArea Fp.real := by
  have hA : (Circle.ofR (1 : ℝ)).getArea Fp.real = 31415926 / 10 ^ 7 * 1 * 1 := rfl
  have h1 := Real.pi_gt_d20
  rw [hA]
  constructor
  · intro h; linarith
  · linarith

example : (0 : ℝ) < (⟨![1, 2], 3⟩ : Circle ℝ).r := by norm_num

/-! ### C100 -/

/-- **C100, refuted** (any arithmetic).  Every call of a binary operator on points leaves one object allocated
that nothing points to any more; the functions on lines leave three (one for `disToLine`). -/
theorem C100_leak_refuted (N : Nat) (p q : Point N ℝ) (c : ℝ) (l1 l2 : Line ℝ) (P : Point 2 ℝ)
    (C : Circle ℝ) (n : Nat) :
    ((add p q).run n).2 = n + 1 ∧ ((sub p q).run n).2 = n + 1 ∧ ((smul p c).run n).2 = n + 1 ∧
    ((sdiv p c).run n).2 = n + 1 ∧ ((getIntersection l1 l2).run n).2 = n + 3 ∧
    ((disToLine Fp.real P l1).run n).2 = n + 1 ∧ ((disToSegment Fp.real P l1).run n).2 = n + 3 ∧
    ((C.getPoint Fp.real c).run n).2 = n + 1 := by
  refine ⟨rfl, rfl, rfl, rfl, rfl, rfl, ?_, rfl⟩
  rw [disToSegment_run]

end Geo.Props
