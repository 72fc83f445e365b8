import Verif.Proof.GeometryRange

/-! # C98, C101 and C64 at the limits of binary64 -/

set_option exponentiation.threshold 2000

namespace Geo.Props
open Cpp

/-- **C98, refuted for all large points (binary64, any dimension).**  With a coordinate of `2^512` or more `len` is infinite
and `normalize` makes the zero vector. -/
theorem C98_large_refuted {N : Nat} (p : Fin N → ℚ) (k : Fin N) (h : 2 ^ 512 ≤ |p k|) :
    len Fp.dbl (fun i => Dbl.fin (p i)) = .inf false ∧ normalize Fp.dbl (fun i => Dbl.fin (p i)) = fun _ => .fin 0 := by
  have hl := len_huge p k h
  refine ⟨hl, ?_⟩
  have hn : normalize Fp.dbl (fun i => Dbl.fin (p i)) =
      fun i => Dbl.fin (p i) / len Fp.dbl (fun i => Dbl.fin (p i)) :=
    foldl_update_all (fun _ x => x / len Fp.dbl (fun i => Dbl.fin (p i))) _
  rw [hn, hl]
  rfl

/-- **C98, refuted for all small points (binary64, any dimension).**  If all coordinates are below `2^-538`, `len` is 0, also
for points other than the origin, and `normalize` makes infinities and NaNs only. -/
theorem C98_small_refuted {N : Nat} (p : Fin N → ℚ) (h : ∀ i, |p i| < 1 / 2 ^ 538) :
    len Fp.dbl (fun i => Dbl.fin (p i)) = .fin 0 ∧
    normalize Fp.dbl (fun i => Dbl.fin (p i)) = fun i => if p i = 0 then .nan else .inf (decide (p i < 0)) := by
  have hl := len_tiny p h
  refine ⟨hl, ?_⟩
  have hn : normalize Fp.dbl (fun i => Dbl.fin (p i)) =
      fun i => Dbl.fin (p i) / len Fp.dbl (fun i => Dbl.fin (p i)) :=
    foldl_update_all (fun _ x => x / len Fp.dbl (fun i => Dbl.fin (p i))) _
  rw [hn, hl]
  rfl

example : (2 : ℚ) ^ 512 ≤ |(![3, -2 ^ 600, 1] : Fin 3 → ℚ) 1| := by decide +kernel
example : ∀ i, |(![1 / 2 ^ 600, 0] : Fin 2 → ℚ) i| < 1 / 2 ^ 538 := by decide +kernel

/-- **C101, refuted for all short directions (binary64).**  If the directions of both lines have coordinates below `2^-538`,
`getIntersection` returns no finite coordinate, wherever the lines are and whatever the angle between them.  The same happens
whenever the product of the directions is computed as 0. -/
theorem C101_small_refuted (A v B w : Fin 2 → ℚ) (n : Nat) (h : ((∀ i, |v i| < 1 / 2 ^ 538) ∧ ∀ i, |w i| < 1 / 2 ^ 538) ∨
      cross (fun i => Dbl.fin (v i)) (fun i => Dbl.fin (w i)) = .fin 0) (i : Fin 2) (q : ℚ) :
    ((getIntersection (⟨fun i => .fin (A i), fun i => .fin (v i)⟩ : Line Dbl)
      ⟨fun i => .fin (B i), fun i => .fin (w i)⟩).run n).1 i ≠ .fin q := by
  have hc : cross (fun i => Dbl.fin (v i)) (fun i => Dbl.fin (w i)) = .fin 0 := h.elim (fun h => cross_tiny h.1 h.2) id
  show Dbl.fin (A i) + Dbl.fin (v i) * (_ / cross (fun i => Dbl.fin (v i)) (fun i => Dbl.fin (w i))) ≠ _
  rw [hc]
  exact add_notFin _ (mul_notFin _ (div_zero_notFin _)) q

/-- **C64, refuted for all segments of length 0 (binary64)**: the distance is NaN, for all points up to `2^998`; also the
distance from the line with such a direction. -/
theorem C64_degenerate_all_refuted (P A : Fin 2 → ℚ) (hP : ∀ i, |P i| ≤ 2 ^ 998) (hA : ∀ i, |A i| ≤ 2 ^ 998) (n : Nat) :
    ((disToSegment Fp.dbl (fun i => .fin (P i)) ⟨fun i => .fin (A i), fun _ => .fin 0⟩).run n).1 = .nan ∧
    ((disToLine Fp.dbl (fun i => .fin (P i)) ⟨fun i => .fin (A i), fun _ => .fin 0⟩).run n).1 = .nan := by
  have hb : ∀ i, |P i + -A i| ≤ 2 ^ 999 := fun i => by
    refine (abs_add_le _ _).trans ?_
    rw [abs_neg]
    exact (add_le_add (hP i) (hA i)).trans (by norm_num)
  have e1 : (fun i => Dbl.fin (P i) - Dbl.fin (A i)) = fun i => Dbl.fin (fl (P i + -A i)) :=
    funext fun i => round_fin ((hb i).trans (by norm_num))
  have e2 : (fun i => Dbl.fin (P i) - Dbl.fin (A i) - Dbl.fin 0) = fun i => Dbl.fin (fl (fl (P i + -A i) + -0)) :=
    funext fun i => by
      rw [congrFun e1 i]
      exact round_fin (by rw [neg_zero, add_zero]; exact fl_bound (hb i))
  have hl : len Fp.dbl (fun _ : Fin 2 => Dbl.fin 0) = .fin 0 :=
    len_tiny (fun _ => 0) fun _ => by rw [abs_zero]; positivity
  have hd : dcmp Fp.dbl (.fin 0) = 0 := by decide +kernel
  have hq : Fp.dbl.fabs (Dbl.fin 0 / Dbl.fin 0) = .nan := by decide +kernel
  constructor
  · rw [disToSegment_run]
    dsimp only
    rw [e1, e2, dot_zero, dot_zero, hd, if_neg (lt_irrefl _), if_neg (lt_irrefl _), cross_zero, hl, hq]
  · show Fp.dbl.fabs (cross (fun _ => Dbl.fin 0) (fun i => Dbl.fin (P i) - Dbl.fin (A i)) / len Fp.dbl fun _ => Dbl.fin 0) = _
    rw [e1, cross_zero, hl, hq]

-- directions that are perpendicular
example : (∀ i, |(![1 / 2 ^ 600, 0] : Fin 2 → ℚ) i| < 1 / 2 ^ 538) ∧ ∀ i, |(![0, 1 / 2 ^ 600] : Fin 2 → ℚ) i| < 1 / 2 ^ 538 := by
  decide +kernel
example : ∀ i, |(![3, -4] : Fin 2 → ℚ) i| ≤ 2 ^ 998 := by decide +kernel

end Geo.Props
