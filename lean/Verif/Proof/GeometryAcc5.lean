import Verif.Proof.GeometryAcc4
import Mathlib.Analysis.Real.Pi.Bounds

/-! # Accuracy in binary64: directions, circles, intersections -/

set_option exponentiation.threshold 2000

namespace Geo.Acc
open Cpp Geo Geo.Spec

variable {N : Nat}

/-- `normalize` of a vector of moderate numbers -/
theorem normalize_err {p : Fin N → ℚ} (hp : ∀ i, Moderate (p i)) (hN : N ≤ 2 ^ 20) (h0 : p ≠ 0) :
    ∃ z : Fin N → ℚ, normalize Fp.dbl (fun i => Dbl.fin (p i)) = (fun i => Dbl.fin (z i)) ∧
      ∀ i, Rel (N + 5) (p i / vlen (real p)) (z i) := by
  obtain ⟨l, hl, hlr, -, hlb⟩ := len_moderate hp hN
  have hreal : real p ≠ 0 := fun h => h0 (funext fun i => by
    have : (p i : ℝ) = 0 := congrFun h i
    exact_mod_cast this)
  have hL := vlen_pos hreal
  have hl1 := hlr.half (by omega)
  have hl2 := hlr.double (by omega)
  rw [abs_of_pos hL] at hl1 hl2
  have hl0 : (l : ℝ) ≠ 0 := by
    intro h
    rw [h, abs_zero] at hl1
    linarith
  have hl0' : l ≠ 0 := by exact_mod_cast hl0
  have hl3 : |(l : ℝ)| ≤ 2 ^ (441 : Int) := by
    refine hl2.trans ?_
    rw [show (2 : ℝ) ^ (441 : Int) = 2 * 2 ^ 440 by rw [show (441 : Int) = ((441 : Nat) : Int) by norm_num, zpow_natCast, pow_succ]; ring]
    exact mul_le_mul_of_nonneg_left hlb (by norm_num)
  refine ⟨fun i => fl (p i / l), ?_, ?_⟩
  · have hn : normalize Fp.dbl (fun i => Dbl.fin (p i)) = fun i => Dbl.fin (p i) / len Fp.dbl (fun i => Dbl.fin (p i)) :=
      foldl_update_all (fun _ x => x / len Fp.dbl (fun i => Dbl.fin (p i))) _
    rw [hn, hl]
    funext i
    show (if l = 0 then _ else Dbl.round (p i / l)) = _
    rw [if_neg hl0']
    apply roundq
    push_cast
    rw [abs_div, div_le_iff₀ (abs_pos.2 hl0)]
    have h1 := abs_le_vlen (real p) i
    have h2 : (2 : ℝ) ≤ 2 ^ 1000 := by norm_num
    generalize (2 : ℝ) ^ 1000 = B at *
    have h3 : |(p i : ℝ)| ≤ vlen (real p) := h1
    nlinarith [abs_nonneg (l : ℝ)]
  · intro i
    have h1 : Rel (2 * (N / 2 + 2)) (p i / vlen (real p)) (((p i / l : ℚ)) : ℝ) := by
      have := (Rel.refl (p i : ℝ)).div hlr
      rw [zero_add] at this
      push_cast
      exact this
    have h2 : Big (-893) (((p i / l : ℚ)) : ℝ) := by
      have := (grid_of_moderate (hp i)).big.div hl3 hl0
      push_cast
      exact this.mono (by norm_num)
    exact (h1.trans (h2.relq (by norm_num))).mono (by omega)

/-- relative errors of the coordinates and the length -/
theorem vlen_rel {P : Fin N → ℝ} {z : Fin N → ℚ} {m : Nat} (h : ∀ i, Rel m (P i) (z i)) : Rel m (vlen P) (vlen (real z)) := by
  have h0 : 0 ≤ ∑ i, P i ^ 2 := Finset.sum_nonneg fun i _ => sq_nonneg _
  refine Rel.sqrt ?_ h0
  apply Rel.of_bounds h0
  · rw [Finset.sum_mul]
    apply Finset.sum_le_sum
    intro i _
    have := ((h i).mul (h i)).lo (mul_self_nonneg _)
    rw [← two_mul, ← pow_two, ← pow_two] at this
    exact this
  · rw [Finset.sum_mul]
    apply Finset.sum_le_sum
    intro i _
    have := ((h i).mul (h i)).hi (mul_self_nonneg _)
    rw [← two_mul, ← pow_two, ← pow_two] at this
    exact this

/-- the constant `PI` -/
theorem pi_dbl : ∃ p : ℚ, Fp.dbl.pi = .fin p ∧ Rel 1 (31415926 / 10 ^ 7) p ∧ Big 1 (p : ℝ) ∧ |(p : ℝ)| ≤ 4 := by
  have h : |((31415926 / 10 ^ 7 : ℚ) : ℝ)| ≤ 2 ^ 1000 := by
    push_cast
    rw [abs_of_pos (by norm_num)]
    have : (31415926 / 10 ^ 7 : ℝ) ≤ 4 := by norm_num
    refine this.trans ?_
    norm_num
  have hb : Big 1 ((31415926 / 10 ^ 7 : ℚ) : ℝ) := by
    right
    push_cast
    rw [abs_of_pos (by norm_num)]
    norm_num
  have hr := hb.relq (by norm_num)
  refine ⟨_, roundq h, ?_, hb.flq (by norm_num), ?_⟩
  · have e : ((31415926 / 10 ^ 7 : ℚ) : ℝ) = 31415926 / 10 ^ 7 := by push_cast; rfl
    rw [e] at hr
    exact hr
  · have h1 := hr.err (by norm_num)
    have e : ((31415926 / 10 ^ 7 : ℚ) : ℝ) = 31415926 / 10 ^ 7 := by push_cast; rfl
    rw [e, abs_of_pos (show (0 : ℝ) < 31415926 / 10 ^ 7 by norm_num), abs_le] at h1
    have hu := u_small
    rw [abs_le]
    push_cast at h1
    constructor <;> nlinarith

theorem dmul_rel {a b : ℚ} {A B : ℝ} {m m' : Nat} {k k' : Int} (ha : Rel m A a) (hb : Rel m' B b) (hka : Big k (a : ℝ)) (hkb : Big k' (b : ℝ))
    (hk : -1022 ≤ k + k') (hab : |(a : ℝ)| * |(b : ℝ)| ≤ 2 ^ 1000) :
    Dbl.fin a * Dbl.fin b = .fin (fl (a * b)) ∧ Rel (m + m' + 1) (A * B) (fl (a * b)) ∧ Big (k + k') ((fl (a * b) : ℚ) : ℝ) := by
  have h1 : Big (k + k') ((a * b : ℚ) : ℝ) := by
    push_cast
    exact hka.mul hkb
  refine ⟨?_, ?_, h1.flq hk⟩
  · show Dbl.round (a * b) = _
    apply roundq
    push_cast
    rw [abs_mul]
    exact hab
  · have h2 := ha.mul hb
    have h3 := h1.relq hk
    push_cast at h3
    exact h2.trans h3

theorem big_moderate {r : ℚ} (h : Moderate r) : Big (-400) (r : ℝ) := by
  rcases h.2 with h | h
  · left; rw [h, Rat.cast_zero]
  · right
    have : ((1 / 2 ^ 400 : ℚ) : ℝ) ≤ ((|r| : ℚ) : ℝ) := Rat.cast_le.2 h.1
    push_cast at this
    rw [zpow_neg]
    refine le_trans (le_of_eq ?_) this
    rw [one_div]
    norm_num

/-- area and perimeter -/
theorem circle_err {c : Point 2 Dbl} {r : ℚ} (hr : Moderate r) (h0 : 0 < r) :
    ∃ a p : ℚ, Circle.getArea Fp.dbl ⟨c, .fin r⟩ = .fin a ∧ Rel 3 (31415926 / 10 ^ 7 * r ^ 2) a ∧
      Circle.getPerimeter Fp.dbl ⟨c, .fin r⟩ = .fin p ∧ Rel 3 (2 * (31415926 / 10 ^ 7) * r) p := by
  obtain ⟨p, hp, hpr, hpb, hp4⟩ := pi_dbl
  have hrb := big_moderate hr
  have hr4 := moderate_le hr
  have hr0 : (0 : ℝ) < r := by exact_mod_cast h0
  have up : ∀ {a : ℝ} {n : Nat}, a ≤ 2 ^ n → n ≤ 1000 → a ≤ 2 ^ 1000 := fun h hn => h.trans (pow_le_pow_right₀ (by norm_num) hn)
  have e2 : ((2 : Int) : Dbl) = .fin 2 := by
    have h : Dbl.round ((2 : Int) : ℚ) = .fin ((2 : Int) : ℚ) := round_int (a := 2) (by norm_num)
    have e : ((2 : Int) : ℚ) = 2 := by norm_num
    rw [e] at h
    exact h
  have b2 : Big 1 ((2 : ℚ) : ℝ) := .inr (by norm_num)
  have r2 : Rel 0 2 ((2 : ℚ) : ℝ) := by
    have := Rel.refl 2
    push_cast
    exact this
  have hprod : |(p : ℝ)| * |(r : ℝ)| ≤ 2 ^ 402 := by
    rw [show (2 : ℝ) ^ 402 = 4 * 2 ^ 400 by rw [show 402 = 400 + 2 by norm_num, pow_add]; ring]
    exact mul_le_mul hp4 hr4 (abs_nonneg _) (by norm_num)
  obtain ⟨m1, m2, m3⟩ := dmul_rel hpr (Rel.refl (r : ℝ)) hpb hrb (by norm_num) (up hprod (by norm_num))
  have hx : |((fl (p * r) : ℚ) : ℝ)| ≤ 2 ^ 403 := by
    have h1 := (Rel.flq (x := p * r) ((hpb.mul hrb |>.mono (show (-1022 : Int) ≤ 1 + -400 by norm_num)).imp (fun h => by
      exact_mod_cast h) (fun h => by push_cast; exact h))).double (by norm_num)
    push_cast at h1
    rw [abs_mul] at h1
    rw [show (2 : ℝ) ^ 403 = 2 * 2 ^ 402 by rw [pow_succ _ 402]; ring]
    refine h1.trans ?_
    exact mul_le_mul_of_nonneg_left hprod (by norm_num)
  have hprod2 : |((fl (p * r) : ℚ) : ℝ)| * |(r : ℝ)| ≤ 2 ^ 803 := by
    rw [show (2 : ℝ) ^ 803 = 2 ^ 403 * 2 ^ 400 by rw [← pow_add]]
    exact mul_le_mul hx hr4 (abs_nonneg _) (by positivity)
  obtain ⟨n1, n2, -⟩ := dmul_rel m2 (Rel.refl (r : ℝ)) m3 hrb (by norm_num) (up hprod2 (by norm_num))
  have hprod3 : |((2 : ℚ) : ℝ)| * |(p : ℝ)| ≤ 2 ^ 3 := by
    push_cast
    rw [abs_of_pos (by norm_num : (0 : ℝ) < 2)]
    linarith
  obtain ⟨q1, q2, q3⟩ := dmul_rel r2 hpr b2 hpb (by norm_num) (up hprod3 (by norm_num))
  have hy : |((fl (2 * p) : ℚ) : ℝ)| ≤ 2 ^ 6 := by
    have h1 := q2.double (by norm_num)
    rw [abs_of_pos (by norm_num : (0 : ℝ) < 2 * (31415926 / 10 ^ 7))] at h1
    refine h1.trans ?_
    norm_num
  have hprod4 : |((fl (2 * p) : ℚ) : ℝ)| * |(r : ℝ)| ≤ 2 ^ 406 := by
    rw [show (2 : ℝ) ^ 406 = 2 ^ 6 * 2 ^ 400 by rw [← pow_add]]
    exact mul_le_mul hy hr4 (abs_nonneg _) (by positivity)
  obtain ⟨t1, t2, -⟩ := dmul_rel q2 (Rel.refl (r : ℝ)) q3 hrb (by norm_num) (up hprod4 (by norm_num))
  refine ⟨fl (fl (p * r) * r), fl (fl (2 * p) * r), ?_, ?_, ?_, t2⟩
  · unfold Circle.getArea
    dsimp only
    rw [hp, m1, n1]
  · have := n2
    rw [show (31415926 / 10 ^ 7 * (r : ℝ)) * r = 31415926 / 10 ^ 7 * (r : ℝ) ^ 2 by ring] at this
    exact this
  · unfold Circle.getPerimeter
    dsimp only
    rw [hp, e2, q1, t1]

/-- one coordinate of `getPoint` -/
theorem point_err {o r : ℚ} (ho : Moderate o) (hr : Moderate r) (h0 : 0 < r) {x : ℝ} (hx : |x| ≤ 1) :
    ∃ z : ℚ, Dbl.fin o + Dbl.fin r * Dbl.round x = .fin z ∧ |(z : ℝ) - (o + r * x)| ≤ 4 * u * (|(o : ℝ)| + r) := by
  have hu := u_small
  have hu0 := u_pos
  have hr0 : (0 : ℝ) < r := by exact_mod_cast h0
  have hr4 := moderate_le hr
  have ho4 := moderate_le ho
  have hη : (2 : ℝ) ^ (-1075 : Int) ≤ u * (u * r) := by
    have h1 : (2 : ℝ) ^ (-400 : Int) ≤ r := by
      rcases big_moderate hr with h | h
      · exact absurd h hr0.ne'
      · rwa [abs_of_pos hr0] at h
    rw [← u_eq, ← mul_assoc, ← zpow_add₀ (by norm_num)]
    refine le_trans ?_ (mul_le_mul_of_nonneg_left h1 (two_zpow_pos _).le)
    rw [← zpow_add₀ (by norm_num)]
    exact zpow_le_zpow_right₀ (by norm_num) (by norm_num)
  have hη1 : (2 : ℝ) ^ (-1075 : Int) ≤ u := by
    rw [← u_eq]
    exact zpow_le_zpow_right₀ (by norm_num) (by norm_num)
  have hη2 : (2 : ℝ) ^ (-1075 : Int) ≤ u * u := by
    rw [← u_eq, ← zpow_add₀ (by norm_num)]
    exact zpow_le_zpow_right₀ (by norm_num) (by norm_num)
  have b2 : (2 : ℝ) * 2 ^ 400 + 2 ^ 400 ≤ 2 ^ 1000 := by norm_num
  have b3 : (1 : ℝ) ≤ 2 ^ 1000 := by norm_num
  have c1 := fl_err x
  set c : ℚ := fl x with hc
  have c2 : |(c : ℝ)| ≤ 2 := by
    have := abs_add_le ((c : ℝ) - x) x
    rw [sub_add_cancel] at this
    nlinarith [abs_nonneg x]
  have c3 : |(r : ℝ) * c - r * x| ≤ r * (u + u * u) := by
    rw [← mul_sub, abs_mul, abs_of_pos hr0]
    apply mul_le_mul_of_nonneg_left _ hr0.le
    have : u * |x| ≤ u * 1 := mul_le_mul_of_nonneg_left hx hu0.le
    linarith
  have c4 : |(r : ℝ) * c| ≤ 2 * r := by
    rw [abs_mul, abs_of_pos hr0]
    nlinarith
  have c4' : |(r : ℝ) * c| ≤ r * (1 + u + u * u) := by
    have := abs_add_le ((r : ℝ) * c - r * x) (r * x)
    rw [sub_add_cancel] at this
    have h2 : |(r : ℝ) * x| ≤ r * 1 := by
      rw [abs_mul, abs_of_pos hr0]
      exact mul_le_mul_of_nonneg_left hx hr0.le
    linarith
  have d1 := flq_err (r * c)
  set s : ℚ := fl (r * c) with hs
  push_cast at d1
  have d2 : |(s : ℝ) - r * c| ≤ r * (u + 3 * (u * u)) := by
    have := mul_le_mul_of_nonneg_left c4' hu0.le
    have h3 : u * u * u ≤ u * u := by nlinarith [mul_pos hu0 hu0]
    nlinarith
  have d3 : |(s : ℝ) - r * x| ≤ r * (2 * u + 4 * (u * u)) := by
    have := abs_add_le ((s : ℝ) - r * c) (r * c - r * x)
    rw [sub_add_sub_cancel] at this
    linarith
  have d4 : |(s : ℝ)| ≤ r * (1 + 3 * u) := by
    have := abs_add_le ((s : ℝ) - r * x) (r * x)
    rw [sub_add_cancel] at this
    have h2 : |(r : ℝ) * x| ≤ r * 1 := by
      rw [abs_mul, abs_of_pos hr0]
      exact mul_le_mul_of_nonneg_left hx hr0.le
    have h3 : 4 * (u * u) ≤ u := by nlinarith
    have h4 := mul_le_mul_of_nonneg_left h3 hr0.le
    linarith
  have e1 := flq_err (o + s)
  push_cast at e1
  have e2 : |(o : ℝ) + s| ≤ |(o : ℝ)| + r * (1 + 3 * u) := (abs_add_le _ _).trans (by linarith)
  refine ⟨fl (o + s), ?_, ?_⟩
  · rw [round_real (hx.trans b3)]
    have f1 : Dbl.fin r * Dbl.fin c = .fin s := by
      show Dbl.round (r * c) = _
      apply roundq
      push_cast
      refine c4.trans ?_
      rw [abs_of_pos hr0] at hr4
      refine le_trans ?_ b2
      have : (0 : ℝ) ≤ 2 ^ 400 := by positivity
      generalize (2 : ℝ) ^ 400 = B at *
      linarith
    rw [f1]
    show Dbl.round (o + s) = _
    apply roundq
    push_cast
    refine e2.trans ?_
    rw [abs_of_pos hr0] at hr4
    refine le_trans ?_ b2
    generalize (2 : ℝ) ^ 400 = B at *
    nlinarith
  · have g1 := abs_add_le (((fl (o + s) : ℚ) : ℝ) - (o + s)) (s - r * x)
    rw [show ((fl (o + s) : ℚ) : ℝ) - (o + s) + (s - r * x) = ((fl (o + s) : ℚ) : ℝ) - (o + r * x) by ring] at g1
    have g2 := mul_le_mul_of_nonneg_left e2 hu0.le
    have g3 : 8 * (u * (u * r)) ≤ u * r := by
      have : 0 < u * r := by positivity
      nlinarith
    have g4 : 0 ≤ u * |(o : ℝ)| := by positivity
    nlinarith

/-- the parameter of the intersection point -/
theorem ar_quot {n c n' c' L1 L2 U κ : ℝ} (hL1 : 0 < L1) (hL2 : 0 < L2) (hU : 0 ≤ U) (hκ : 1 / 2 ^ 20 ≤ κ) (hκ1 : κ ≤ 1)
    (hc : κ * (L1 * L2) ≤ |c|) (hn : |n| ≤ L2 * U) (hn' : |n' - n| ≤ 4 * u * (L2 * U)) (hc' : |c' - c| ≤ 3 * u * (L1 * L2)) :
    c' ≠ 0 ∧ L1 * |n / c| ≤ U / κ ^ 2 ∧ L1 * |n' / c' - n / c| ≤ 8 * u * (U / κ ^ 2) := by
  have hu0 := u_pos
  have hκ0 : 0 < κ := lt_of_lt_of_le (by norm_num) hκ
  have hLL : 0 < L1 * L2 := mul_pos hL1 hL2
  have hc0 : 0 < |c| := lt_of_lt_of_le (mul_pos hκ0 hLL) hc
  have hcn : c ≠ 0 := abs_pos.1 hc0
  have huκ : 27 * u ≤ κ := by
    refine le_trans ?_ hκ
    unfold u
    norm_num
  have hc1 : 8 / 9 * |c| ≤ |c'| := by
    have h1 : |c| ≤ |c'| + |c' - c| := by
      have := abs_sub_abs_le_abs_sub c c'
      rw [abs_sub_comm] at this
      linarith
    have h2 : 27 * u * (L1 * L2) ≤ κ * (L1 * L2) := mul_le_mul_of_nonneg_right huκ hLL.le
    linarith
  have hc'0 : 0 < |c'| := by linarith
  have hc'n : c' ≠ 0 := abs_pos.1 hc'0
  have hκ2 : κ ^ 2 ≤ κ := by nlinarith
  have hT : L1 * |n / c| ≤ U / κ := by
    rw [abs_div, mul_div_assoc', div_le_div_iff₀ hc0 hκ0]
    calc L1 * |n| * κ ≤ L1 * (L2 * U) * κ := by gcongr
      _ = U * (κ * (L1 * L2)) := by ring
      _ ≤ U * |c| := mul_le_mul_of_nonneg_left hc hU
  have hle : U / κ ≤ U / κ ^ 2 := div_le_div_of_nonneg_left hU (by positivity) hκ2
  refine ⟨hc'n, hT.trans hle, ?_⟩
  have e : n' / c' - n / c = ((n' - n) - n / c * (c' - c)) / c' := by
    field_simp
    ring
  rw [e, abs_div, mul_div_assoc', div_le_iff₀ hc'0]
  have h1 := abs_sub (n' - n) (n / c * (c' - c))
  rw [abs_mul (n / c)] at h1
  have h2 : L1 * (|n / c| * |c' - c|) ≤ U / κ * (3 * u * (L1 * L2)) := by
    rw [← mul_assoc]
    exact mul_le_mul hT hc' (abs_nonneg _) (by positivity)
  have h3 : L1 * |n' - n| ≤ L1 * (4 * u * (L2 * U)) := mul_le_mul_of_nonneg_left hn' hL1.le
  have h4 : L1 * |n' - n - n / c * (c' - c)| ≤ L1 * |n' - n| + L1 * (|n / c| * |c' - c|) := by
    rw [← mul_add]
    exact mul_le_mul_of_nonneg_left h1 hL1.le
  have h5 : L1 * (4 * u * (L2 * U)) ≤ 4 * u * (U / κ) * (L1 * L2) := by
    have : U ≤ U / κ := le_div_self hU hκ0 hκ1
    calc L1 * (4 * u * (L2 * U)) = 4 * u * (L1 * L2) * U := by ring
      _ ≤ 4 * u * (L1 * L2) * (U / κ) := by gcongr
      _ = _ := by ring
  have h6 : 8 * u * (U / κ ^ 2) * (8 / 9 * (κ * (L1 * L2))) ≤ 8 * u * (U / κ ^ 2) * |c'| := by
    apply mul_le_mul_of_nonneg_left _ (by positivity)
    linarith
  have h7 : 8 * u * (U / κ ^ 2) * (8 / 9 * (κ * (L1 * L2))) = 64 / 9 * (u * (U / κ) * (L1 * L2)) := by
    field_simp
    ring
  have h8 : 0 ≤ u * (U / κ) * (L1 * L2) := by positivity
  linarith

/-- the last steps of `getIntersection` for one coordinate -/
theorem ar_point {a v : ℚ} {t : ℚ} {T L R : ℝ} (ha : |(a : ℝ)| ≤ 2 ^ 400) (hL0 : 0 < L) (hL : L ≤ 2 ^ 440) (hv : |(v : ℝ)| ≤ L)
    (hR : 2 ^ (-460 : Int) ≤ R) (hR2 : R ≤ 2 ^ 500) (hT : L * |T| ≤ R) (ht : L * |(t : ℝ) - T| ≤ 8 * u * R) :
    ∃ z : ℚ, Dbl.fin a + Dbl.fin v * Dbl.fin (fl t) = .fin z ∧ |(z : ℝ) - (a + v * T)| ≤ 32 * u * (|(a : ℝ)| + R) := by
  have hu := u_small
  have hu0 := u_pos
  have hR0 : 0 < R := lt_of_lt_of_le (two_zpow_pos _) hR
  have hη : (2 : ℝ) ^ (-1075 : Int) ≤ u * R := eta_le hR
  have hLη : L * (2 : ℝ) ^ (-1075 : Int) ≤ u * R := by
    have h1 : (2 : ℝ) ^ 440 * 2 ^ (-1075 : Int) ≤ u * 2 ^ (-460 : Int) := by
      rw [← u_eq, ← zpow_add₀ (by norm_num), ← zpow_natCast, ← zpow_add₀ (by norm_num)]
      exact zpow_le_zpow_right₀ (by norm_num) (by norm_num)
    exact (mul_le_mul_of_nonneg_right hL (two_zpow_pos _).le).trans (h1.trans (mul_le_mul_of_nonneg_left hR hu0.le))
  have b1 : (4 : ℝ) * 2 ^ 500 + 2 ^ 400 ≤ 2 ^ 1000 := by norm_num
  have c1 := flq_err t
  set τ : ℚ := fl t with hτ
  obtain ⟨η, hηd⟩ : ∃ η : ℝ, η = 2 ^ (-1075 : Int) := ⟨_, rfl⟩
  rw [← hηd] at c1 hη hLη
  have h1 : L * |(t : ℝ)| ≤ R + 8 * u * R := by
    have := abs_add_le ((t : ℝ) - T) T
    rw [sub_add_cancel] at this
    have := mul_le_mul_of_nonneg_left this hL0.le
    linarith
  have h2 : L * |(τ : ℝ) - t| ≤ 3 * u * R := by
    have := mul_le_mul_of_nonneg_left c1 hL0.le
    have h3 := mul_le_mul_of_nonneg_left h1 hu0.le
    have h4 : u * (8 * u * R) ≤ u * R := by
      have : 0 < u * R := by positivity
      nlinarith
    linarith
  have h3 : L * |(τ : ℝ) - T| ≤ 11 * u * R := by
    have := abs_add_le ((τ : ℝ) - t) (t - T)
    rw [sub_add_sub_cancel] at this
    have := mul_le_mul_of_nonneg_left this hL0.le
    linarith
  have h4 : |(v : ℝ) * τ - v * T| ≤ 11 * u * R := by
    rw [← mul_sub, abs_mul]
    exact (mul_le_mul_of_nonneg_right hv (abs_nonneg _)).trans h3
  have hvT : |(v : ℝ) * T| ≤ R := by
    rw [abs_mul]
    exact (mul_le_mul_of_nonneg_right hv (abs_nonneg _)).trans hT
  have huR : 11 * u * R ≤ 1 / 2 * R := mul_le_mul_of_nonneg_right (by linarith) hR0.le
  have h5 : |(v : ℝ) * τ| ≤ 2 * R := by
    have := abs_add_le ((v : ℝ) * τ - v * T) (v * T)
    rw [sub_add_cancel] at this
    linarith
  have hs := flq_err (v * τ)
  set s : ℚ := fl (v * τ) with hsd
  push_cast at hs
  rw [← hηd] at hs
  have h6 : |(s : ℝ) - v * T| ≤ 14 * (u * R) := by
    have := abs_add_le ((s : ℝ) - v * τ) (v * τ - v * T)
    rw [sub_add_sub_cancel] at this
    have := mul_le_mul_of_nonneg_left h5 hu0.le
    linarith
  have h7 : |(a : ℝ) + s| ≤ |(a : ℝ)| + 2 * R := by
    have h8 := abs_add_le (a : ℝ) s
    have h9 := abs_add_le ((s : ℝ) - v * T) (v * T)
    rw [sub_add_cancel] at h9
    have : 14 * (u * R) ≤ 14 * (1 / 1000000 * R) := by gcongr
    linarith
  have hz := flq_err (a + s)
  push_cast at hz
  rw [← hηd] at hz
  refine ⟨fl (a + s), ?_, ?_⟩
  · have f1 : Dbl.fin v * Dbl.fin τ = .fin s := by
      show Dbl.round (v * τ) = _
      apply roundq
      push_cast
      refine h5.trans (le_trans ?_ b1)
      have : (0 : ℝ) ≤ 2 ^ 400 := by positivity
      generalize (2 : ℝ) ^ 400 = B at *
      generalize (2 : ℝ) ^ 500 = C at *
      linarith
    rw [f1]
    show Dbl.round (a + s) = _
    apply roundq
    push_cast
    refine h7.trans (le_trans ?_ b1)
    generalize (2 : ℝ) ^ 400 = B at *
    generalize (2 : ℝ) ^ 500 = C at *
    linarith
  · have g1 := abs_add_le (((fl (a + s) : ℚ) : ℝ) - (a + s)) (s - v * T)
    rw [show ((fl (a + s) : ℚ) : ℝ) - (a + s) + (s - v * T) = ((fl (a + s) : ℚ) : ℝ) - (a + v * T) by ring] at g1
    have g2 := mul_le_mul_of_nonneg_left h7 hu0.le
    have g3 : 0 ≤ u * |(a : ℝ)| := by positivity
    have g4 : 0 < u * R := by positivity
    linarith

end Geo.Acc
