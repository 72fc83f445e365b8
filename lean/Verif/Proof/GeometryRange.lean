import Verif.Proof.GeometryDouble
import Verif.Proof.Double
import Verif.Model.Geometry

/-! # Overflow and underflow of the length of a point -/

set_option exponentiation.threshold 2000

namespace Geo
open Cpp

theorem fl_huge : fl (2 ^ 1024 : ℚ) = 2 ^ 1024 := by decide +kernel

theorem round_huge {x : ℚ} (h : 2 ^ 1024 ≤ x) : Dbl.round x = .inf false := by
  have h1 := fl_mono h
  rw [fl_huge] at h1
  have h0 : (0 : ℚ) < 2 ^ 1024 := by positivity
  unfold Dbl.round
  rw [if_pos (le_trans h1 (le_abs_self _)), decide_eq_false (not_lt.2 (le_trans h0.le h))]

/-- Zero, a positive number or +∞. -/
def NonNeg : Dbl → Prop
  | .fin q => 0 ≤ q
  | .inf s => s = false
  | .nan => False

theorem round_nonneg {x : ℚ} (h : 0 ≤ x) : NonNeg (Dbl.round x) := by
  unfold Dbl.round
  split
  · exact decide_eq_false (not_lt.2 h)
  · exact fl_nonneg h

theorem square_nonneg (q : ℚ) : NonNeg (Dbl.fin q * Dbl.fin q) := round_nonneg (mul_self_nonneg q)

theorem add_nonneg' : ∀ {x y : Dbl}, NonNeg x → NonNeg y → NonNeg (x + y)
  | .fin _, .fin _, h, h' => round_nonneg (add_nonneg h h')
  | .inf _, .fin _, h, _ => h
  | .fin _, .inf _, _, h' => h'
  | .inf s, .inf t, h, h' => by
    cases (h : s = false); cases (h' : t = false)
    exact (rfl : NonNeg (.inf false))

theorem add_inf : ∀ {y : Dbl}, NonNeg y → Dbl.inf false + y = .inf false
  | .fin _, _ => rfl
  | .inf s, h => by cases (h : s = false); rfl

theorem inf_add : ∀ {y : Dbl}, NonNeg y → y + Dbl.inf false = .inf false
  | .fin _, _ => rfl
  | .inf s, h => by cases (h : s = false); rfl

theorem fold_inf {α : Type} (f : α → Dbl) (hf : ∀ i, NonNeg (f i)) :
    ∀ l : List α, l.foldl (fun r i => r + f i) (Dbl.inf false) = .inf false
  | [] => rfl
  | i :: l => by rw [List.foldl_cons, add_inf (hf i), fold_inf f hf l]

theorem fold_reaches {α : Type} (f : α → Dbl) (hf : ∀ i, NonNeg (f i)) (k : α) (hk : f k = .inf false) :
    ∀ (l : List α) (r : Dbl), NonNeg r → k ∈ l → l.foldl (fun r i => r + f i) r = .inf false
  | i :: l, r, hr, hm => by
    rw [List.foldl_cons]
    rcases List.mem_cons.1 hm with rfl | hm
    · rw [hk, inf_add hr, fold_inf f hf l]
    · exact fold_reaches f hf k hk l _ (add_nonneg' hr (hf i)) hm

theorem zero_cast : ((0 : Int) : Dbl) = .fin 0 := by
  show Dbl.round _ = _
  decide +kernel

theorem len_huge {N : Nat} (p : Fin N → ℚ) (k : Fin N) (h : 2 ^ 512 ≤ |p k|) :
    len Fp.dbl (fun i => Dbl.fin (p i)) = .inf false := by
  have hk : Dbl.fin (p k) * Dbl.fin (p k) = .inf false := by
    refine round_huge ?_
    have h0 : (0 : ℚ) ≤ 2 ^ 512 := by positivity
    have := mul_le_mul h h h0 (abs_nonneg _)
    rw [abs_mul_abs_self] at this
    calc (2 : ℚ) ^ 1024 = 2 ^ 512 * 2 ^ 512 := by rw [← pow_add]
      _ ≤ _ := this
  have := fold_reaches (fun i => Dbl.fin (p i) * Dbl.fin (p i)) (fun i => square_nonneg _) k hk (List.finRange N)
    ((0 : Int) : Dbl) (by rw [zero_cast]; exact le_refl (0 : ℚ)) (List.mem_finRange k)
  unfold len
  rw [this]
  rfl

theorem fold_zero {α : Type} (f : α → Dbl) (hf : ∀ i, f i = .fin 0) :
    ∀ l : List α, l.foldl (fun r i => r + f i) (Dbl.fin 0) = .fin 0
  | [] => rfl
  | i :: l => by
    rw [List.foldl_cons, hf i, show Dbl.fin 0 + Dbl.fin 0 = .fin 0 by decide +kernel, fold_zero f hf l]

theorem len_tiny {N : Nat} (p : Fin N → ℚ) (h : ∀ i, |p i| < 1 / 2 ^ 538) : len Fp.dbl (fun i => Dbl.fin (p i)) = .fin 0 := by
  have hf : ∀ i, Dbl.fin (p i) * Dbl.fin (p i) = .fin 0 := by
    intro i
    have h1 : p i * p i < 2 ^ (-1075 : Int) := by
      have := mul_self_lt_mul_self (abs_nonneg _) (h i)
      rw [abs_mul_abs_self] at this
      refine lt_trans this ?_
      rw [div_mul_div_comm, one_mul, ← pow_add, zpow_neg, ← one_div]
      exact one_div_lt_one_div_of_lt (by positivity) (by rw [← zpow_natCast]; exact zpow_lt_zpow_right₀ (by norm_num) (by norm_num))
    show Dbl.round _ = _
    unfold Dbl.round
    rw [fl_tiny (mul_self_nonneg _) h1, abs_zero, if_neg (by norm_num)]
  unfold len
  rw [zero_cast, fold_zero _ hf]
  show (if (0 : ℚ) < 0 then Dbl.nan else Dbl.round (Real.sqrt ((0 : ℚ) : ℝ))) = _
  rw [if_neg (lt_irrefl _), Rat.cast_zero, Real.sqrt_zero]
  unfold Dbl.round
  rw [fl_zero, abs_zero, if_neg (by norm_num)]

/-! ### intersection with a product of the directions that is 0 -/

/-- Not a number of finite size. -/
def NotFin (x : Dbl) : Prop := ∀ q, x ≠ .fin q

theorem div_zero_notFin : ∀ x : Dbl, NotFin (x / .fin 0)
  | .nan => fun _ h => nomatch h
  | .inf _ => fun _ h => nomatch h
  | .fin a => fun q h => by
    have h : (if (0 : ℚ) = 0 then (if a = 0 then Dbl.nan else .inf (decide (a < 0))) else .round (a / 0)) = .fin q := h
    rw [if_pos rfl] at h
    split at h <;> cases h

theorem mul_notFin (a : ℚ) : ∀ {x : Dbl}, NotFin x → NotFin (Dbl.fin a * x)
  | .nan, _ => fun _ h => nomatch h
  | .inf t, _ => fun q h => by
    have h : (if a = 0 then Dbl.nan else .inf (decide (a < 0) ^^ t)) = .fin q := h
    split at h <;> cases h
  | .fin b, h => absurd rfl (h b)

theorem add_notFin (a : ℚ) : ∀ {x : Dbl}, NotFin x → NotFin (Dbl.fin a + x)
  | .nan, _ => fun _ h => nomatch h
  | .inf _, _ => fun _ h => nomatch h
  | .fin b, h => absurd rfl (h b)

theorem round_zero : Dbl.round (0 : ℚ) = .fin 0 := by decide +kernel

theorem mul_tiny {a b : ℚ} (ha : |a| < 1 / 2 ^ 538) (hb : |b| < 1 / 2 ^ 538) : Dbl.fin a * Dbl.fin b = .fin 0 := by
  have h1 : |a * b| < 2 ^ (-1075 : Int) := by
    rw [abs_mul]
    refine lt_of_le_of_lt (mul_le_mul ha.le hb.le (abs_nonneg _) (by positivity)) ?_
    rw [div_mul_div_comm, one_mul, ← pow_add, zpow_neg, ← one_div]
    exact one_div_lt_one_div_of_lt (by positivity) (by rw [← zpow_natCast]; exact zpow_lt_zpow_right₀ (by norm_num) (by norm_num))
  have h2 : fl (a * b) = 0 := by
    rcases le_total 0 (a * b) with h | h
    · exact fl_tiny h (by rwa [abs_of_nonneg h] at h1)
    · rw [abs_of_nonpos h] at h1
      rw [← neg_neg (a * b), fl_neg, fl_tiny (by linarith) h1, neg_zero]
  show Dbl.round _ = _
  unfold Dbl.round
  rw [h2, abs_zero, if_neg (by norm_num)]

theorem cross_tiny {v w : Fin 2 → ℚ} (hv : ∀ i, |v i| < 1 / 2 ^ 538) (hw : ∀ i, |w i| < 1 / 2 ^ 538) :
    cross (fun i => Dbl.fin (v i)) (fun i => Dbl.fin (w i)) = .fin 0 := by
  unfold cross
  rw [mul_tiny (hv 0) (hw 1), mul_tiny (hv 1) (hw 0)]
  decide +kernel

/-! ### distance from a segment of length 0 -/

theorem zero_mul_fin (b : ℚ) : Dbl.fin 0 * Dbl.fin b = .fin 0 := by
  show Dbl.round _ = _
  rw [zero_mul, round_zero]

theorem dot_zero {N : Nat} (q : Fin N → ℚ) : dot (fun _ : Fin N => Dbl.fin 0) (fun i => Dbl.fin (q i)) = .fin 0 := by
  unfold dot
  rw [zero_cast, fold_zero _ fun i => zero_mul_fin _]

theorem cross_zero (q : Fin 2 → ℚ) : cross (fun _ => Dbl.fin 0) (fun i => Dbl.fin (q i)) = .fin 0 := by
  unfold cross
  rw [zero_mul_fin, zero_mul_fin]
  decide +kernel

theorem fl_bound {x : ℚ} (h : |x| ≤ 2 ^ 999) : |fl x| ≤ 2 ^ 1000 := by
  have h1 := fl_err x
  have h2 : |fl x| ≤ |fl x - x| + |x| := by
    have := abs_add_le (fl x - x) x
    rwa [sub_add_cancel] at this
  have e1 : (2 : ℚ) ^ (-53 : Int) ≤ 1 / 2 := by norm_num
  have e2 : (2 : ℚ) ^ (-1075 : Int) ≤ 1 := by norm_num
  have h3 : 2 ^ (-53 : Int) * |x| ≤ 1 / 2 * |x| := mul_le_mul_of_nonneg_right e1 (abs_nonneg _)
  have e3 : (3 / 2 : ℚ) * 2 ^ 999 + 1 ≤ 2 ^ 1000 := by norm_num
  have h4 : |fl x| ≤ 3 / 2 * |x| + 1 := by
    generalize (2 : ℚ) ^ (-53 : Int) * |x| = s at *
    generalize (2 : ℚ) ^ (-1075 : Int) = t at *
    generalize (2 : ℚ) ^ 999 = r at *
    clear h e3
    linarith
  exact h4.trans ((add_le_add (mul_le_mul_of_nonneg_left h (by norm_num)) le_rfl).trans e3)

end Geo
