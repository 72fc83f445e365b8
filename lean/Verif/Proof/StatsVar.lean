import Verif.Proof.StatsDouble
import Verif.Spec.StatsVar
import Verif.Proof.GeometryDouble
import Verif.Proof.GeometryRel

/-! # Lemmas about the accuracy of variances in binary64 -/

namespace Stats
open Cpp

theorem fl_err' (x : ℚ) : |fl x - x| ≤ u * |x| + 2 ^ (-1075 : Int) := by
  have he := Geo.fl_err x
  rwa [show (2 : ℚ) ^ (-53 : Int) = u by unfold u; rw [zpow_neg, one_div, zpow_ofNat]] at he

/-- the square of a rounded number, rounded -/
theorem square_err (y d : ℚ) (hd : |d - y| ≤ u * |y|) :
    0 ≤ fl (d * d) ∧ |fl (d * d) - y ^ 2| ≤ 4 * u * y ^ 2 + 2 ^ (-1075 : Int) := by
  refine ⟨fl_nonneg (mul_self_nonneg d), ?_⟩
  have h1 := fl_err' (d * d)
  rw [abs_of_nonneg (mul_self_nonneg d)] at h1
  generalize (2 : ℚ) ^ (-1075 : Int) = η at *
  have hu0 := u_pos
  have hu1 := u_le
  have hy := abs_nonneg y
  have h2 : |d + y| ≤ (2 + u) * |y| := by
    have := abs_add_le (d - y) (2 * y)
    rw [show d - y + 2 * y = d + y by ring, abs_mul, abs_two] at this
    linarith
  have h3 : |d * d - y ^ 2| ≤ u * |y| * ((2 + u) * |y|) := by
    rw [show d * d - y ^ 2 = (d - y) * (d + y) by ring, abs_mul]
    exact mul_le_mul hd h2 (abs_nonneg _) (by positivity)
  have h4 : u * |y| * ((2 + u) * |y|) = (2 * u + u ^ 2) * y ^ 2 := by
    rw [← sq_abs y]; ring
  rw [h4] at h3
  obtain ⟨a1, a2⟩ := abs_le.1 h1
  obtain ⟨b1, b2⟩ := abs_le.1 h3
  have hy2 := sq_nonneg y
  generalize y ^ 2 = Y at *
  have hc : u * (d * d) ≤ u * ((1 + (2 * u + u ^ 2)) * Y) := mul_le_mul_of_nonneg_left (by linarith) hu0.le
  have hk : u * (1 + (2 * u + u ^ 2)) + (2 * u + u ^ 2) ≤ 4 * u := by unfold u; norm_num
  have hk' := mul_le_mul_of_nonneg_right hk hy2
  rw [abs_le]
  constructor <;> linarith

/-- the list of rounded squares of rounded differences -/
def sqs (m : ℚ) (xs : List ℚ) : List ℚ := xs.map fun x => fl (fl (x - m) * fl (x - m))

theorem sqs_err (m : ℚ) (hm : fl m = m) (xs : List ℚ) (hd : ∀ x ∈ xs, fl x = x) :
    |(sqs m xs).sum - (xs.map fun x => (x - m) ^ 2).sum| ≤
      4 * u * (xs.map fun x => (x - m) ^ 2).sum + xs.length * 2 ^ (-1075 : Int) := by
  induction xs with
  | nil => simp [sqs]
  | cons x xs ih =>
    have h1 := ih fun y hy => hd y (by simp [hy])
    obtain ⟨_, h2⟩ := square_err (x - m) (fl (x - m)) (fl_sub_rel (hd x (by simp)) hm)
    unfold sqs at h1 ⊢
    simp only [List.map_cons, List.sum_cons, List.length_cons, Nat.cast_add, Nat.cast_one]
    generalize (2 : ℚ) ^ (-1075 : Int) = η at *
    obtain ⟨a1, a2⟩ := abs_le.1 h1
    obtain ⟨b1, b2⟩ := abs_le.1 h2
    rw [abs_le]
    constructor <;> linarith

theorem sqs_fold (m : ℚ) (hm : fl m = m) (xs : List ℚ) (hd : ∀ x ∈ xs, fl x = x)
    (hb : ∀ x ∈ xs, |x - m| ≤ 2 ^ 440) (s : Dbl) :
    (xs.map Dbl.fin).foldl (fun s x => s + (x - .fin m) * (x - .fin m)) s =
      ((sqs m xs).map Dbl.fin).foldl (fun a b => a + b) s := by
  induction xs generalizing s with
  | nil => rfl
  | cons x xs ih =>
    have hx := hb x (by simp)
    have hp : (2 : ℚ) ^ 440 ≤ 2 ^ 1000 := pow_le_pow_right₀ (by norm_num) (by norm_num)
    have h1 : Dbl.fin x - Dbl.fin m = .fin (fl (x - m)) := by
      rw [sub_dbl, Geo.round_fin (hx.trans hp)]
    have hf : |fl (x - m)| ≤ 2 ^ 441 := by
      have h2 := fl_sub_rel (hd x (by simp)) hm
      have h3 := abs_add_le (fl (x - m) - (x - m)) (x - m)
      rw [sub_add_cancel] at h3
      have h4 : u * |x - m| ≤ 1 * |x - m| := mul_le_mul_of_nonneg_right (u_le.trans (by norm_num)) (abs_nonneg _)
      have e : (2 : ℚ) ^ 441 = 2 * 2 ^ 440 := by rw [← pow_succ']
      rw [e]
      generalize (2 : ℚ) ^ 440 = B at *
      linarith
    have h5 : Dbl.fin (fl (x - m)) * Dbl.fin (fl (x - m)) = .fin (fl (fl (x - m) * fl (x - m))) := by
      rw [mul_dbl, Geo.round_fin]
      rw [abs_mul]
      calc _ ≤ (2 : ℚ) ^ 441 * 2 ^ 441 := mul_le_mul hf hf (abs_nonneg _) (by positivity)
        _ = 2 ^ 882 := by rw [← pow_add]
        _ ≤ 2 ^ 1000 := pow_le_pow_right₀ (by norm_num) (by norm_num)
    simp only [sqs, List.map_cons, List.foldl_cons]
    rw [h1, h5]
    exact ih (fun y hy => hd y (by simp [hy])) (fun y hy => hb y (by simp [hy])) _

theorem sum_le_len (f : ℚ → ℚ) (xs : List ℚ) (B : ℚ) (h : ∀ x ∈ xs, f x ≤ B) : (xs.map f).sum ≤ xs.length * B := by
  induction xs with
  | nil => simp
  | cons x xs ih =>
    have h1 := ih fun y hy => h y (by simp [hy])
    have h2 := h x (by simp)
    simp only [List.map_cons, List.sum_cons, List.length_cons, Nat.cast_add, Nat.cast_one]
    linarith

/-- The computed sum of the squares of the differences to `m`. -/
theorem squares_err (m : ℚ) (hm : fl m = m) (xs : List ℚ) (hd : ∀ x ∈ xs, fl x = x)
    (hb : ∀ x ∈ xs, |x - m| ≤ 2 ^ 440) (hl : xs.length < 2 ^ 31) :
    ∃ q, (xs.map Dbl.fin).foldl (fun s x => s + (x - .fin m) * (x - .fin m)) (.fin 0) = .fin q ∧ fl q = q ∧ 0 ≤ q ∧
      q ≤ 2 ^ 920 ∧
      |q - (xs.map fun x => (x - m) ^ 2).sum| ≤
        (2 * xs.length + 5) * u * (xs.map fun x => (x - m) ^ 2).sum + xs.length * 2 ^ (-1074 : Int) := by
  have hu0 := u_pos
  have hnn : ∀ p ∈ sqs m xs, 0 ≤ p := by
    intro p hp
    obtain ⟨x, _, rfl⟩ := List.mem_map.1 hp
    exact fl_nonneg (mul_self_nonneg _)
  have habs : (sqs m xs).map abs = sqs m xs := by
    conv_rhs => rw [← List.map_id (sqs m xs)]
    exact List.map_congr_left fun p hp => abs_of_nonneg (hnn p hp)
  have hlen : (sqs m xs).length = xs.length := by simp [sqs]
  have hS0 : 0 ≤ (xs.map fun x => (x - m) ^ 2).sum := sum_sq_nonneg xs m
  have hP0 : 0 ≤ (sqs m xs).sum := List.sum_nonneg hnn
  have hP := sqs_err m hm xs hd
  have hn : (xs.length : ℚ) ≤ 2 ^ 31 := by exact_mod_cast hl.le
  have hn0 : (0 : ℚ) ≤ xs.length := Nat.cast_nonneg _
  have hS : (xs.map fun x => (x - m) ^ 2).sum ≤ 2 ^ 911 := by
    have h1 := sum_le_len (fun x => (x - m) ^ 2) xs (2 ^ 880) (fun x hx => by
      have := hb x hx
      calc (x - m) ^ 2 = |x - m| ^ 2 := (sq_abs _).symm
        _ ≤ (2 ^ 440) ^ 2 := pow_le_pow_left₀ (abs_nonneg _) this 2
        _ = 2 ^ 880 := by rw [← pow_mul])
    refine h1.trans ?_
    calc (xs.length : ℚ) * 2 ^ 880 ≤ 2 ^ 31 * 2 ^ 880 := mul_le_mul_of_nonneg_right hn (by positivity)
      _ = 2 ^ 911 := by rw [← pow_add]
  have hη : (2 : ℚ) ^ (-1074 : Int) = 2 * 2 ^ (-1075 : Int) := by
    rw [show (-1074 : Int) = 1 + (-1075) by norm_num, zpow_add₀ (by norm_num), zpow_one]
  have hη0 : (0 : ℚ) < 2 ^ (-1075 : Int) := by positivity
  have hη1 : (2 : ℚ) ^ (-1075 : Int) ≤ 1 := zpow_le_one_of_nonpos₀ (by norm_num) (by norm_num)
  have e911 : (2 : ℚ) ^ 920 = 2 ^ 9 * 2 ^ 911 := by rw [← pow_add]
  have e31 : (2 : ℚ) ^ 31 ≤ 2 ^ 911 := pow_le_pow_right₀ (by norm_num) (by norm_num)
  have e1000 : (2 : ℚ) ^ 920 ≤ 2 ^ 1000 := pow_le_pow_right₀ (by norm_num) (by norm_num)
  have hnu : (xs.length : ℚ) * u ≤ 1 / 2 ^ 22 := by
    calc (xs.length : ℚ) * u ≤ 2 ^ 31 * u := mul_le_mul_of_nonneg_right hn hu0.le
      _ ≤ _ := by unfold u; norm_num
  have hu1 := u_le
  rw [hη]
  generalize (2 : ℚ) ^ (-1075 : Int) = η at *
  obtain ⟨a1, a2⟩ := abs_le.1 hP
  have hnη : (xs.length : ℚ) * η ≤ 2 ^ 31 := by
    calc (xs.length : ℚ) * η ≤ xs.length * 1 := mul_le_mul_of_nonneg_left hη1 hn0
      _ ≤ _ := by linarith
  have hPb : (sqs m xs).sum ≤ 4 * 2 ^ 911 := by
    have h1 : 4 * u * (xs.map fun x => (x - m) ^ 2).sum ≤ 1 * (xs.map fun x => (x - m) ^ 2).sum :=
      mul_le_mul_of_nonneg_right (by linarith) hS0
    clear e911 e1000
    generalize (2 : ℚ) ^ 911 = B at *
    linarith
  obtain ⟨q, h1, h2, h3⟩ := sum_err (sqs m xs) (fun p hp => by
    obtain ⟨x, _, rfl⟩ := List.mem_map.1 hp
    exact fl_idem _) (by omega) (by
      rw [habs]
      generalize (2 : ℚ) ^ 1000 = C at *
      generalize (2 : ℚ) ^ 920 = A at *
      generalize (2 : ℚ) ^ 911 = B at *
      linarith)
  rw [habs, hlen] at h3
  have hnu2 : (xs.length : ℚ) * (2 * u) * (sqs m xs).sum ≤ 1 / 2 ^ 21 * (sqs m xs).sum :=
    mul_le_mul_of_nonneg_right (by linarith) hP0
  obtain ⟨c1, c2⟩ := abs_le.1 h3
  refine ⟨q, by rw [sqs_fold m hm xs hd hb]; exact h1, h2, ?_, ?_, ?_⟩
  · clear e911 e1000 e31 hS hPb
    linarith
  · clear e1000
    generalize (2 : ℚ) ^ 920 = A at *
    generalize (2 : ℚ) ^ 911 = B at *
    linarith
  · clear h1 h2 hS hPb e911 e31 e1000 hnu2
    generalize (sqs m xs).sum = P at *
    generalize (xs.map fun x => (x - m) ^ 2).sum = S at *
    generalize (xs.length : ℚ) = k at *
    have hP1 : P ≤ (1 + 4 * u) * S + k * η := by linarith
    have d1 : k * (2 * u) * P ≤ k * (2 * u) * ((1 + 4 * u) * S + k * η) :=
      mul_le_mul_of_nonneg_left hP1 (by positivity)
    have d2 : k * (2 * u) * ((1 + 4 * u) * S + k * η) = 2 * k * u * S + 8 * (k * u) * (u * S) + 2 * (k * u) * (k * η) := by
      ring
    have d3 : 8 * (k * u) * (u * S) ≤ 1 * (u * S) := mul_le_mul_of_nonneg_right (by linarith) (by positivity)
    have d4 : 2 * (k * u) * (k * η) ≤ 1 * (k * η) := mul_le_mul_of_nonneg_right (by linarith) (by positivity)
    rw [abs_le]
    constructor <;> linarith

/-- The sum of the squares of the differences, divided by `N`. -/
theorem quotient_err (m : ℚ) (hm : fl m = m) (xs : List ℚ) (hd : ∀ x ∈ xs, fl x = x)
    (hb : ∀ x ∈ xs, |x - m| ≤ 2 ^ 440) (hl : xs.length < 2 ^ 31) (N : Int) (hN : 1 ≤ N) (hN' : N < 2 ^ 31)
    (hNn : (xs.length : Int) ≤ 2 * N) :
    ∃ q, (xs.map Dbl.fin).foldl (fun s x => s + (x - .fin m) * (x - .fin m)) (.fin 0) / ((N : Int) : Dbl) = .fin q ∧
      fl q = q ∧ 0 ≤ q ∧ q ≤ 2 ^ 921 ∧
      |q - (xs.map fun x => (x - m) ^ 2).sum / N| ≤
        (2 * xs.length + 7) * u * ((xs.map fun x => (x - m) ^ 2).sum / N) + 2 ^ (-1072 : Int) := by
  obtain ⟨q, h1, h2, h3, h4, h5⟩ := squares_err m hm xs hd hb hl
  have hu0 := u_pos
  have hN1 : (1 : ℚ) ≤ N := by exact_mod_cast hN
  have hN0 : (0 : ℚ) < N := by linarith
  have hqN : 0 ≤ q / N := div_nonneg h3 hN0.le
  have hqN' : q / N ≤ 2 ^ 920 := (div_le_self h3 hN1).trans h4
  have e0 : (2 : ℚ) ^ 920 ≤ 2 ^ 1000 := pow_le_pow_right₀ (by norm_num) (by norm_num)
  have e1 : (2 : ℚ) ^ 921 = 2 * 2 ^ 920 := by rw [← pow_succ']
  have e2 : (1 : ℚ) ≤ 2 ^ 920 := one_le_pow₀ (by norm_num)
  have he := fl_err' (q / N)
  rw [abs_of_nonneg hqN] at he
  have hη : (2 : ℚ) ^ (-1074 : Int) = 2 * 2 ^ (-1075 : Int) := by
    rw [show (-1074 : Int) = 1 + (-1075) by norm_num, zpow_add₀ (by norm_num), zpow_one]
  have hη2 : (2 : ℚ) ^ (-1072 : Int) = 8 * 2 ^ (-1075 : Int) := by
    rw [show (-1072 : Int) = 3 + (-1075) by norm_num, zpow_add₀ (by norm_num)]; norm_num
  have hη0 : (0 : ℚ) < 2 ^ (-1075 : Int) := by positivity
  have hη1 : (2 : ℚ) ^ (-1075 : Int) ≤ 1 := zpow_le_one_of_nonpos₀ (by norm_num) (by norm_num)
  have hS0 : 0 ≤ (xs.map fun x => (x - m) ^ 2).sum := sum_sq_nonneg xs m
  have hn0 : (0 : ℚ) ≤ xs.length := Nat.cast_nonneg _
  have hn : (xs.length : ℚ) ≤ 2 ^ 31 := by exact_mod_cast hl.le
  have hnN : (xs.length : ℚ) / N ≤ 2 := by
    rw [div_le_iff₀ hN0]
    exact_mod_cast hNn
  have hnu : (2 * (xs.length : ℚ) + 5) * u ≤ 1 / 2 := by
    calc (2 * (xs.length : ℚ) + 5) * u ≤ (2 * 2 ^ 31 + 5) * u := by gcongr
      _ ≤ _ := by unfold u; norm_num
  have hu1 := u_le
  refine ⟨fl (q / N), ?_, fl_idem _, fl_nonneg hqN, ?_, ?_⟩
  · rw [h1, cast_dbl (by rw [abs_of_pos (by omega)]; omega), div_dbl hN0.ne', Geo.round_fin]
    rw [abs_of_nonneg hqN]
    exact hqN'.trans e0
  · have := mul_le_mul_of_nonneg_right (u_le.trans (by norm_num : (1 / 4 : ℚ) ≤ 1 / 2)) hqN
    rw [e1]
    obtain ⟨a1, a2⟩ := abs_le.1 he
    generalize (2 : ℚ) ^ (-1075 : Int) = η at *
    generalize hB : (2 : ℚ) ^ 920 = B at *
    have : (4 : ℚ) ≤ B := by
      rw [← hB]
      calc (4 : ℚ) = 2 ^ 2 := by norm_num
        _ ≤ 2 ^ 920 := pow_le_pow_right₀ (by norm_num) (by norm_num)
    clear hB e0 e1 hη hη2 h5
    linarith
  · rw [hη] at h5
    rw [hη2]
    clear h1 h2 h4 e0 e1 e2 hqN'
    generalize (2 : ℚ) ^ (-1075 : Int) = η at *
    generalize (xs.map fun x => (x - m) ^ 2).sum = S at *
    have h6 : |q / N - S / N| ≤ (2 * xs.length + 5) * u * (S / N) + 4 * η := by
      rw [← sub_div, abs_div, abs_of_pos hN0]
      have : |q - S| / N ≤ ((2 * xs.length + 5) * u * S + xs.length * (2 * η)) / N := by gcongr
      refine this.trans ?_
      rw [add_div, mul_div_assoc]
      have : (xs.length : ℚ) * (2 * η) / N = (xs.length : ℚ) / N * (2 * η) := by ring
      rw [this]
      have := mul_le_mul_of_nonneg_right hnN (by linarith : 0 ≤ 2 * η)
      linarith
    have hT0 : 0 ≤ S / N := div_nonneg hS0 hN0.le
    generalize q / (N : ℚ) = r at *
    generalize S / (N : ℚ) = T at *
    generalize (xs.length : ℚ) = k at *
    obtain ⟨a1, a2⟩ := abs_le.1 he
    obtain ⟨b1, b2⟩ := abs_le.1 h6
    have h7 : (2 * k + 5) * u * T ≤ 1 / 2 * T := mul_le_mul_of_nonneg_right hnu hT0
    have h8 : u * r ≤ u * (2 * T + 4 * η) := mul_le_mul_of_nonneg_left (by linarith) hu0.le
    have h9 : u * η ≤ 1 / 4 * η := mul_le_mul_of_nonneg_right hu1 hη0.le
    rw [abs_le]
    constructor <;> linarith

/-- the sum of the squares of the differences to any number -/
theorem shift_mean (xs : List ℚ) (h : xs ≠ []) (m : ℚ) :
    (xs.map fun x => (x - m) ^ 2).sum = Spec.deviation xs + xs.length * (m - Spec.mean xs) ^ 2 := by
  unfold Spec.deviation
  rw [deviation_expand, deviation_expand]
  have := len_ne h
  have e : xs.sum = xs.length * Spec.mean xs := by unfold Spec.mean; field_simp
  rw [e]
  ring

/-- the correctly rounded square root of a double -/
theorem sqrt_err {q : ℚ} (h0 : 0 ≤ q) (hd : fl q = q) (hb : q ≤ 2 ^ 921) :
    ∃ r : ℚ, Rand.Libm.dbl.sqrt (.fin q) = .fin r ∧ 0 ≤ r ∧ |r ^ 2 - q| ≤ 3 * u * q := by
  have hs0 := Real.sqrt_nonneg (q : ℝ)
  have hq0 : (0 : ℝ) ≤ q := by exact_mod_cast h0
  have hsq := Real.sq_sqrt hq0
  have hb' : Real.sqrt (q : ℝ) ≤ ((2 ^ 461 : ℚ) : ℝ) := by
    apply Real.sqrt_le_iff.2
    refine ⟨by positivity, ?_⟩
    have h1 : (q : ℝ) ≤ ((2 ^ 921 : ℚ) : ℝ) := by exact_mod_cast hb
    refine h1.trans ?_
    push_cast
    rw [← pow_mul]
    exact pow_le_pow_right₀ (by norm_num) (by norm_num)
  have f461 : fl ((2 : ℚ) ^ 461) = 2 ^ 461 := by
    have := fl_exact (m := 1) (k := 461) (by norm_num) (by norm_num)
    rw [Int.cast_one, one_mul] at this
    exact_mod_cast this
  have hf0 : 0 ≤ fl (Real.sqrt (q : ℝ)) := fl_nonneg hs0
  have hf1 : fl (Real.sqrt (q : ℝ)) ≤ 2 ^ 461 := by
    have := fl_mono hb'
    rwa [fl_cast, f461] at this
  refine ⟨fl (Real.sqrt (q : ℝ)), ?_, hf0, ?_⟩
  · show (if q < 0 then .nan else Dbl.round (Real.sqrt (q : ℝ))) = _
    rw [if_neg (not_lt.2 h0)]
    unfold Dbl.round
    rw [if_neg]
    rw [abs_of_nonneg hf0, not_le]
    exact hf1.trans_lt (pow_lt_pow_right₀ (by norm_num) (by norm_num))
  · rcases h0.eq_or_lt with hz | hpos
    · rw [← hz]
      simp [fl_zero]
    obtain ⟨m, hm⟩ := double_mul hd
    have hp : (0 : ℚ) < 2 ^ (-1074 : Int) := by positivity
    have hm1 : (1 : ℚ) ≤ m := by
      have : 0 < (m : ℚ) := by
        by_contra hc
        push Not at hc
        have := mul_nonpos_of_nonpos_of_nonneg hc hp.le
        linarith
      have : 0 < m := by exact_mod_cast this
      exact_mod_cast this
    have hq1 : (2 : ℚ) ^ (-1074 : Int) ≤ q := by
      rw [hm]
      have := mul_le_mul_of_nonneg_right hm1 hp.le
      rwa [one_mul] at this
    have hs : (2 : ℝ) ^ (-1022 : Int) ≤ |Real.sqrt (q : ℝ)| := by
      rw [abs_of_nonneg hs0]
      apply Real.le_sqrt_of_sq_le
      have h1 : ((2 ^ (-1074 : Int) : ℚ) : ℝ) ≤ (q : ℝ) := by exact_mod_cast hq1
      refine le_trans ?_ h1
      push_cast
      rw [← zpow_natCast, ← zpow_mul]
      exact zpow_le_zpow_right₀ (by norm_num) (by norm_num)
    have hr := Geo.Acc.fl_rel hs
    rw [abs_of_nonneg hs0] at hr
    have eu : ((u : ℚ) : ℝ) = Geo.Acc.u := by
      rw [← Geo.Acc.u_eq]; unfold u; push_cast; rw [zpow_neg, one_div, zpow_ofNat]
    rw [← eu] at hr
    have hu0 : (0 : ℝ) < (u : ℚ) := by exact_mod_cast u_pos
    have hu1 : ((u : ℚ) : ℝ) ≤ 1 := by exact_mod_cast u_le.trans (by norm_num)
    suffices h : |((fl (Real.sqrt (q : ℝ)) : ℚ) : ℝ) ^ 2 - q| ≤ 3 * (u : ℚ) * q by exact_mod_cast h
    generalize ((fl (Real.sqrt (q : ℝ)) : ℚ) : ℝ) = r at *
    generalize ((u : ℚ) : ℝ) = w at *
    rw [← hsq]
    generalize Real.sqrt (q : ℝ) = s at *
    rw [show r ^ 2 - s ^ 2 = (r - s) * (r + s) by ring, abs_mul]
    have h2 : |r + s| ≤ 3 * s := by
      have := abs_add_le (r - s) (2 * s)
      rw [show r - s + 2 * s = r + s by ring, abs_of_nonneg (by linarith : 0 ≤ 2 * s)] at this
      have := mul_le_mul_of_nonneg_right hu1 hs0
      linarith
    calc |r - s| * |r + s| ≤ w * s * (3 * s) := mul_le_mul hr h2 (abs_nonneg _) (by positivity)
      _ = 3 * w * s ^ 2 := by ring

/-- variance and standard deviation, from a computed mean that is off by at most `e` -/
theorem within (m : ℚ) (hm : fl m = m) (xs : List ℚ) (hne : xs ≠ []) (hd : ∀ x ∈ xs, fl x = x)
    (hb : ∀ x ∈ xs, |x - m| ≤ 2 ^ 440) (hl : xs.length < 2 ^ 31) (N : Int) (hN : 1 ≤ N) (hN' : N < 2 ^ 31)
    (c : ℚ) (hc : c = 1 ∨ c = 2) (hNn : (xs.length : ℚ) ≤ c * N) (e : ℚ) (he : |m - Spec.mean xs| ≤ e) :
    ∃ q d, (xs.map Dbl.fin).foldl (fun s x => s + (x - .fin m) * (x - .fin m)) (.fin 0) / ((N : Int) : Dbl) = .fin q ∧
      Rand.Libm.dbl.sqrt (.fin q) = .fin d ∧ 0 ≤ q ∧ 0 ≤ d ∧
      Spec.Within xs.length (2 * c) e q (Spec.deviation xs / N) ∧
      Spec.Within xs.length (2 * c) e (d ^ 2) (Spec.deviation xs / N) := by
  have hN1 : (1 : ℚ) ≤ N := by exact_mod_cast hN
  have hN0 : (0 : ℚ) < N := by linarith
  have hNn' : (xs.length : Int) ≤ 2 * N := by
    have : (xs.length : ℚ) ≤ 2 * N := by rcases hc with rfl | rfl <;> linarith
    exact_mod_cast this
  obtain ⟨q, h1, h2, h3, h4, h5⟩ := quotient_err m hm xs hd hb hl N hN hN' hNn'
  obtain ⟨d, h6, h7, h8⟩ := sqrt_err h3 h2 h4
  have hV0 : 0 ≤ Spec.deviation xs / N := div_nonneg (sum_sq_nonneg xs _) hN0.le
  have hT : (xs.map fun x => (x - m) ^ 2).sum / N ≤ Spec.deviation xs / N + c * e ^ 2 ∧
      Spec.deviation xs / N ≤ (xs.map fun x => (x - m) ^ 2).sum / N := by
    rw [shift_mean xs hne, add_div]
    have e0 : 0 ≤ (m - Spec.mean xs) ^ 2 := sq_nonneg _
    have e1 : (m - Spec.mean xs) ^ 2 ≤ e ^ 2 := by
      rw [← sq_abs]; exact pow_le_pow_left₀ (abs_nonneg _) he 2
    have e2 : (xs.length : ℚ) * (m - Spec.mean xs) ^ 2 / N ≤ c * e ^ 2 := by
      rw [div_le_iff₀ hN0]
      calc (xs.length : ℚ) * (m - Spec.mean xs) ^ 2 ≤ c * N * e ^ 2 :=
            mul_le_mul hNn e1 e0 ((Nat.cast_nonneg _).trans hNn)
        _ = _ := by ring
    have e3 : 0 ≤ (xs.length : ℚ) * (m - Spec.mean xs) ^ 2 / N :=
      div_nonneg (mul_nonneg (Nat.cast_nonneg _) e0) hN0.le
    constructor <;> linarith
  have hn : (xs.length : ℚ) ≤ 2 ^ 31 := by exact_mod_cast hl.le
  have hn0 : (0 : ℚ) ≤ xs.length := Nat.cast_nonneg _
  have hnu : (2 * (xs.length : ℚ) + 7) * u ≤ 1 / 2 ^ 10 := by
    calc (2 * (xs.length : ℚ) + 7) * u ≤ (2 * 2 ^ 31 + 7) * u := by have := u_pos; gcongr
      _ ≤ _ := by unfold u; norm_num
  have hu : u ≤ 1 / 2 ^ 10 := by unfold u; norm_num
  have hu0 := u_pos
  have hτ : (2 : ℚ) ^ (-1071 : Int) = 2 * 2 ^ (-1072 : Int) := by
    rw [show (-1071 : Int) = 1 + (-1072) by norm_num, zpow_add₀ (by norm_num), zpow_one]
  have hτ0 : (0 : ℚ) < 2 ^ (-1072 : Int) := by positivity
  have hE : 0 ≤ c * e ^ 2 := mul_nonneg (by rcases hc with rfl | rfl <;> norm_num) (sq_nonneg e)
  refine ⟨q, d, h1, h6, h3, h7, ?_⟩
  unfold Spec.Within
  have eu : ((xs.length : ℚ) + 6) / 2 ^ 52 = (2 * xs.length + 12) * u := by unfold u; ring
  rw [eu, hτ, mul_assoc 2 c]
  clear h1 h2 h4 h6 eu hτ
  generalize (2 : ℚ) ^ (-1072 : Int) = τ at *
  generalize c * e ^ 2 = E at *
  generalize (xs.map fun x => (x - m) ^ 2).sum / (N : ℚ) = T at *
  generalize Spec.deviation xs / (N : ℚ) = V at *
  generalize (xs.length : ℚ) = k at *
  obtain ⟨t1, t2⟩ := hT
  have k0 : 0 ≤ (2 * k + 7) * u := by positivity
  have g1 : (2 * k + 7) * u * T ≤ (2 * k + 7) * u * (V + E) := mul_le_mul_of_nonneg_left t1 k0
  have g2 : (2 * k + 7) * u * E ≤ 1 / 2 ^ 10 * E := mul_le_mul_of_nonneg_right hnu hE
  have g3 : (2 * k + 7) * u * T ≤ 1 / 2 ^ 10 * T := mul_le_mul_of_nonneg_right hnu (hV0.trans t2)
  have g4 : 0 ≤ u * V := mul_nonneg hu0.le hV0
  have g5 : u * E ≤ 1 / 2 ^ 10 * E := mul_le_mul_of_nonneg_right hu hE
  have g6 : u * τ ≤ 1 / 2 ^ 10 * τ := mul_le_mul_of_nonneg_right hu hτ0.le
  obtain ⟨a1, a2⟩ := abs_le.1 h5
  obtain ⟨b1, b2⟩ := abs_le.1 h8
  have g7 : u * q ≤ u * (3 / 2 * (V + E) + τ) := mul_le_mul_of_nonneg_left (by linarith) hu0.le
  constructor
  · rw [abs_le]
    constructor <;> linarith
  · rw [abs_le]
    constructor <;> linarith

end Stats
