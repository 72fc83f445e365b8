import Verif.Model.JsonConv
import Verif.Spec.JsonConv
import Verif.Proof.Double

/-! # Lemmas about the conversions and loops of `JSONObject` -/

namespace Json
open Cpp Spec

theorem intOf_range (i : Int) : -2 ^ 31 ≤ intOf i ∧ intOf i < 2 ^ 31 := by
  unfold intOf
  omega

theorem intOf_of_range {i : Int} (h : -2 ^ 31 ≤ i) (h' : i < 2 ^ 31) : intOf i = i := by
  unfold intOf
  omega

theorem intOf_mod (i : Int) : intOf i % 2 ^ 32 = i % 2 ^ 32 := by
  unfold intOf
  omega

theorem roundTiesEven_near (x : ℚ) (n : Int) : |roundTiesEven x - x| ≤ |n - x| := by
  have h1 := roundTiesEven_close x
  have h2 : |roundTiesEven x - x| ≤ 1 / 2 := by rw [abs_sub_comm]; exact h1
  by_cases h : n = roundTiesEven x
  · rw [h]
  · have h3 : (1 : ℚ) ≤ |(n : ℚ) - roundTiesEven x| := by
      rw [← Int.cast_sub, ← Int.cast_abs]
      exact_mod_cast Int.one_le_abs (sub_ne_zero.2 h)
    have h4 : |(n : ℚ) - roundTiesEven x| ≤ |n - x| + |x - roundTiesEven x| := by
      have := abs_add_le ((n : ℚ) - x) (x - roundTiesEven x)
      rwa [sub_add_sub_cancel] at this
    linarith

theorem lastBit32_le {x : ℚ} (h : 0 < x) (h' : -149 < lastBit32 x) : 2 ^ (lastBit32 x + 23) ≤ x := by
  have : lastBit32 x + 23 = Int.log 2 x := by
    unfold lastBit32 at *
    omega
  rw [this]
  exact_mod_cast Int.zpow_log_le_self (b := 2) (by norm_num) h

/-- the distance of the grid point `n * 2^e` -/
theorem flt32Pos_near_grid (x : ℚ) (n : Int) : |flt32Pos x - x| ≤ |(n : ℚ) * 2 ^ lastBit32 x - x| := by
  have hp : (0 : ℚ) < 2 ^ lastBit32 x := two_zpow_pos _
  have h := roundTiesEven_near (x / 2 ^ lastBit32 x) n
  have key : ∀ a : ℚ, |a * 2 ^ lastBit32 x - x| = |a - x / 2 ^ lastBit32 x| * 2 ^ lastBit32 x := by
    intro a
    rw [← abs_of_pos hp, ← abs_mul, abs_of_pos hp, sub_mul, div_mul_cancel₀ _ hp.ne']
  unfold flt32Pos
  rw [key, key]
  exact mul_le_mul_of_nonneg_right h hp.le

theorem flt32Pos_near {x : ℚ} (hx : 0 ≤ x) {m k : Int} (hm : |m| ≤ 2 ^ 24) (hk : -149 ≤ k) :
    |flt32Pos x - x| ≤ |(m : ℚ) * 2 ^ k - x| := by
  rcases hx.eq_or_lt with rfl | hx
  · have : flt32Pos 0 = 0 := by
      have := roundTiesEven_int (K := ℚ) 0
      unfold flt32Pos
      rw [zero_div]
      simp only [Int.cast_zero] at this
      rw [this]; simp
    rw [this, sub_zero, abs_zero]
    exact abs_nonneg _
  rcases le_or_gt (lastBit32 x) k with h | h
  · have := flt32Pos_near_grid x (m * 2 ^ (k - lastBit32 x).toNat)
    have e : ((m * 2 ^ (k - lastBit32 x).toNat : Int) : ℚ) * 2 ^ lastBit32 x = m * 2 ^ k := by
      push_cast
      rw [← zpow_natCast, Int.toNat_of_nonneg (by omega), mul_assoc, ← zpow_add₀ (by norm_num)]
      congr 2; ring
    rwa [e] at this
  · have h1 := lastBit32_le hx (by omega)
    have h2 : (m : ℚ) * 2 ^ k ≤ 2 ^ (lastBit32 x + 23) := by
      have hm' : (m : ℚ) ≤ 2 ^ (24 : Int) := by
        have : m ≤ 2 ^ 24 := (le_abs_self m).trans hm
        exact_mod_cast this
      calc (m : ℚ) * 2 ^ k ≤ 2 ^ (24 : Int) * 2 ^ k := mul_le_mul_of_nonneg_right hm' (two_zpow_pos k).le
        _ = 2 ^ (24 + k) := by rw [← zpow_add₀ (by norm_num)]
        _ ≤ _ := zpow_le_zpow_right₀ (by norm_num) (by omega)
    have h3 := flt32Pos_near_grid x (2 ^ 23)
    have e : ((2 ^ 23 : Int) : ℚ) * 2 ^ lastBit32 x = 2 ^ (lastBit32 x + 23) := by
      rw [zpow_add₀ (by norm_num), mul_comm]
      norm_num
    rw [e] at h3
    refine h3.trans ?_
    rw [abs_sub_comm, abs_of_nonneg (by linarith), abs_sub_comm, abs_of_nonneg (by linarith)]
    linarith

theorem flt32_near (x : ℚ) {m k : Int} (hm : |m| ≤ 2 ^ 24) (hk : -149 ≤ k) : |flt32 x - x| ≤ |(m : ℚ) * 2 ^ k - x| := by
  unfold flt32
  split_ifs with h
  · have := flt32Pos_near (x := -x) (by linarith) (m := -m) (by rwa [abs_neg]) hk
    rw [← abs_neg, ← abs_neg ((m : ℚ) * 2 ^ k - x)]
    convert this using 2
    · ring
    · push_cast; ring
  · exact flt32Pos_near (by linarith) hm hk

theorem flt32_exact {q : ℚ} (h : IsFloat q) : flt32 q = q := by
  obtain ⟨m, k, hm, hk, rfl, _⟩ := h
  have := flt32_near ((m : ℚ) * 2 ^ k) hm hk
  rw [sub_self, abs_zero] at this
  exact sub_eq_zero.1 (abs_nonpos_iff.1 this)

theorem lt_lastBit32 (x : ℚ) : x < 2 ^ (lastBit32 x + 24) := by
  have h := Int.lt_zpow_succ_log_self (b := 2) (by norm_num) x
  refine lt_of_lt_of_le (by exact_mod_cast h) (zpow_le_zpow_right₀ (by norm_num) ?_)
  unfold lastBit32
  omega

theorem flt32_repr (x : ℚ) : ∃ m k : Int, |m| ≤ 2 ^ 24 ∧ -149 ≤ k ∧ flt32 x = m * 2 ^ k := by
  have key : ∀ y : ℚ, 0 ≤ y → ∃ m k : Int, |m| ≤ 2 ^ 24 ∧ -149 ≤ k ∧ flt32Pos y = m * 2 ^ k := by
    intro y hy
    refine ⟨roundTiesEven (y / 2 ^ lastBit32 y), lastBit32 y, ?_, le_max_right _ _, rfl⟩
    have h0 : 0 ≤ roundTiesEven (y / 2 ^ lastBit32 y) := roundTiesEven_nonneg (div_nonneg hy (two_zpow_pos _).le)
    rw [abs_of_nonneg h0]
    apply roundTiesEven_le
    rw [div_le_iff₀ (two_zpow_pos _)]
    have hx := lt_lastBit32 y
    rw [zpow_add₀ (by norm_num)] at hx
    push_cast
    calc y ≤ _ := hx.le
      _ = _ := by rw [mul_comm]; norm_num
  unfold flt32
  split
  · obtain ⟨m, k, h1, h2, h3⟩ := key (-x) (by linarith)
    exact ⟨-m, k, by rwa [abs_neg], h2, by rw [h3]; push_cast; ring⟩
  · obtain ⟨m, k, h1, h2, h3⟩ := key x (by linarith)
    exact ⟨m, k, h1, h2, h3⟩

theorem toFloat_fin {q r : ℚ} (h : toFloat (.float q) = .fin r) : IsFloat r ∧ r = flt32 q := by
  simp only [toFloat] at h
  split_ifs at h with hc
  cases h
  obtain ⟨m, k, h1, h2, h3⟩ := flt32_repr q
  exact ⟨⟨m, k, h1, h2, h3, by push Not at hc; exact hc⟩, rfl⟩

theorem loop_each {α σ : Type} (body : σ → α → Out (σ × α)) : ∀ (l done : List α) (st : σ) (fuel : Nat), l.length < fuel →
    Range.loop body (.pos (done.length + l.length)) fuel (.pos done.length) st (.some (done ++ l)) =
      (each body st l >>= fun r => .ok (r.1, .some (done ++ r.2)))
  | [], done, st, fuel, hf => by
    obtain ⟨f, rfl⟩ : ∃ f, fuel = f + 1 := ⟨fuel - 1, by simp at hf; omega⟩
    simp [Range.loop, each, Out.ok_bind]
  | x :: l, done, st, fuel, hf => by
    obtain ⟨f, rfl⟩ : ∃ f, fuel = f + 1 := ⟨fuel - 1, by simp at hf; omega⟩
    have h1 : ¬ (Iter.pos done.length = Iter.pos (done.length + (x :: l).length)) := by simp
    have h2 : (done ++ x :: l)[done.length]? = some x := by simp
    simp only [Range.loop, if_neg h1, h2, each]
    cases hb : body st x with
    | ok r =>
      obtain ⟨st', x'⟩ := r
      simp only [Out.ok_bind]
      have h3 : (done ++ x :: l).set done.length x' = (done ++ [x']) ++ l := by simp
      have := loop_each body l (done ++ [x']) st' f (by simp at hf; omega)
      rw [h3]
      have h4 : (done ++ [x']).length = done.length + 1 := by simp
      rw [h4] at this
      rw [show done.length + (x :: l).length = done.length + 1 + l.length by simp; omega, this]
      cases each body st' l with
      | ok r => simp [Out.ok_bind]
      | exit => rfl
      | ub => rfl
      | diverge => rfl
    | exit => rfl
    | ub => rfl
    | diverge => rfl

theorem forEach_some {α σ : Type} (body : σ → α → Out (σ × α)) (l : List α) (st : σ) {fuel : Nat} (hf : l.length < fuel) :
    Range.forEach fuel (.some l) body st = (each body st l >>= fun r => .ok (r.1, .some r.2)) := by
  have := loop_each body l [] st fuel hf
  simpa [Range.forEach, Range.end, Range.begin] using this

theorem beginConst_diverge {α : Type} (r : Range α) : ∀ fuel, r.beginConst fuel = .diverge
  | 0 => rfl
  | n + 1 => beginConst_diverge r n

theorem endConst_diverge {α : Type} (r : Range α) : ∀ fuel, r.endConst fuel = .diverge
  | 0 => rfl
  | n + 1 => endConst_diverge r n

end Json
