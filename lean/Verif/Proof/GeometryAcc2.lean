import Verif.Proof.GeometryAcc

/-! # Accuracy in binary64: grids, dot products, cross products -/

set_option exponentiation.threshold 2000

namespace Geo.Acc
open Cpp Geo Geo.Spec

variable {N : Nat}

/-- a multiple of `2^k` -/
def Grid (k : Int) (x : ℚ) : Prop := ∃ i : Int, x = i * 2 ^ k

variable {k : Int} {x y : ℚ}

theorem Grid.big (h : Grid k x) : Big k (x : ℝ) := by
  obtain ⟨i, rfl⟩ := h
  rcases eq_or_ne i 0 with h0 | h0
  · left; rw [h0]; push_cast; ring
  · right
    push_cast
    have h1 : (1 : ℝ) ≤ |(i : ℝ)| := by exact_mod_cast Int.one_le_abs h0
    have h2 : (0 : ℝ) < 2 ^ k := two_zpow_pos _
    rw [abs_mul, abs_of_pos h2]
    nlinarith

theorem Grid.add (h : Grid k x) (h' : Grid k y) : Grid k (x + y) := by
  obtain ⟨i, rfl⟩ := h
  obtain ⟨j, rfl⟩ := h'
  exact ⟨i + j, by push_cast; ring⟩

theorem Grid.neg (h : Grid k x) : Grid k (-x) := by
  obtain ⟨i, rfl⟩ := h
  exact ⟨-i, by push_cast; ring⟩

theorem Grid.sub (h : Grid k x) (h' : Grid k y) : Grid k (x - y) := by
  rw [sub_eq_add_neg]; exact h.add h'.neg

theorem Grid.mul {k' : Int} (h : Grid k x) (h' : Grid k' y) : Grid (k + k') (x * y) := by
  obtain ⟨i, rfl⟩ := h
  obtain ⟨j, rfl⟩ := h'
  exact ⟨i * j, by rw [zpow_add₀ (by norm_num)]; push_cast; ring⟩

theorem Grid.mono {k' : Int} (h : Grid k x) (hk : k' ≤ k) : Grid k' x := by
  obtain ⟨i, rfl⟩ := h
  refine ⟨i * 2 ^ (k - k').toNat, ?_⟩
  push_cast
  rw [mul_assoc, ← zpow_natCast, Int.toNat_of_nonneg (by omega), ← zpow_add₀ (by norm_num)]
  congr 2
  ring

theorem Grid.zero (k : Int) : Grid k 0 := ⟨0, by simp⟩

theorem Grid.flPos (h : Grid k x) : Grid k (Cpp.flPos x) := by
  rcases le_total k (lastBit x) with hk | hk
  · have : Grid (lastBit x) (Cpp.flPos x) := ⟨_, rfl⟩
    exact this.mono hk
  · have h2 := h.mono hk
    obtain ⟨i, hi⟩ := h2
    have e : Cpp.flPos x = x := by
      unfold Cpp.flPos
      have hp : (2 : ℚ) ^ lastBit x ≠ 0 := (two_zpow_pos _).ne'
      have : x / 2 ^ lastBit x = (i : ℚ) := by rw [div_eq_iff hp]; exact hi
      rw [this, roundTiesEven_int, ← hi]
    rw [e]
    exact h

theorem Grid.fl (h : Grid k x) : Grid k (Cpp.fl x) := by
  unfold Cpp.fl
  split
  · exact h.neg.flPos.neg
  · exact h.flPos

theorem Grid.rel (h : Grid k x) (hk : -1022 ≤ k) : Rel 1 (x : ℝ) ((Cpp.fl x : ℚ) : ℝ) := h.big.relq hk

theorem grid_of_moderate (h : Moderate x) : Grid (-452) x := by
  obtain ⟨⟨m, k, hm, _, _, e⟩, hr⟩ := h
  rcases hr with hr | hr
  · rw [hr]; exact Grid.zero _
  have hk : -452 ≤ k := by
    by_contra hc
    have h1 : |x| < 1 / 2 ^ 400 := by
      rw [e, abs_mul, abs_of_pos (show (0 : ℚ) < 2 ^ k from two_zpow_pos k)]
      have h2 : |(m : ℚ)| < 2 ^ 53 := by exact_mod_cast hm
      have h3 : (2 : ℚ) ^ k ≤ 2 ^ (-453 : Int) := zpow_le_zpow_right₀ (by norm_num) (by omega)
      have h4 : (2 : ℚ) ^ 53 * 2 ^ (-453 : Int) = 1 / 2 ^ 400 := by norm_num
      rw [← h4]
      exact mul_lt_mul h2 h3 (two_zpow_pos _) (by norm_num)
    exact absurd hr.1 (not_le.2 h1)
  exact Grid.mono (k := k) ⟨m, e⟩ hk

theorem moderate_le (h : Moderate x) : |(x : ℝ)| ≤ 2 ^ 400 := by
  rcases h.2 with h | h
  · rw [h, Rat.cast_zero, abs_zero]; positivity
  · exact_mod_cast h.2

/-- the loop of the dot product: `q` is `Q` up to `e` roundings -/
theorem fold_dot (p q : Fin N → ℚ) (Q : Fin N → ℝ) {e : Nat} (hp : ∀ i, Grid (-452) (p i)) (hq : ∀ i, Grid (-452) (q i))
    (hQ : ∀ i, Rel e (Q i) (q i)) :
    ∀ (l : List (Fin N)) (m : Nat) (A S : ℝ) (a : ℚ), e + 1 ≤ m → |A| ≤ S → |(a : ℝ) - A| ≤ ((1 + u) ^ m - 1) * S → Grid (-904) a →
      S + (l.map fun i => |p i * Q i|).sum ≤ 2 ^ 900 → m + l.length ≤ 2 ^ 24 →
      ∃ z : ℚ, l.foldl (fun ret i => ret + Dbl.fin (p i) * Dbl.fin (q i)) (Dbl.fin a) = .fin z ∧
        |(z : ℝ) - (A + (l.map fun i => p i * Q i).sum)| ≤ ((1 + u) ^ (m + l.length) - 1) * (S + (l.map fun i => |p i * Q i|).sum) ∧
        Grid (-904) z
  | [], m, A, S, a, _, _, h, hb', _, _ => ⟨a, rfl, by simpa using h, hb'⟩
  | i :: l, m, A, S, a, hm, hA, h, ha, hup, hlen => by
    simp only [List.map_cons, List.sum_cons, List.length_cons] at hup hlen
    have hl : 0 ≤ (l.map fun i => |p i * Q i|).sum := List.sum_nonneg (by
      intro x hx
      obtain ⟨j, _, rfl⟩ := List.mem_map.1 hx
      exact abs_nonneg _)
    have bb : (4 : ℝ) * 2 ^ 900 ≤ 2 ^ 1000 := by norm_num
    have hS : 0 ≤ S := (abs_nonneg _).trans hA
    set x : ℝ := p i * Q i with hx
    have hx0 := abs_nonneg x
    -- the product
    have hpr : Rel e x ((p i * q i : ℚ) : ℝ) := by
      have := (Rel.refl (p i : ℝ)).mul (hQ i)
      rw [zero_add] at this
      push_cast
      exact this
    have hgr : Grid (-904) (p i * q i) := (hp i).mul (hq i)
    set s : ℚ := fl (p i * q i) with hs
    have hs1 : Rel m x s := (hpr.trans (hgr.rel (by norm_num))).mono hm
    have hs2 : Grid (-904) s := hgr.fl
    have hm2 : m ≤ 2 ^ 24 := by omega
    have e1 : Dbl.fin (p i) * Dbl.fin (q i) = Dbl.fin s := by
      show Dbl.round (p i * q i) = _
      apply roundq
      refine (hpr.double (by omega)).trans (le_trans ?_ bb)
      generalize (2 : ℝ) ^ 900 = B at *
      linarith
    have hs3 : |(s : ℝ) - x| ≤ ((1 + u) ^ m - 1) * |x| := by
      obtain ⟨t, h1, h2, h3⟩ := hs1
      rw [h3, show x * t - x = (t - 1) * x by ring, abs_mul]
      apply mul_le_mul_of_nonneg_right _ (abs_nonneg _)
      have h4 := lo_ge m
      have h5 := one_add_mul_le_pow (a := u) (by linarith [u_pos]) m
      rw [abs_le]
      constructor <;> linarith
    have hmu := hi_le hm2
    have hmu2 := small_u hm2
    have hg := hi_ge m
    set G := (1 + u) ^ m with hG
    -- the sum
    have hsum : |((a + s : ℚ) : ℝ) - (A + x)| ≤ (G - 1) * (S + |x|) := by
      push_cast
      have := abs_add_le ((a : ℝ) - A) (s - x)
      rw [show (a : ℝ) + s - (A + x) = (a - A) + (s - x) by ring]
      linarith
    have hAx : |A + x| ≤ S + |x| := (abs_add_le _ _).trans (by linarith)
    have habs : |((a + s : ℚ) : ℝ)| ≤ G * (S + |x|) := by
      have := abs_add_le (((a + s : ℚ) : ℝ) - (A + x)) (A + x)
      rw [sub_add_cancel] at this
      linarith
    have e2 : Dbl.fin a + Dbl.fin s = Dbl.fin (fl (a + s)) := by
      show Dbl.round (a + s) = _
      apply roundq
      refine habs.trans (le_trans ?_ bb)
      have h1 : G ≤ 4 := by linarith
      have h2 : S + |x| ≤ 2 ^ 900 := by
        generalize (2 : ℝ) ^ 900 = B at *
        linarith
      exact mul_le_mul h1 h2 (by linarith) (by norm_num)
    have hgs : Grid (-904) (a + s) := ha.add hs2
    have hfl : |((fl (a + s) : ℚ) : ℝ) - ((a + s : ℚ) : ℝ)| ≤ u * |((a + s : ℚ) : ℝ)| := by
      rcases hgs.big with h0 | h0
      · have h0' : a + s = 0 := by exact_mod_cast h0
        rw [h0', fl_zero]; simp
      · exact flq_rel ((zpow_le_zpow_right₀ (by norm_num) (by norm_num)).trans h0)
    have hstep : |((fl (a + s) : ℚ) : ℝ) - (A + x)| ≤ ((1 + u) ^ (m + 1) - 1) * (S + |x|) := by
      have h1 := abs_add_le (((fl (a + s) : ℚ) : ℝ) - ((a + s : ℚ) : ℝ)) (((a + s : ℚ) : ℝ) - (A + x))
      rw [sub_add_sub_cancel] at h1
      have h2 := mul_le_mul_of_nonneg_left habs u_pos.le
      rw [pow_succ, ← hG]
      nlinarith
    rw [List.foldl_cons, e1, e2]
    obtain ⟨z, h1, h2, h3⟩ := fold_dot p q Q hp hq hQ l (m + 1) (A + x) (S + |x|) (fl (a + s)) (by omega) hAx
      hstep hgs.fl (by rw [add_assoc]; exact hup) (by omega)
    refine ⟨z, h1, ?_, h3⟩
    simp only [List.map_cons, List.sum_cons, List.length_cons]
    rw [show m + (l.length + 1) = m + 1 + l.length by ring, ← add_assoc A, ← add_assoc S]
    exact h2

/-- the dot product: `q` is `Q` up to `e` roundings -/
theorem dot_err (p q : Fin N → ℚ) (Q : Fin N → ℝ) {e : Nat} (hp : ∀ i, Grid (-452) (p i)) (hq : ∀ i, Grid (-452) (q i))
    (hQ : ∀ i, Rel e (Q i) (q i)) (hN : N ≤ 2 ^ 20) (he : e ≤ 4) (hP : ∀ i, |(p i : ℝ)| ≤ 2 ^ 430) (hQ2 : ∀ i, |Q i| ≤ 2 ^ 430) :
    ∃ z : ℚ, dot (fun i => Dbl.fin (p i)) (fun i => Dbl.fin (q i)) = .fin z ∧
      |(z : ℝ) - ∑ i, p i * Q i| ≤ (N + e + 2) * u * ∑ i, |p i * Q i| := by
  have hS : ∑ i, |p i * Q i| ≤ 2 ^ 880 := by
    have h1 : ∀ i ∈ Finset.univ, |p i * Q i| ≤ 2 ^ 860 := by
      intro i _
      rw [abs_mul, show (2 : ℝ) ^ 860 = 2 ^ 430 * 2 ^ 430 by rw [← pow_add]]
      exact mul_le_mul (hP i) (hQ2 i) (abs_nonneg _) (by positivity)
    refine (Finset.sum_le_card_nsmul _ _ _ h1).trans ?_
    rw [Finset.card_univ, Fintype.card_fin, nsmul_eq_mul]
    have h2 : (N : ℝ) ≤ 2 ^ 20 := by exact_mod_cast hN
    rw [show (2 : ℝ) ^ 880 = 2 ^ 20 * 2 ^ 860 by rw [← pow_add]]
    exact mul_le_mul_of_nonneg_right h2 (by positivity)
  obtain ⟨z, h1, h2, -⟩ := fold_dot p q Q hp hq hQ (List.finRange N) (e + 1) 0 0 0 le_rfl (by simp) (by simp) (Grid.zero _)
    (by rw [sum_finRange, zero_add]; exact hS.trans (pow_le_pow_right₀ (by norm_num) (by norm_num)))
    (by rw [List.length_finRange]; omega)
  rw [sum_finRange, sum_finRange, zero_add, zero_add, List.length_finRange] at h2
  refine ⟨z, ?_, h2.trans ?_⟩
  · unfold dot
    rw [dzero, Int.cast_zero, h1]
  · apply mul_le_mul_of_nonneg_right _ (Finset.sum_nonneg fun i _ => abs_nonneg _)
    have := hi_le (m := e + 1 + N) (by omega)
    push_cast at this
    linarith

end Geo.Acc
