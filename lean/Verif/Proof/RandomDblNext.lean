import Verif.Proof.RandomDbl

/-! # Negative binomial and Poisson samplers in binary64 -/

namespace Rand.Err
open Cpp Spec Rand Finset

/-- the probabilities computed -/
def pq (q0 : ℚ) (R : Nat → ℚ) : Nat → ℚ
  | 0 => q0
  | k + 1 => fl (pq q0 R k * R k)

/-- the thresholds computed -/
def tq (q0 : ℚ) (R : Nat → ℚ) : Nat → ℚ
  | 0 => q0
  | k + 1 => fl (tq q0 R k + pq q0 R (k + 1))

/-- the same as doubles -/
def pd (q0 : Dbl) (R : Nat → Dbl) : Nat → Dbl
  | 0 => q0
  | k + 1 => pd q0 R k * R k

/-- the same as doubles -/
def td (q0 : Dbl) (R : Nat → Dbl) : Nat → Dbl
  | 0 => q0
  | k + 1 => td q0 R k + pd q0 R (k + 1)

theorem tiny_le : tiny ≤ 1 := by
  unfold tiny
  rw [div_le_one (by positivity)]
  exact one_le_pow₀ (by norm_num)

theorem tiny_u : (2 : ℝ) ^ 33 * tiny ≤ u := by
  unfold tiny u
  rw [mul_one_div, div_le_div_iff₀ (by positivity) (by positivity), one_mul, ← pow_add]
  exact pow_le_pow_right₀ (by norm_num) (by norm_num)

/-- everything about a chain of probabilities computed in binary64 -/
structure Chain (f ρ : Nat → ℝ) (q0 : ℚ) (R : Nat → ℚ) (m d K : Nat) : Prop where
  f0 : tiny ≤ f 0
  fs : ∀ k, f (k + 1) = f k * ρ k
  r0 : ∀ k, 0 ≤ ρ k
  anti : ∀ k, ρ (k + 1) ≤ ρ k
  first : Appr 0 m (f 0) q0
  fix : fl q0 = q0
  ratio : ∀ k < K, Appr 0 d (ρ k) (R k)
  big : ∀ k < K, R k ≤ 2 ^ 64
  sum : ∀ k, ∑ i ∈ range (k + 1), f i ≤ 1
  steps : ((m + (d + 2) * K : Nat) : ℝ) * u ≤ 1 / 4
  len : K < 2 ^ 31

variable {f ρ : Nat → ℝ} {q0 : ℚ} {R : Nat → ℚ} {m d K : Nat}

theorem Chain.steps' (h : Chain f ρ q0 R m d K) {n : Nat} (hn : n ≤ m + (d + 2) * K) : (n : ℝ) * u ≤ 1 / 4 := by
  refine le_trans (mul_le_mul_of_nonneg_right ?_ u_pos.le) h.steps
  exact_mod_cast hn

theorem Chain.le_one (h : Chain f ρ q0 R m d K) (k : Nat) : f k ≤ 1 := by
  refine le_trans ?_ (h.sum k)
  rw [sum_range_succ]
  have := sum_nonneg (s := range k) fun i _ => f_nonneg h.f0 h.fs h.r0 i
  linarith

theorem Chain.thr (h : Chain f ρ q0 R m d K) (k : Nat) (hk : k ≤ K) :
    Appr ((k + 1) * tiny) (m + (d + 2) * k) (∑ i ∈ range (k + 1), f i) (tq q0 R k) ∧ fl (tq q0 R k) = tq q0 R k ∧ q0 ≤ tq q0 R k ∧
      (∀ j, j + 1 = k → tq q0 R j ≤ tq q0 R k) :=
  thresholds (P := pq q0 R) h.f0 h.fs h.r0 h.anti h.first h.fix h.ratio (fun _ _ => rfl) (tq q0 R) rfl (fun _ _ => rfl) h.steps k hk

theorem Chain.prob_le (h : Chain f ρ q0 R m d K) (k : Nat) (hk : k ≤ K) : 0 ≤ pq q0 R k ∧ pq q0 R k ≤ 4 := by
  have h0 : m + (d + 1) * K ≤ m + (d + 2) * K := by gcongr; omega
  have ha := chain_appr (P := pq q0 R) h.f0 h.fs h.r0 h.anti h.first h.ratio (fun _ _ => rfl) (h.steps' h0) k hk
  refine ⟨ha.nonneg, ?_⟩
  have h1 : m + (d + 1) * k ≤ m + (d + 2) * K := by gcongr; omega
  have h2 := hi_le _ (show ((m + (d + 1) * k : Nat) : ℝ) * u ≤ 1 / 2 by have := h.steps' h1; linarith)
  have h3 := h.steps' h1
  have h4 := ha.hi
  have h5 := h.le_one k
  have h6 := tiny_le
  have h7 := f_nonneg h.f0 h.fs h.r0 k
  have h8 := tiny_pos
  have : ((pq q0 R k : ℚ) : ℝ) ≤ 4 := by
    refine h4.trans ?_
    have := hi_ge (m + (d + 1) * k)
    nlinarith
  exact_mod_cast this

theorem Chain.thr_le (h : Chain f ρ q0 R m d K) (k : Nat) (hk : k ≤ K) : 0 ≤ tq q0 R k ∧ tq q0 R k ≤ 4 := by
  have ha := (h.thr k hk).1
  refine ⟨ha.nonneg, ?_⟩
  have h1 : m + (d + 2) * k ≤ m + (d + 2) * K := by gcongr
  have h3 := h.steps' h1
  have h2 := hi_le _ (show ((m + (d + 2) * k : Nat) : ℝ) * u ≤ 1 / 2 by linarith)
  have h5 := h.sum k
  have h6 : ((k : ℝ) + 1) * tiny ≤ 1 := by
    have h7 : ((k : ℝ) + 1) ≤ 2 ^ 33 := by
      have : k + 1 ≤ 2 ^ 33 := by have := h.len; omega
      exact_mod_cast this
    refine le_trans (mul_le_mul_of_nonneg_right h7 tiny_pos.le) (tiny_u.trans u_lt.le)
  have h7 : 0 ≤ ∑ i ∈ range (k + 1), f i := sum_nonneg fun i _ => f_nonneg h.f0 h.fs h.r0 i
  have : ((tq q0 R k : ℚ) : ℝ) ≤ 4 := by
    refine ha.hi.trans ?_
    have := hi_ge (m + (d + 2) * k)
    have : 0 ≤ ((k : ℝ) + 1) * tiny := mul_nonneg (by positivity) tiny_pos.le
    nlinarith
  exact_mod_cast this

theorem small4 {x : ℚ} (h0 : 0 ≤ x) (h : x ≤ 4 * 2 ^ 64) : |x| ≤ 2 ^ 200 := by
  rw [abs_of_nonneg h0]
  exact h.trans (by norm_num)

theorem Chain.dbl (h : Chain f ρ q0 R m d K) {RD : Nat → Dbl} (hRD : ∀ k < K, RD k = .fin (R k)) (k : Nat) (hk : k ≤ K) :
    pd (.fin q0) RD k = .fin (pq q0 R k) ∧ td (.fin q0) RD k = .fin (tq q0 R k) := by
  induction k with
  | zero => exact ⟨rfl, rfl⟩
  | succ k ih =>
    obtain ⟨h1, h2⟩ := ih (by omega)
    have hp : pd (.fin q0) RD (k + 1) = .fin (pq q0 R (k + 1)) := by
      unfold pd pq
      rw [h1, hRD k (by omega), Stats.mul_dbl, Stats.round_small]
      obtain ⟨a, b⟩ := h.prob_le k (by omega)
      have c := (h.ratio k (by omega)).nonneg
      have e := h.big k (by omega)
      exact small4 (mul_nonneg a c) (mul_le_mul b e c (by norm_num))
    refine ⟨hp, ?_⟩
    unfold td tq
    rw [h2, hp, Stats.add_dbl, Stats.round_small]
    obtain ⟨a, b⟩ := h.prob_le (k + 1) hk
    obtain ⟨c, e⟩ := h.thr_le k (by omega)
    exact small4 (by linarith) (by norm_num; linarith)

theorem Chain.mono (h : Chain f ρ q0 R m d K) (k : Nat) (hk : k + 1 ≤ K) : tq q0 R k ≤ tq q0 R (k + 1) :=
  (h.thr (k + 1) hk).2.2.2 k rfl

theorem min_dist {T F e : ℝ} (hF : F ≤ 1) (h : |T - F| ≤ e) : |min T 1 - F| ≤ e := by
  rw [abs_le] at h ⊢
  rcases min_cases T 1 with ⟨a, b⟩ | ⟨a, b⟩ <;> rw [a] <;> constructor <;> linarith

theorem Chain.err (h : Chain f ρ q0 R m d K) (k : Nat) (hk : k ≤ K) :
    |((min (tq q0 R k) 1 : ℚ) : ℝ) - ∑ i ∈ range (k + 1), f i| ≤ (2 * (m + (d + 2) * k : Nat) + 1) * u := by
  have ha := (h.thr k hk).1
  have h1 : m + (d + 2) * k ≤ m + (d + 2) * K := by gcongr
  have h3 := h.steps' h1
  have h7 : 0 ≤ ∑ i ∈ range (k + 1), f i := sum_nonneg fun i _ => f_nonneg h.f0 h.fs h.r0 i
  have hd := ha.dist h7 (h.sum k) (mul_nonneg (by positivity) tiny_pos.le) (by linarith)
  rw [Rat.cast_min, Rat.cast_one]
  refine min_dist (h.sum k) (hd.trans ?_)
  have h6 : 2 * (((k : ℝ) + 1) * tiny) ≤ u := by
    refine le_trans ?_ tiny_u
    rw [← mul_assoc]
    apply mul_le_mul_of_nonneg_right _ tiny_pos.le
    have : 2 * (k + 1) ≤ 2 ^ 33 := by have := h.len; omega
    exact_mod_cast this
  linarith

theorem nextDouble0_dbl {E : Engine} (s : E.σ) : nextDouble0 (D := Dbl) s = .ok (.fin (unif (E.draw s).1.val), (E.draw s).2) := by
  have e0 : ((0 : Int) : Dbl) = Dbl.fin 0 := by decide +kernel
  have e1 : ((1 : Int) : Dbl) = Dbl.fin 1 := by decide +kernel
  unfold nextDouble0
  rw [e0, e1, nextDouble2_run 0 1 (by norm_num) (by norm_num) (by norm_num; exact one_le_pow₀ (by norm_num)), ndVal_one]

/-! ### Negative binomial distribution -/

/-- the ratios computed -/
def nbRatio (r : Nat) (p : ℚ) (k : Nat) : ℚ := fl (fl (fl (1 - p) * (r + k)) / (k + 1))

theorem one_sub_double {p : ℚ} (hp : IsDouble p) (h0 : 0 ≤ p) (h1 : p ≤ 1) : 1 - p = 0 ∨ (1 : ℚ) / 2 ^ 53 ≤ 1 - p := by
  rcases eq_or_lt_of_le h1 with rfl | hlt
  · left; norm_num
  right
  rcases le_or_gt p (1 / 2) with h | h
  · have : (1 : ℚ) / 2 ^ 53 ≤ 1 / 2 := by norm_num
    linarith
  obtain ⟨m, k, hm, -, -, rfl⟩ := hp
  have hk : -53 ≤ k := by
    by_contra hc
    push Not at hc
    have h2 : (2 : ℚ) ^ k ≤ 2 ^ (-54 : Int) := zpow_le_zpow_right₀ (by norm_num) (by omega)
    have h3 : (m : ℚ) ≤ 2 ^ 53 := by
      have := (abs_lt.1 hm).2
      exact_mod_cast this.le
    have h4 : (m : ℚ) * 2 ^ k ≤ 2 ^ 53 * 2 ^ (-54 : Int) := mul_le_mul h3 h2 (by positivity) (by positivity)
    have h5 : (2 : ℚ) ^ 53 * 2 ^ (-54 : Int) = 1 / 2 := by norm_num
    exact absurd (h4.trans_eq h5) (not_le.2 h)
  obtain ⟨n, rfl⟩ : ∃ n : Nat, k = n - 53 := ⟨(k + 53).toNat, by omega⟩
  have e : (m : ℚ) * 2 ^ ((n : Int) - 53) = ((m * 2 ^ n : Int) : ℚ) / 2 ^ 53 := by
    rw [zpow_sub₀ (by norm_num), zpow_natCast]
    push_cast
    norm_num
    ring
  rw [e] at hlt ⊢
  have h2 : m * 2 ^ n < 2 ^ 53 := by
    rw [div_lt_one (by positivity)] at hlt
    exact_mod_cast hlt
  have h3 : ((m * 2 ^ n : Int) : ℚ) + 1 ≤ 2 ^ 53 := by exact_mod_cast h2
  rw [div_le_iff₀ (by positivity), sub_mul, div_mul_cancel₀ _ (by positivity)]
  linarith

theorem normal53 : (2 : ℚ) ^ (-1022 : Int) ≤ 1 / 2 ^ 100 := by
  rw [show (1 : ℚ) / 2 ^ 100 = 2 ^ (-100 : Int) by rw [zpow_neg, one_div, zpow_ofNat]]
  exact zpow_le_zpow_right₀ (by norm_num) (by norm_num)

theorem fl_half {y : ℚ} (h : y = 0 ∨ (2 : ℚ) ^ (-1022 : Int) ≤ y) : y / 2 ≤ fl y ∧ fl y ≤ 2 * y := by
  obtain ⟨h0, h1, h2⟩ := fl_normal h
  have hy : 0 ≤ y := by
    rcases h with rfl | h
    · exact le_rfl
    · exact le_trans (by positivity) h
  have hy' : (0 : ℝ) ≤ y := by exact_mod_cast hy
  have hu : u ≤ 1 / 2 := by unfold u; norm_num
  constructor
  · have : ((y / 2 : ℚ) : ℝ) ≤ fl y := by push_cast; nlinarith
    exact_mod_cast this
  · have : (fl y : ℝ) ≤ ((2 * y : ℚ) : ℝ) := by push_cast; nlinarith
    exact_mod_cast this

/-- the first two roundings of a ratio -/
theorem nb_pc {p : ℚ} (hp : IsDouble p) (h0 : 0 ≤ p) (h1 : p ≤ 1) :
    Appr 0 1 (1 - p : ℝ) (fl (1 - p)) ∧ (fl (1 - p) = 0 ∨ (1 : ℚ) / 2 ^ 54 ≤ fl (1 - p)) ∧ fl (1 - p) ≤ 2 := by
  have hd := one_sub_double hp h0 h1
  have hn : 1 - p = 0 ∨ (2 : ℚ) ^ (-1022 : Int) ≤ 1 - p :=
    hd.imp id fun h => normal53.trans (le_trans (by norm_num) h)
  have hs : Appr 0 0 (((1 - p : ℚ)) : ℝ) (1 - p) := Appr.self (by linarith)
  push_cast at hs
  obtain ⟨a, b⟩ := fl_half hn
  refine ⟨hs.round0 hn, ?_, by linarith⟩
  rcases hd with h | h
  · left; rw [h, fl_zero]
  · right
    have : (1 : ℚ) / 2 ^ 54 = 1 / 2 ^ 53 / 2 := by norm_num
    rw [this]
    linarith

theorem nb_ratio {r : Nat} (hr : 0 < r) {p : ℚ} (hp : IsDouble p) (h0 : 0 ≤ p) (h1 : p ≤ 1) {k : Nat} (hk : r + k ≤ 2 ^ 31) :
    Appr 0 3 ((1 - p) * (r + k) / (k + 1)) (nbRatio r p k) ∧ nbRatio r p k ≤ 2 ^ 64 ∧
      fl (1 - p) * (r + k) ≤ 2 ^ 40 ∧ 0 ≤ fl (1 - p) * (r + k) ∧ fl (fl (1 - p) * (r + k)) ≤ 2 ^ 41 ∧
      0 ≤ fl (fl (1 - p) * (r + k)) := by
  obtain ⟨ha, hb, hc⟩ := nb_pc hp h0 h1
  have hrk : (1 : ℚ) ≤ r + k := by
    have : 1 ≤ r + k := by omega
    exact_mod_cast this
  have hrk' : ((r : ℚ) + k) ≤ 2 ^ 31 := by exact_mod_cast hk
  have hk1 : (1 : ℚ) ≤ k + 1 := by
    have : 1 ≤ k + 1 := by omega
    exact_mod_cast this
  have hk2 : (k + 1 : ℚ) ≤ 2 ^ 32 := by
    have : k + 1 ≤ 2 ^ 32 := by omega
    exact_mod_cast this
  have hs := ha.scale (r + k)
  rw [mul_zero, mul_comm, mul_comm ((r + k : Nat) : ℚ)] at hs
  push_cast at hs
  have hn1 : fl (1 - p) * (r + k) = 0 ∨ (1 : ℚ) / 2 ^ 54 ≤ fl (1 - p) * (r + k) := by
    rcases hb with h | h
    · left; rw [h, zero_mul]
    · right; exact le_trans h (le_mul_of_one_le_right (ha.nonneg) hrk)
  have hn1' := hn1.imp id fun h => normal53.trans (le_trans (by norm_num : (1 : ℚ) / 2 ^ 100 ≤ 1 / 2 ^ 54) h)
  have h2 := hs.round0 hn1'
  obtain ⟨a1, a2⟩ := fl_half hn1'
  have hx : (0 : ℝ) ≤ (1 - p) * (r + k) := by
    have : (p : ℝ) ≤ 1 := by exact_mod_cast h1
    exact mul_nonneg (by linarith) (by positivity)
  have h3 := Appr.mul0 (x' := (((1 / (k + 1) : ℚ)) : ℝ)) hx (by push_cast; positivity) h2 (Appr.self (x := 1 / (k + 1 : ℚ)) (by positivity))
  push_cast at h3
  rw [mul_one_div, mul_one_div] at h3
  have hn2 : fl (fl (1 - p) * (r + k)) / (k + 1) = 0 ∨ (1 : ℚ) / 2 ^ 100 ≤ fl (fl (1 - p) * (r + k)) / (k + 1) := by
    rcases hn1 with h | h
    · left; rw [h, fl_zero, zero_div]
    · right
      rw [le_div_iff₀ (by positivity)]
      have : (1 : ℚ) / 2 ^ 100 * (k + 1) ≤ 1 / 2 ^ 100 * 2 ^ 32 := mul_le_mul_of_nonneg_left hk2 (by positivity)
      have e : (1 : ℚ) / 2 ^ 100 * 2 ^ 32 ≤ 1 / 2 ^ 54 / 2 := by norm_num
      linarith
  have hn2' := hn2.imp id fun h => normal53.trans h
  obtain ⟨b1, b2⟩ := fl_half hn2'
  have hpc0 : 0 ≤ fl (1 - p) := ha.nonneg
  have hprod : fl (1 - p) * (r + k) ≤ 2 ^ 40 := by
    refine (mul_le_mul hc hrk' (by linarith) (by norm_num)).trans (by norm_num)
  refine ⟨h3.round0 hn2', ?_, hprod, by positivity, ?_, ?_⟩
  · unfold nbRatio
    refine b2.trans ?_
    have : fl (fl (1 - p) * (r + k)) / (k + 1) ≤ fl (fl (1 - p) * (r + k)) := div_le_self h2.nonneg hk1
    norm_num at *
    linarith
  · norm_num at *
    linarith
  · exact h2.nonneg

theorem nb_chain {r : Nat} (hr : 0 < r) {p : ℚ} (hp : IsDouble p) (h0 : 0 < p) (h1 : p ≤ 1) (ht : tiny ≤ (p : ℝ) ^ r) {K : Nat}
    (hK : r + K < 2 ^ 31) (hcdf : ∀ k, negBinomialCdf r (p : ℝ) k ≤ 1) {q0 : ℚ} (hq : Appr 0 r ((p : ℝ) ^ r) q0) (hfix : fl q0 = q0) :
    Chain (negPmf r (p : ℝ)) (fun k => (1 - p) * (r + k) / (k + 1)) q0 (nbRatio r p) r 3 K where
  f0 := by rw [(negCdf_zero r (p : ℝ)).2]; exact ht
  fs k := by
    rw [← negPmf_succ r hr (p : ℝ) k]
    push_cast
    congr 3
    ring
  r0 k := by
    have : (p : ℝ) ≤ 1 := by exact_mod_cast h1
    exact div_nonneg (mul_nonneg (by linarith) (by positivity)) (by positivity)
  anti k := by
    have hp1 : (p : ℝ) ≤ 1 := by exact_mod_cast h1
    have hr1 : (1 : ℝ) ≤ r := by exact_mod_cast hr
    rw [div_le_div_iff₀ (by positivity) (by positivity), mul_assoc, mul_assoc]
    apply mul_le_mul_of_nonneg_left _ (by linarith)
    push_cast
    nlinarith
  first := by rw [(negCdf_zero r (p : ℝ)).2]; exact hq
  fix := hfix
  ratio k hk := (nb_ratio hr hp h0.le h1 (by omega)).1
  big k hk := (nb_ratio hr hp h0.le h1 (by omega)).2.1
  sum k := hcdf k
  steps := by
    have : r + (3 + 2) * K ≤ 2 ^ 34 := by omega
    have h2 : ((r + (3 + 2) * K : Nat) : ℝ) ≤ 2 ^ 34 := by exact_mod_cast this
    refine (mul_le_mul_of_nonneg_right h2 u_pos.le).trans ?_
    unfold u
    norm_num
  len := by omega

theorem finds_dbl {T : Nat → ℚ} {td : Nat → Dbl} {K : Nat} (h : ∀ k ≤ K, td k = .fin (T k)) (x : ℚ) (j : Nat) (hj : j ≤ K) :
    (¬ td j ≤ Dbl.fin x ∧ ∀ i < j, td i ≤ Dbl.fin x) ↔ (x < T j ∧ ∀ i < j, T i ≤ x) := by
  rw [h j hj, fin_le, not_le]
  refine and_congr_right fun _ => forall₂_congr fun i hi => ?_
  rw [h i (by omega), fin_le]

theorem nb_finds {r : Nat} (hr : 0 < r) {p : ℚ} (hp : IsDouble p) (h0 : 0 < p) (h1 : p ≤ 1) {K : Nat} (hK : (r + K : Int) = INT_MAX)
    {q0 : ℚ} {f ρ : Nat → ℝ} {m d : Nat} (hc : Chain f ρ q0 (nbRatio r p) m d K) :
    Finds (fun E => negBinomialNext (E := E) ⟨r, Dbl.fin p, Dbl.fin q0⟩) (tq q0 (nbRatio r p)) K := by
  have hM : INT_MAX = 2147483647 := rfl
  intro E s j hj
  have e1 : ((1 : Int) : Dbl) = Dbl.fin 1 := by decide +kernel
  have hpc : ((1 : Int) : Dbl) - Dbl.fin p = Dbl.fin (fl (1 - p)) := by
    rw [e1, Stats.sub_dbl, Stats.round_small]
    rw [abs_of_nonneg (by linarith)]
    exact le_trans (by linarith : 1 - p ≤ 1) (by norm_num)
  let RD : Nat → Dbl := fun k => Dbl.fin (fl (1 - p)) * (((r : Int) + (k + 1) - 1 : Int) : Dbl) / ((k + 1 : Int) : Dbl)
  have hRD : ∀ k < K, RD k = .fin (nbRatio r p k) := by
    intro k hk
    obtain ⟨-, -, c1, c2, c3, c4⟩ := nb_ratio hr hp h0.le h1 (k := k) (by omega)
    show Dbl.fin (fl (1 - p)) * (((r : Int) + (k + 1) - 1 : Int) : Dbl) / ((k + 1 : Int) : Dbl) = _
    rw [Stats.cast_dbl (a := (r : Int) + (k + 1) - 1) (by rw [abs_of_nonneg (by omega)]; omega),
      Stats.cast_dbl (a := (k : Int) + 1) (by rw [abs_of_nonneg (by omega)]; omega)]
    have ec : (((r : Int) + (k + 1) - 1 : Int) : ℚ) = r + k := by push_cast; ring
    have ed : (((k : Int) + 1 : Int) : ℚ) = k + 1 := by push_cast; ring
    rw [ec, ed, Stats.mul_dbl, Stats.round_small (small4 c2 (c1.trans (by norm_num))), Stats.div_dbl (by positivity), Stats.round_small]
    · rfl
    · apply small4 (by positivity)
      refine (div_le_self c4 ?_).trans (c3.trans (by norm_num))
      have : (0 : ℚ) ≤ k := by positivity
      linarith
  have hd := fun k hk => (hc.dbl hRD k hk).2
  rw [← finds_dbl hd (unif (E.draw s).1.val) j hj]
  beta_reduce
  unfold negBinomialNext
  rw [bind_run, nextDouble0_dbl]
  simp only [Out.bind]
  rw [lift_run, hpc]
  constructor
  · intro h
    obtain ⟨v, hv, h⟩ := Out.bind_eq_ok.1 h
    cases h
    obtain ⟨n, hn, hn1, hn2⟩ := negBinomialLoop_inv (r : Int) (Dbl.fin (fl (1 - p))) (Dbl.fin (unif (E.draw s).1.val))
      (pd (.fin q0) RD) (td (.fin q0) RD) (fun _ => rfl) (fun _ => rfl) 0 (2 ^ 31) (by omega) j hv
    obtain rfl : j = n := by exact_mod_cast hn
    exact ⟨hn1, hn2⟩
  · rintro ⟨h2, h3⟩
    have := negBinomialLoop_find (r : Int) (Dbl.fin (fl (1 - p))) (Dbl.fin (unif (E.draw s).1.val))
      (pd (.fin q0) RD) (td (.fin q0) RD) (fun _ => rfl) (fun _ => rfl) (by omega) j (by omega) h2 h3 0 (by omega) (2 ^ 31) (by omega)
    have this' : negBinomialLoop (r : Int) (Dbl.fin (fl (1 - p))) (Dbl.fin (unif (E.draw s).1.val)) (2 ^ 31) 0 (Dbl.fin q0) (Dbl.fin q0)
        = .ok (j : Int) := this
    rw [this']
    rfl

/-! ### Poisson distribution -/

/-- the ratios computed -/
def poiRatio (l : ℚ) (k : Nat) : ℚ := fl (l / (k + 1))

theorem poi_ratio {l : ℚ} (h0 : 1 / 2 ^ 900 ≤ l) (h1 : l ≤ 2 ^ 60) {k : Nat} (hk : k < 2 ^ 31) :
    Appr 0 1 ((l : ℝ) / (k + 1)) (poiRatio l k) ∧ poiRatio l k ≤ 2 ^ 64 := by
  have hl : 0 < l := lt_of_lt_of_le (by positivity) h0
  have hk1 : (1 : ℚ) ≤ k + 1 := by
    have : 1 ≤ k + 1 := by omega
    exact_mod_cast this
  have hk2 : (k + 1 : ℚ) ≤ 2 ^ 32 := by
    have : k + 1 ≤ 2 ^ 32 := by omega
    exact_mod_cast this
  have hn : l / (k + 1) = 0 ∨ (2 : ℚ) ^ (-1022 : Int) ≤ l / (k + 1) := by
    right
    rw [le_div_iff₀ (by positivity)]
    refine le_trans (mul_le_mul_of_nonneg_left hk2 (by positivity)) (le_trans ?_ h0)
    rw [show (1 : ℚ) / 2 ^ 900 = 2 ^ (-900 : Int) by rw [zpow_neg, one_div, zpow_ofNat],
      show (2 : ℚ) ^ 32 = 2 ^ (32 : Int) by rw [zpow_ofNat], ← zpow_add₀ (by norm_num)]
    exact zpow_le_zpow_right₀ (by norm_num) (by norm_num)
  have hs := Appr.self (x := l / (k + 1)) (by positivity)
  push_cast at hs
  refine ⟨hs.round0 hn, ?_⟩
  unfold poiRatio
  have h2 := (fl_half hn).2
  have h3 : l / (k + 1) ≤ l := div_le_self hl.le hk1
  refine h2.trans ?_
  have : 2 * (2 : ℚ) ^ 60 ≤ 2 ^ 64 := by norm_num
  linarith

theorem poi_chain {l : ℚ} (h0 : 1 / 2 ^ 900 ≤ l) (h1 : l ≤ 2 ^ 60) (ht : tiny ≤ Real.exp (-l)) {K : Nat}
    (hK : K < 2 ^ 31) (hcdf : ∀ k, poissonCdf l k ≤ 1) {q0 : ℚ} (hq : Appr 0 3 (Real.exp (-l)) q0) (hfix : fl q0 = q0) :
    Chain (poiPmf l) (fun k => l / (k + 1)) q0 (poiRatio l) 3 1 K where
  f0 := by simpa [poiPmf] using ht
  fs k := by
    rw [← poiPmf_succ l k]
    push_cast
    rfl
  r0 k := by
    have : (0 : ℚ) ≤ l := le_trans (by positivity) h0
    have : (0 : ℝ) ≤ l := by exact_mod_cast this
    positivity
  anti k := by
    have : (0 : ℚ) ≤ l := le_trans (by positivity) h0
    have : (0 : ℝ) ≤ l := by exact_mod_cast this
    gcongr
    linarith
  first := by simpa [poiPmf] using hq
  fix := hfix
  ratio k hk := (poi_ratio h0 h1 (by omega)).1
  big k hk := (poi_ratio h0 h1 (by omega)).2
  sum k := hcdf k
  steps := by
    have : 3 + (1 + 2) * K ≤ 2 ^ 34 := by omega
    have h2 : ((3 + (1 + 2) * K : Nat) : ℝ) ≤ 2 ^ 34 := by exact_mod_cast this
    refine (mul_le_mul_of_nonneg_right h2 u_pos.le).trans ?_
    unfold u
    norm_num
  len := hK

theorem poi_finds {l : ℚ} (h0 : 1 / 2 ^ 900 ≤ l) (h1 : l ≤ 2 ^ 60) {K : Nat} (hK : (K : Int) = INT_MAX)
    {q0 : ℚ} {f ρ : Nat → ℝ} {m d : Nat} (hc : Chain f ρ q0 (poiRatio l) m d K) :
    Finds (fun E => poissonNext (E := E) ⟨Dbl.fin l, Dbl.fin q0⟩) (tq q0 (poiRatio l)) K := by
  have hM : INT_MAX = 2147483647 := rfl
  have hl : 0 < l := lt_of_lt_of_le (by positivity) h0
  intro E s j hj
  let RD : Nat → Dbl := fun k => Dbl.fin l / ((k + 1 : Int) : Dbl)
  have hRD : ∀ k < K, RD k = .fin (poiRatio l k) := by
    intro k hk
    show Dbl.fin l / ((k + 1 : Int) : Dbl) = _
    rw [Stats.cast_dbl (a := (k : Int) + 1) (by rw [abs_of_nonneg (by omega)]; omega)]
    have ed : (((k : Int) + 1 : Int) : ℚ) = k + 1 := by push_cast; ring
    rw [ed, Stats.div_dbl (by positivity), Stats.round_small]
    · rfl
    · apply small4 (by positivity)
      refine (div_le_self hl.le ?_).trans (h1.trans (by norm_num))
      have : (0 : ℚ) ≤ k := by positivity
      linarith
  have hd := fun k hk => (hc.dbl hRD k hk).2
  rw [← finds_dbl hd (unif (E.draw s).1.val) j hj]
  beta_reduce
  unfold poissonNext
  rw [bind_run, nextDouble0_dbl]
  simp only [Out.bind]
  rw [lift_run]
  constructor
  · intro h
    obtain ⟨v, hv, h⟩ := Out.bind_eq_ok.1 h
    cases h
    obtain ⟨n, hn, hn1, hn2⟩ := poissonLoop_inv (Dbl.fin l) (Dbl.fin (unif (E.draw s).1.val))
      (pd (.fin q0) RD) (td (.fin q0) RD) (fun _ => rfl) (fun _ => rfl) 0 (2 ^ 31) (by omega) j hv
    obtain rfl : j = n := by exact_mod_cast hn
    exact ⟨hn1, hn2⟩
  · rintro ⟨h2, h3⟩
    have := poissonLoop_find (Dbl.fin l) (Dbl.fin (unif (E.draw s).1.val))
      (pd (.fin q0) RD) (td (.fin q0) RD) (fun _ => rfl) (fun _ => rfl) j (by omega) h2 h3 0 (by omega) (2 ^ 31) (by omega)
    have this' : poissonLoop (Dbl.fin l) (Dbl.fin (unif (E.draw s).1.val)) (2 ^ 31) 0 (Dbl.fin q0) (Dbl.fin q0)
        = .ok (j : Int) := this
    rw [this']
    rfl

end Rand.Err
