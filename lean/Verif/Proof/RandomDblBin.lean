import Verif.Proof.RandomDblNext
import Verif.Spec.RandomDbl
import Mathlib.Analysis.Complex.ExponentialBounds

/-! # The binomial sampler in binary64; `exp` and `pow` -/

namespace Rand.Err
open Cpp Spec Rand Finset

theorem u_two : (1 : ℝ) / 2 ^ 52 = 2 * u := by unfold u; norm_num

theorem lo3 : (1 - u) ^ 3 ≤ 1 - 2 * u := by
  have h1 := u_pos
  have h2 : u ≤ 1 / 4 := by unfold u; norm_num
  nlinarith [mul_pos h1 h1, mul_pos h1 (mul_pos h1 h1), mul_nonneg h1.le (sub_nonneg.2 h2)]

theorem lo3' : 1 / 2 ≤ (1 - u) ^ 3 := by
  refine le_trans ?_ (lo_ge 3)
  unfold u
  norm_num

theorem hi3 : 1 + 2 * u ≤ (1 + u) ^ 3 := by
  have h1 := u_pos
  nlinarith [mul_pos h1 h1, mul_pos h1 (mul_pos h1 h1)]

/-- a relative error of two roundings and an absolute error -/
theorem Appr.of_err {x : ℝ} {y : ℚ} {e : ℝ} (hx : 0 ≤ x) (he : 0 ≤ e) (hy : 0 ≤ y) (h : |(y : ℝ) - x| ≤ 1 / 2 ^ 52 * x + e) :
    Appr (2 * e) 3 x y := by
  rw [u_two, abs_le] at h
  have h1 := lo3
  have h2 := lo3'
  have h3 := hi3
  have h4 := hi_ge 3
  refine ⟨hy, ?_, ?_⟩
  · have : (x - 2 * e) * (1 - u) ^ 3 = x * (1 - u) ^ 3 - 2 * (e * (1 - u) ^ 3) := by ring
    rw [this]
    nlinarith
  · nlinarith

theorem Appr.mulB {B c c' : ℝ} {m m' : Nat} {x x' : ℝ} {y y' : ℚ} (hx : 0 ≤ x) (hx' : 0 ≤ x') (hx1 : x ≤ B) (hx1' : x' ≤ 1)
    (hc : 0 ≤ c) (hc' : 0 ≤ c') (h : Appr c m x y) (h' : Appr c' m' x' y') :
    Appr (c + B * c' + c * c') (m + m') (x * x') (y * y') := by
  have a0 : (0 : ℝ) ≤ y := by exact_mod_cast h.nonneg
  have b0 : (0 : ℝ) ≤ y' := by exact_mod_cast h'.nonneg
  have hn : 0 ≤ y * y' := mul_nonneg h.nonneg h'.nonneg
  have k1 : c * x' ≤ c := mul_le_of_le_one_right hc hx1'
  have k2 : x * c' ≤ B * c' := mul_le_mul_of_nonneg_right hx1 hc'
  have k3 : 0 ≤ c * c' := mul_nonneg hc hc'
  refine ⟨hn, ?_, ?_⟩
  · have hneg : x * x' - (c + B * c' + c * c') ≤ 0 →
        (x * x' - (c + B * c' + c * c')) * (1 - u) ^ (m + m') ≤ ((y * y' : ℚ) : ℝ) := fun h0 =>
      le_trans (mul_nonpos_of_nonpos_of_nonneg h0 (lo_pos _).le) (by exact_mod_cast hn)
    rcases le_or_gt x c with h0 | h0
    · refine hneg ?_
      have : x * x' ≤ c * x' := mul_le_mul_of_nonneg_right h0 hx'
      have : 0 ≤ B * c' := mul_nonneg (hx.trans hx1) hc'
      linarith
    rcases le_or_gt x' c' with h0' | h0'
    · refine hneg ?_
      have : x * x' ≤ x * c' := mul_le_mul_of_nonneg_left h0' hx
      linarith
    push_cast
    rw [pow_add]
    calc (x * x' - (c + B * c' + c * c')) * ((1 - u) ^ m * (1 - u) ^ m')
        ≤ ((x - c) * (x' - c')) * ((1 - u) ^ m * (1 - u) ^ m') := by
          apply mul_le_mul_of_nonneg_right _ (mul_pos (lo_pos _) (lo_pos _)).le
          nlinarith
      _ = (x - c) * (1 - u) ^ m * ((x' - c') * (1 - u) ^ m') := by ring
      _ ≤ _ := mul_le_mul h.lo h'.lo (mul_nonneg (by linarith) (lo_pos _).le) a0
  · push_cast
    rw [pow_add]
    calc (y : ℝ) * y' ≤ (x + c) * (1 + u) ^ m * ((x' + c') * (1 + u) ^ m') :=
          mul_le_mul h.hi h'.hi b0 (mul_nonneg (by linarith) (by have := hi_ge m; linarith))
      _ = ((x + c) * (x' + c')) * ((1 + u) ^ m * (1 + u) ^ m') := by ring
      _ ≤ _ := by
          apply mul_le_mul_of_nonneg_right _ (mul_nonneg (by have := hi_ge m; linarith) (by have := hi_ge m'; linarith))
          nlinarith

theorem Appr.pow {m : Nat} {x : ℝ} {y : ℚ} (hx : 0 ≤ x) (h : Appr 0 m x y) (n : Nat) : Appr 0 (n * m) (x ^ n) (y ^ n) := by
  induction n with
  | zero => simpa using Appr.self (x := 1) (by norm_num)
  | succ n ih =>
    rw [pow_succ, pow_succ, Nat.succ_mul]
    exact ih.mul0 (by positivity) hx h

theorem eta_le : (2 : ℝ) ^ 60 * eta ≤ u := by
  unfold eta u
  rw [mul_one_div, div_le_div_iff₀ (by positivity) (by positivity), one_mul, ← pow_add]
  exact pow_le_pow_right₀ (by norm_num) (by norm_num)

theorem eta_le_one : eta ≤ 1 := by
  have h1 := eta_le
  have h2 := u_lt
  have h3 := eta_pos
  nlinarith

theorem small_u {n : Nat} (h : n ≤ 2 ^ 50) : (n : ℝ) * u ≤ 1 / 4 := by
  have h2 : (n : ℝ) ≤ 2 ^ 50 := by exact_mod_cast h
  refine (mul_le_mul_of_nonneg_right h2 u_pos.le).trans ?_
  unfold u
  norm_num

section
variable {n : Nat} {p : ℚ}

/-- the probability of `i` successes -/
noncomputable def binPmf (n : Nat) (p : ℝ) (i : Nat) : ℝ := (n.choose i : ℝ) * p ^ i * (1 - p) ^ (n - i)

theorem choose_le (hn : n ≤ 33) (i : Nat) : n.choose i ≤ 2 ^ 31 := by
  rcases Nat.lt_or_ge n i with h | h
  · rw [Nat.choose_eq_zero_of_lt h]; omega
  · refine (Nat.choose_le_middle i n).trans ?_
    have : ∀ m : Fin 34, m.val.choose (m.val / 2) ≤ 2 ^ 31 := by decide +kernel
    exact this ⟨n, by omega⟩

/-- one term of the table -/
theorem bin_term (hn : n ≤ 33) (hp : IsDouble p) (h0 : 0 ≤ p) (h1 : p ≤ 1) {i : Nat} (hi : i ≤ n) {a b : ℚ} (ha0 : 0 ≤ a) (hb0 : 0 ≤ b)
    (ha : |(a : ℝ) - p ^ i| ≤ 1 / 2 ^ 52 * p ^ i + 1 / 2 ^ 1074)
    (hb : |(b : ℝ) - (fl (1 - p) : ℚ) ^ (n - i)| ≤ 1 / 2 ^ 52 * (fl (1 - p) : ℚ) ^ (n - i) + 1 / 2 ^ 1074) :
    Appr (2 ^ 42 * eta) (n + 8) (binPmf n p i) (fl (fl (n.choose i * a) * b)) ∧ 0 ≤ fl (n.choose i * a) ∧
      (n.choose i * a : ℚ) ≤ 2 ^ 40 ∧ fl (n.choose i * a) * b ≤ 2 ^ 60 := by
  have hE := eta_pos
  have hE1 := eta_le_one
  have hp0 : (0 : ℝ) ≤ p := by exact_mod_cast h0
  have hp1 : (p : ℝ) ≤ 1 := by exact_mod_cast h1
  have hq0 : (0 : ℝ) ≤ 1 - p := by linarith
  have hC : ((n.choose i : Nat) : ℝ) ≤ 2 ^ 31 := by exact_mod_cast choose_le hn i
  have hC0 : (0 : ℝ) ≤ (n.choose i : Nat) := by positivity
  obtain ⟨pc, -, hpc2⟩ := nb_pc hp h0 h1
  have hpc0 : (0 : ℝ) ≤ (fl (1 - p) : ℚ) := by exact_mod_cast pc.nonneg
  -- the two powers
  have A := Appr.of_err (by positivity) (by positivity) ha0 ha
  have B := Appr.of_err (by positivity) (by positivity) hb0 hb
  have eE : (1 : ℝ) / 2 ^ 1074 = eta := rfl
  rw [eE] at A B
  have Q := pc.pow hq0 (n - i)
  rw [mul_one] at Q
  have B' : Appr (2 * (2 * eta)) (n - i + 3) ((1 - (p : ℝ)) ^ (n - i)) b := by
    apply Q.trans (y := fl (1 - p) ^ (n - i)) _ (by positivity)
    · have := small_u (n := n - i) (by omega); linarith
    · push_cast; exact B
  -- the first product
  have C1 := (A.scale (n.choose i)).round (by have := small_u (n := 3 + 1) (by norm_num); linarith)
  have C2 : Appr (2 ^ 33 * eta) 4 ((n.choose i : ℝ) * p ^ i) (fl (n.choose i * a)) := by
    refine C1.mono (by positivity) (by positivity) ?_ le_rfl
    nlinarith
  have hpi : (p : ℝ) ^ i ≤ 1 := pow_le_one₀ hp0 hp1
  have hx1 : (n.choose i : ℝ) * p ^ i ≤ 2 ^ 31 := by
    have := mul_le_mul hC hpi (by positivity) (by positivity)
    linarith
  have hqi : (1 - (p : ℝ)) ^ (n - i) ≤ 1 := pow_le_one₀ hq0 (by linarith)
  have C3 := C2.mulB (B := 2 ^ 31) (by positivity) (by positivity) hx1 hqi (by positivity) (by positivity) B'
  have C4 := C3.round (by have := small_u (n := 4 + (n - i + 3) + 1) (by omega); linarith)
  refine ⟨C4.mono (by positivity) (by positivity) ?_ (by omega), C2.nonneg, ?_, ?_⟩
  · have : eta * eta ≤ eta := mul_le_of_le_one_right hE.le hE1
    nlinarith
  · have k1 : (a : ℝ) ≤ 4 := by
      have k2 := (abs_le.1 ha).2
      rw [eE] at k2
      have : (1 : ℝ) / 2 ^ 52 * p ^ i ≤ 1 * 1 := mul_le_mul (by norm_num) hpi (by positivity) (by norm_num)
      linarith
    have k3 : ((n.choose i * a : ℚ) : ℝ) ≤ 2 ^ 40 := by
      push_cast
      have := mul_le_mul hC k1 (by exact_mod_cast ha0) (by positivity)
      refine this.trans (by norm_num)
    exact_mod_cast k3
  · have k1 := C3.hi
    have k2 := hi_le (4 + (n - i + 3)) (by have := small_u (n := 4 + (n - i + 3)) (by omega); linarith)
    have k3 := small_u (n := 4 + (n - i + 3)) (by omega)
    have k4 : (n.choose i : ℝ) * p ^ i * (1 - (p : ℝ)) ^ (n - i) ≤ 2 ^ 31 * 1 := mul_le_mul hx1 hqi (by positivity) (by positivity)
    have k5 : 2 ^ 33 * eta + 2 ^ 31 * (2 * (2 * eta)) + 2 ^ 33 * eta * (2 * (2 * eta)) ≤ 2 ^ 50 := by
      have : eta * eta ≤ eta := mul_le_of_le_one_right hE.le hE1
      nlinarith
    have k6 : ((fl (n.choose i * a) * b : ℚ) : ℝ) ≤ 2 ^ 60 := by
      refine k1.trans (le_trans (mul_le_mul (b := 2 ^ 31 * 1 + 2 ^ 50) (d := 2) (by linarith) (by linarith)
        (by have := hi_ge (4 + (n - i + 3)); linarith) (by positivity)) (by norm_num))
    exact_mod_cast k6

/-- the partial sums of the table -/
def zq (y : Nat → ℚ) : Nat → ℚ
  | 0 => 0
  | i + 1 => fl (zq y i + y i)

theorem zq_appr (hn : n ≤ 33) (h0 : 0 ≤ p) (h1 : p ≤ 1) {y : Nat → ℚ} (hy : ∀ i < n, Appr (2 ^ 42 * eta) (n + 8) (binPmf n p i) (y i)) (i : Nat) (hi : i ≤ n) :
    Appr (i * (2 ^ 43 * eta)) (n + 8 + i) (∑ j ∈ range i, binPmf n p j) (zq y i) ∧ fl (zq y i) = zq y i := by
  have hE := eta_pos
  have hp0 : (0 : ℝ) ≤ p := by exact_mod_cast h0
  have hp1 : (p : ℝ) ≤ 1 := by exact_mod_cast h1
  have hq0 : (0 : ℝ) ≤ 1 - p := by linarith
  have hb : ∀ j, 0 ≤ binPmf n p j := by intro j; unfold binPmf; positivity
  induction i with
  | zero =>
    refine ⟨⟨le_rfl, ?_, ?_⟩, fl_zero⟩ <;> simp [zq]
  | succ i ih =>
    obtain ⟨ih, -⟩ := ih (by omega)
    have h2 := (hy i (by omega)).mono (hb i) (by positivity) le_rfl (show n + 8 ≤ n + 8 + i by omega)
    have h3 := (ih.add h2).round (by have := small_u (n := n + 8 + i + 1) (by omega); linarith)
    refine ⟨?_, fl_idem _⟩
    rw [sum_range_succ]
    refine h3.mono (add_nonneg (sum_nonneg fun j _ => hb j) (hb i)) (by positivity) ?_ (by omega)
    push_cast
    nlinarith

theorem zq_le (hn : n ≤ 33) (h0 : 0 ≤ p) (h1 : p ≤ 1) {y : Nat → ℚ} (hy : ∀ i < n, Appr (2 ^ 42 * eta) (n + 8) (binPmf n p i) (y i)) (i : Nat) (hi : i ≤ n) :
    |((zq y i : ℚ) : ℝ) - ∑ j ∈ range i, binPmf n p j| ≤ (4 * n + 17) * u ∧ 0 ≤ zq y i ∧ zq y i ≤ 4 := by
  have hE := eta_pos
  have hp0 : (0 : ℝ) ≤ p := by exact_mod_cast h0
  have hp1 : (p : ℝ) ≤ 1 := by exact_mod_cast h1
  have hq0 : (0 : ℝ) ≤ 1 - p := by linarith
  have hb : ∀ j, 0 ≤ binPmf n p j := by intro j; unfold binPmf; positivity
  obtain ⟨h2, -⟩ := zq_appr hn h0 h1 hy i hi
  have hs : ∑ j ∈ range i, binPmf n (p : ℝ) j ≤ 1 := by
    cases i with
    | zero => simp
    | succ i => exact binomialCdf_le_one n (p : ℝ) hp0 hp1 i (by omega)
  have h3 := h2.dist (sum_nonneg fun j _ => hb j) hs (by positivity) (by have := small_u (n := n + 8 + i) (by omega); linarith)
  have h4 : (i : ℝ) ≤ n := by exact_mod_cast hi
  have hn' : (n : ℝ) ≤ 33 := by exact_mod_cast hn
  have h5 : 2 * ((i : ℝ) * (2 ^ 43 * eta)) ≤ u := by
    refine le_trans ?_ eta_le
    have : (i : ℝ) * (2 ^ 43 * eta) ≤ 33 * (2 ^ 43 * eta) := mul_le_mul_of_nonneg_right (h4.trans hn') (by positivity)
    nlinarith
  have h6 : (((n + 8 + i : Nat) : ℝ)) * u ≤ (2 * n + 8) * u := by
    apply mul_le_mul_of_nonneg_right _ u_pos.le
    push_cast
    linarith
  have h7 : |((zq y i : ℚ) : ℝ) - ∑ j ∈ range i, binPmf n p j| ≤ (4 * n + 17) * u := by
    refine h3.trans ?_
    nlinarith
  refine ⟨h7, h2.nonneg, ?_⟩
  have h8 : (4 * (n : ℝ) + 17) * u ≤ 1 := by
    have := small_u (n := 4 * n + 17) (by omega)
    push_cast at this
    linarith
  have : ((zq y i : ℚ) : ℝ) ≤ 4 := by
    have := (abs_le.1 h7).2
    linarith
  exact_mod_cast this

theorem isDouble_one_sub (h0 : 0 ≤ p) (h1 : p ≤ 1) : IsDouble (fl (1 - p)) ∧ 0 ≤ fl (1 - p) ∧ fl (1 - p) ≤ 1 := by
  have hfl1 : fl (1 : ℚ) = 1 := by decide +kernel
  have h2 : fl (1 - p) ≤ 1 := by
    have h3 : fl (1 - p) ≤ fl (1 : ℚ) := fl_mono (by linarith)
    rwa [hfl1] at h3
  have h3 : 0 ≤ fl (1 - p) := fl_nonneg (by linarith)
  refine ⟨fl_isDouble ?_, h3, h2⟩
  rw [abs_of_nonneg h3]
  exact lt_of_le_of_lt h2 (one_lt_pow₀ (by norm_num) (by norm_num))

/-- the thresholds of the table; the last one is never compared -/
def binThr (n : Nat) (y : Nat → ℚ) (i : Nat) : ℚ := if i < n then zq y (i + 1) else 4

theorem bin_mono (hn : n ≤ 33) (h0 : 0 ≤ p) (h1 : p ≤ 1) {y : Nat → ℚ}
    (hy : ∀ i < n, Appr (2 ^ 42 * eta) (n + 8) (binPmf n p i) (y i)) (k : Nat) : binThr n y k ≤ binThr n y (k + 1) := by
  unfold binThr
  split
  · rename_i h
    split
    · rename_i h'
      have h2 := (zq_appr hn h0 h1 hy (k + 1) (by omega)).2
      rw [← h2]
      show fl (zq y (k + 1)) ≤ fl (zq y (k + 1) + y (k + 1))
      exact fl_mono (by have := (hy (k + 1) h').nonneg; linarith)
    · exact (zq_le hn h0 h1 hy (k + 1) (by omega)).2.2
  · rw [if_neg (by omega)]

theorem bin_err (hn : n ≤ 33) (h0 : 0 ≤ p) (h1 : p ≤ 1) {y : Nat → ℚ}
    (hy : ∀ i < n, Appr (2 ^ 42 * eta) (n + 8) (binPmf n p i) (y i)) (k : Nat) (hk : k ≤ n) :
    |((min (binThr n y k) 1 : ℚ) : ℝ) - binomialCdf n (p : ℝ) k| ≤ (4 * n + 17) * u := by
  have hp0 : (0 : ℝ) ≤ p := by exact_mod_cast h0
  have hp1 : (p : ℝ) ≤ 1 := by exact_mod_cast h1
  unfold binThr
  split
  · rw [Rat.cast_min, Rat.cast_one]
    exact min_dist (binomialCdf_le_one n (p : ℝ) hp0 hp1 k hk) (zq_le hn h0 h1 hy (k + 1) (by omega)).1
  · obtain rfl : k = n := by omega
    rw [binomialCdf_last, min_eq_right (by norm_num)]
    have := u_pos
    simp only [Rat.cast_one, sub_self, abs_zero]
    positivity

/-- what the constructor stores -/
theorem bin_init {pow : Dbl → Nat → Dbl} (hpow : PowOk pow) (hn : n ≤ 33) (hp : IsDouble p) (h0 : 0 ≤ p) (h1 : p ≤ 1) :
    ∃ (b : Binomial Dbl) (y : Nat → ℚ), binomialInit pow n (Dbl.fin p) = .ok b ∧ b.n = n ∧
      (∀ i < n, b.table.get i = .ok (.fin (zq y (i + 1)))) ∧
      ∀ i < n, Appr (2 ^ 42 * eta) (n + 8) (binPmf n p i) (y i) := by
  have hM : INT_MAX = 2147483647 := rfl
  have e0 : ((0 : Int) : Dbl) = Dbl.fin 0 := by decide +kernel
  have e1 : ((1 : Int) : Dbl) = Dbl.fin 1 := by decide +kernel
  obtain ⟨d1, d2, d3⟩ := isDouble_one_sub h0 h1
  have hpc : ((1 : Int) : Dbl) - Dbl.fin p = Dbl.fin (fl (1 - p)) := by
    rw [e1, Stats.sub_dbl, Stats.round_small]
    rw [abs_of_nonneg (by linarith)]
    exact le_trans (by linarith : 1 - p ≤ 1) (by norm_num)
  choose! a ha ha0 hae using fun i (hi : i ≤ 33) => hpow p hp h0 h1 i hi
  choose! b hb hb0 hbe using fun i (hi : i ≤ 33) => hpow (fl (1 - p)) d1 d2 d3 i hi
  set y : Nat → ℚ := fun i => fl (fl (n.choose i * a i) * b (n - i)) with hydef
  have hterm := fun i (hi : i < n) => bin_term hn hp h0 h1 hi.le (ha0 i (by omega)) (hb0 (n - i) (by omega)) (hae i (by omega)) (hbe (n - i) (by omega))
  have hy : ∀ i < n, Appr (2 ^ 42 * eta) (n + 8) (binPmf n p i) (y i) := fun i hi => (hterm i hi).1
  obtain ⟨bb, hbb, hbn, ht, -⟩ := binomialInit_ok pow n (by omega) (Dbl.fin p) (by
      rw [e0, e1, fin_lt, fin_lt]; push Not; exact ⟨h0, h1⟩) (fun i => (n.choose i : Int))
    (fun i hi => binomial_le_33 n hn i hi.le) (fun i => .fin (zq y (i + 1))) (fun i => .fin (zq y i)) e0.symm (by
      intro i hi
      obtain ⟨t1, t2, t3, t4⟩ := hterm i hi
      have c1 := choose_le hn i
      rw [hpc, ha i (by omega), hb (n - i) (by omega), Stats.cast_dbl (by rw [abs_of_nonneg (by omega)]; omega), Stats.mul_dbl,
        Stats.round_small (small4 (mul_nonneg (by positivity) (ha0 i (by omega))) (by
          push_cast; exact t3.trans (by norm_num)))]
      push_cast
      rw [Stats.mul_dbl, Stats.round_small (small4 (mul_nonneg t2 (hb0 (n - i) (by omega))) (t4.trans (by norm_num))), Stats.add_dbl,
        Stats.round_small]
      · rfl
      · obtain ⟨-, z1, z2⟩ := zq_le hn h0 h1 hy i hi.le
        apply small4 (add_nonneg z1 t1.nonneg)
        have : fl (fl (n.choose i * a i) * b (n - i)) ≤ 2 ^ 60 := by
          have := fl_mono t4
          rwa [show fl ((2 : ℚ) ^ 60) = 2 ^ 60 from by decide +kernel] at this
        norm_num at *
        linarith) (fun i _ => rfl)
  exact ⟨bb, y, hbb, hbn, ht, hy⟩

theorem bin_finds {b : Binomial Dbl} {y : Nat → ℚ} (hbn : b.n = n) (ht : ∀ i < n, b.table.get i = .ok (.fin (zq y (i + 1)))) :
    Finds (fun E => binomialNext (E := E) b) (binThr n y) n := by
  intro E s j hj
  obtain ⟨k, -, hk, hr, hq, hl⟩ := binomialScan_spec b (Dbl.fin (unif (E.draw s).1.val)) n hbn (fun i => .fin (zq y (i + 1))) ht n 0 (by omega)
  have hrun : binomialNext b s = .ok ((k : Int), (E.draw s).2) := by
    unfold binomialNext
    rw [bind_run, nextDouble0_dbl]
    simp only [Out.bind]
    rw [lift_run, hbn, Int.toNat_natCast, hr]
    rfl
  have hu : unif (E.draw s).1.val < 4 := lt_of_le_of_lt (unif_le_one (E.draw s).1.isLt) (by norm_num)
  simp only [fin_lt, not_lt] at hq hl
  have hlt : ∀ i < k, binThr n y i ≤ unif (E.draw s).1.val := fun i hi => by
    unfold binThr
    rw [if_pos (by omega)]
    exact hq i (by omega) hi
  have hge : unif (E.draw s).1.val < binThr n y k := by
    unfold binThr
    split
    · exact hl (by assumption)
    · exact hu
  beta_reduce
  rw [hrun]
  constructor
  · intro h
    simp only [Out.ok.injEq, Prod.mk.injEq, Nat.cast_inj, and_true] at h
    subst h
    exact ⟨hge, hlt⟩
  · rintro ⟨h1, h2⟩
    rcases Nat.lt_trichotomy j k with h | h | h
    · exact absurd h1 (not_lt.2 (hlt j h))
    · rw [h]
    · exact absurd hge (not_lt.2 (h2 k h))

end

/-! ### `exp` -/

theorem tiny_exp {l : ℚ} (h : l ≤ 690) : tiny ≤ Real.exp (-l) := by
  have h1 : Real.exp 690 ≤ 2 ^ 1000 := by
    have h2 : Real.exp 69 ≤ 2 ^ 100 := by
      have h3 : Real.exp 69 = Real.exp 1 ^ 69 := by rw [← Real.exp_nat_mul]; norm_num
      rw [h3]
      refine (pow_le_pow_left₀ (Real.exp_pos _).le Real.exp_one_lt_d9.le 69).trans ?_
      norm_num
    have h4 : Real.exp 690 = Real.exp 69 ^ 10 := by rw [← Real.exp_nat_mul]; norm_num
    rw [h4, show (1000 : Nat) = 100 * 10 by norm_num, pow_mul]
    exact pow_le_pow_left₀ (Real.exp_pos _).le h2 10
  have h5 : Real.exp (l : ℝ) ≤ 2 ^ 1000 := (Real.exp_le_exp.2 (by exact_mod_cast h)).trans h1
  unfold tiny
  rw [Real.exp_neg, ← one_div]
  exact one_div_le_one_div_of_le (Real.exp_pos _) h5

end Rand.Err
