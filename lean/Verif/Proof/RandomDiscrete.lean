import Verif.Proof.RandomDouble
import Verif.Proof.Loop
import Verif.Props.MathFns
import Mathlib.Analysis.SpecificLimits.Normed
import Mathlib.Analysis.SpecialFunctions.Exponential
import Mathlib.Data.Nat.Choose.Sum

/-! # Lemmas about the discrete samplers -/

set_option linter.unusedSectionVars false

namespace Rand
open Cpp Spec

variable {E : Engine}

section loops
variable {D : Type} [Add D] [Sub D] [Neg D] [Mul D] [Div D] [IntCast D] [LT D] [LE D] [DecidableLT D]
  [DecidableLE D]

/-- A run of the loop that never finds the threshold ends with an overflow. -/
theorem negBinomialLoop_ub (r : Int) (pc u : D) (I : Int → D → D → Prop)
    (hI : ∀ k prob thr, 0 ≤ k → I k prob thr → thr ≤ u ∧ (k < INT_MAX → r + (k + 1) ≤ INT_MAX →
      I (k + 1) (prob * (pc * ((r + (k + 1) - 1 : Int) : D) / ((k + 1 : Int) : D)))
        (thr + prob * (pc * ((r + (k + 1) - 1 : Int) : D) / ((k + 1 : Int) : D)))))
    (hr : 0 < r) (fuel : Nat) (k : Int) (hk0 : 0 ≤ k) (hk : k ≤ INT_MAX) (hf : INT_MAX - k + 1 ≤ fuel)
    (prob thr : D) (h : I k prob thr) :
    negBinomialLoop r pc u fuel k prob thr = .ub := by
  have hM : INT_MAX = 2147483647 := rfl
  have hm : INT_MIN = -2147483648 := rfl
  induction fuel generalizing k prob thr with
  | zero => omega
  | succ n ih =>
    obtain ⟨h1, h2⟩ := hI k prob thr hk0 h
    unfold negBinomialLoop
    rw [if_pos h1]
    by_cases hk1 : k = INT_MAX
    · have : int (k + 1) = .ub := by
        unfold int; rw [if_neg]; rintro ⟨_, _⟩; omega
      rw [this]; rfl
    rw [int_ok (by constructor <;> omega)]
    simp only [Out.ok_bind]
    by_cases hr1 : r + (k + 1) ≤ INT_MAX
    · rw [int_ok (by constructor <;> omega)]
      simp only [Out.ok_bind]
      rw [int_ok (by constructor <;> omega)]
      simp only [Out.ok_bind]
      exact ih (k + 1) (by omega) (by omega) (by omega) _ _ (h2 (by omega) hr1)
    · have : int (r + (k + 1)) = .ub := by
        unfold int; rw [if_neg]; rintro ⟨_, _⟩; omega
      rw [this]; rfl

theorem negBinomialLoop_ne_diverge (r : Int) (pc u : D) (fuel : Nat) (k : Int) (hk0 : 0 ≤ k)
    (hk : k ≤ INT_MAX) (hf : INT_MAX - k + 1 ≤ fuel) (prob thr : D) :
    negBinomialLoop r pc u fuel k prob thr ≠ .diverge := by
  have hM : INT_MAX = 2147483647 := rfl
  have hm : INT_MIN = -2147483648 := rfl
  induction fuel generalizing k prob thr with
  | zero => omega
  | succ n ih =>
    unfold negBinomialLoop
    split
    · by_cases hk1 : k = INT_MAX
      · have : int (k + 1) = .ub := by
          unfold int; rw [if_neg]; rintro ⟨_, _⟩; omega
        rw [this]; simp
      rw [int_ok (by constructor <;> omega)]
      simp only [Out.ok_bind]
      unfold int
      split
      · simp only [Out.ok_bind]
        split
        · simp only [Out.ok_bind]
          exact ih (k + 1) (by omega) (by omega) (by omega) _ _
        · simp
      · simp
    · simp

theorem poissonLoop_ub (lambda u : D) (I : Int → D → D → Prop)
    (hI : ∀ k prob thr, 0 ≤ k → I k prob thr → thr ≤ u ∧ (k < INT_MAX →
      I (k + 1) (prob * (lambda / ((k + 1 : Int) : D)))
        (thr + prob * (lambda / ((k + 1 : Int) : D)))))
    (fuel : Nat) (k : Int) (hk0 : 0 ≤ k) (hk : k ≤ INT_MAX) (hf : INT_MAX - k + 1 ≤ fuel)
    (prob thr : D) (h : I k prob thr) :
    poissonLoop lambda u fuel k prob thr = .ub := by
  have hM : INT_MAX = 2147483647 := rfl
  have hm : INT_MIN = -2147483648 := rfl
  induction fuel generalizing k prob thr with
  | zero => omega
  | succ n ih =>
    obtain ⟨h1, h2⟩ := hI k prob thr hk0 h
    unfold poissonLoop
    rw [if_pos h1]
    by_cases hk1 : k = INT_MAX
    · have : int (k + 1) = .ub := by
        unfold int; rw [if_neg]; rintro ⟨_, _⟩; omega
      rw [this]; rfl
    rw [int_ok (by constructor <;> omega)]
    simp only [Out.ok_bind]
    exact ih (k + 1) (by omega) (by omega) (by omega) _ _ (h2 (by omega))

theorem poissonLoop_ne_diverge (lambda u : D) (fuel : Nat) (k : Int) (hk0 : 0 ≤ k) (hk : k ≤ INT_MAX)
    (hf : INT_MAX - k + 1 ≤ fuel) (prob thr : D) :
    poissonLoop lambda u fuel k prob thr ≠ .diverge := by
  have hM : INT_MAX = 2147483647 := rfl
  have hm : INT_MIN = -2147483648 := rfl
  induction fuel generalizing k prob thr with
  | zero => omega
  | succ n ih =>
    unfold poissonLoop
    split
    · by_cases hk1 : k = INT_MAX
      · have : int (k + 1) = .ub := by
          unfold int; rw [if_neg]; rintro ⟨_, _⟩; omega
        rw [this]; simp
      rw [int_ok (by constructor <;> omega)]
      simp only [Out.ok_bind]
      exact ih (k + 1) (by omega) (by omega) (by omega) _ _
    · simp

/-- The first threshold above `u` is found. -/
theorem negBinomialLoop_find (r : Int) (pc u : D) (P T : Nat → D)
    (hP : ∀ k : Nat, P k * (pc * ((r + (k + 1) - 1 : Int) : D) / ((k + 1 : Int) : D)) = P (k + 1))
    (hT : ∀ k : Nat, T k + P (k + 1) = T (k + 1)) (hr : 0 < r) (n : Nat)
    (hn : r + n ≤ INT_MAX) (h1 : ¬ T n ≤ u) (h2 : ∀ j < n, T j ≤ u) (k : Nat) (hk : k ≤ n) (fuel : Nat)
    (hf : n - k < fuel) :
    negBinomialLoop r pc u fuel k (P k) (T k) = .ok n := by
  have hM : INT_MAX = 2147483647 := rfl
  have hm : INT_MIN = -2147483648 := rfl
  induction fuel generalizing k with
  | zero => omega
  | succ f ih =>
    unfold negBinomialLoop
    by_cases hkn : k = n
    · subst hkn; rw [if_neg h1]
    rw [if_pos (h2 k (by omega)), int_ok (by constructor <;> omega)]
    simp only [Out.ok_bind]
    rw [int_ok (by constructor <;> omega)]
    simp only [Out.ok_bind]
    rw [int_ok (by constructor <;> omega)]
    simp only [Out.ok_bind]
    rw [hP, hT]
    have := ih (k + 1) (by omega) (by omega)
    push_cast at this
    exact this

theorem poissonLoop_find (lambda u : D) (P T : Nat → D)
    (hP : ∀ k : Nat, P k * (lambda / ((k + 1 : Int) : D)) = P (k + 1))
    (hT : ∀ k : Nat, T k + P (k + 1) = T (k + 1)) (n : Nat)
    (hn : (n : Int) ≤ INT_MAX) (h1 : ¬ T n ≤ u) (h2 : ∀ j < n, T j ≤ u) (k : Nat) (hk : k ≤ n)
    (fuel : Nat) (hf : n - k < fuel) :
    poissonLoop lambda u fuel k (P k) (T k) = .ok n := by
  have hM : INT_MAX = 2147483647 := rfl
  have hm : INT_MIN = -2147483648 := rfl
  induction fuel generalizing k with
  | zero => omega
  | succ f ih =>
    unfold poissonLoop
    by_cases hkn : k = n
    · subst hkn; rw [if_neg h1]
    rw [if_pos (h2 k (by omega)), int_ok (by constructor <;> omega)]
    simp only [Out.ok_bind]
    rw [hP, hT]
    have := ih (k + 1) (by omega) (by omega)
    push_cast at this
    exact this

theorem binomialScan_spec (b : Binomial D) (u : D) (n : Nat) (hb : b.n = n) (T : Nat → D)
    (hT : ∀ i, i < n → b.table.get i = .ok (T i)) (m i : Nat) (hm : i + m = n) :
    ∃ k, i ≤ k ∧ k ≤ n ∧ binomialScan b u m i = .ok (k : Int) ∧ (∀ j, i ≤ j → j < k → ¬ u < T j) ∧
      (k < n → u < T k) := by
  induction m generalizing i with
  | zero =>
    refine ⟨n, by omega, le_rfl, ?_, ?_, by omega⟩
    · unfold binomialScan; rw [hb]
    · intro j _ _; omega
  | succ m ih =>
    unfold binomialScan
    rw [hT i (by omega)]
    simp only [Out.ok_bind]
    by_cases h : u < T i
    · rw [if_pos h]
      exact ⟨i, le_rfl, by omega, rfl, by intro j _ _; omega, fun _ => h⟩
    · rw [if_neg h]
      obtain ⟨k, h1, h2, h3, h4, h5⟩ := ih (i + 1) (by omega)
      refine ⟨k, by omega, h2, h3, ?_, h5⟩
      intro j hj hk
      rcases Nat.eq_or_lt_of_le hj with rfl | hj
      · exact h
      · exact h4 j hj hk

/-- The table: the values of the partial sums. -/
theorem binomialInit_ok (pow : D → Nat → D) (n : Nat) (hn : (n : Int) < INT_MAX) (p : D)
    (hp : ¬ (p < ((0 : Int) : D) ∨ ((1 : Int) : D) < p)) (c : Nat → Int)
    (hc : ∀ i < n, MathFns.binomial int n i = .ok (c i)) (T : Nat → D) (Z : Nat → D)
    (hZ0 : Z 0 = ((0 : Int) : D))
    (hZ : ∀ i < n, Z (i + 1) = Z i + (c i : D) * pow p i * pow (((1 : Int) : D) - p) (n - i))
    (hT : ∀ i < n, T i = Z (i + 1)) :
    ∃ b, binomialInit pow n p = .ok b ∧ b.n = n ∧ (∀ i < n, b.table.get i = .ok (T i)) ∧
      b.table.get n = .ok ((1 : Int) : D) := by
  have hM : INT_MAX = 2147483647 := rfl
  have hm : INT_MIN = -2147483648 := rfl
  unfold binomialInit
  rw [if_neg (by rintro (h | h); exact absurd h (by omega); exact hp h), int_ok (by constructor <;> omega)]
  simp only [Out.ok_bind, Int.toNat_natCast]
  obtain ⟨st, e, h1, h2, h3⟩ := foldlM_range_inv
    (binomialStep pow n p (((1 : Int) : D) - p))
    (fun k st => st.1 = Z k ∧ st.2.size = n + 1 ∧ ∀ i < k, st.2.get i = .ok (T i)) n
    (((0 : Int) : D), Arr.new ((n : Int) + 1).toNat)
    ⟨hZ0.symm, by simp [Arr.new], by intro i hi; omega⟩
    (by
      intro k hk st ⟨h1, h2, h3⟩
      unfold binomialStep
      rw [hc k hk]
      simp only [Out.ok_bind]
      unfold Arr.set
      rw [if_pos ⟨by omega, by omega⟩]
      simp only [Out.ok_bind]
      refine ⟨_, rfl, ?_, ?_, ?_⟩
      · dsimp only; rw [hZ k hk, h1]
      · exact h2
      · intro i hi
        unfold Arr.get
        dsimp only
        rw [if_pos ⟨by omega, by omega⟩]
        by_cases hik : i = k
        · subst hik
          simp only [Int.toNat_natCast, if_true]
          rw [hT i hk, hZ i hk, h1]
        · simp only [Int.toNat_natCast, if_neg hik]
          have := h3 i (by omega)
          unfold Arr.get at this
          rw [if_pos ⟨by omega, by omega⟩] at this
          simpa using this)
  rw [e]
  simp only [Out.ok_bind]
  obtain ⟨st1, st2⟩ := st
  dsimp only at h1 h2 h3 ⊢
  unfold Arr.set
  rw [if_pos ⟨by omega, by omega⟩]
  simp only [Out.ok_bind]
  refine ⟨_, rfl, rfl, ?_, ?_⟩
  · intro i hi
    have := h3 i hi
    unfold Arr.get at this ⊢
    dsimp only
    rw [if_pos ⟨by omega, by omega⟩] at this ⊢
    simp only [Int.toNat_natCast, if_neg (show i ≠ n by omega)]
    simpa using this
  · unfold Arr.get
    dsimp only
    rw [if_pos ⟨by omega, by omega⟩]
    simp

/-- Every table that was built can be read. -/
theorem binomialInit_inv (pow : D → Nat → D) (n : Int) (p : D) (b : Binomial D)
    (h : binomialInit pow n p = .ok b) :
    0 ≤ n ∧ b.n = n ∧ ∀ i : Nat, (i : Int) < n → ∃ v, b.table.get i = .ok v := by
  unfold binomialInit at h
  split at h
  · simp at h
  · rename_i hn
    have hn0 : 0 ≤ n := by
      by_contra hc; exact hn (.inl (by omega))
    obtain ⟨size, hs, h⟩ := Out.bind_eq_ok.1 h
    obtain ⟨_, rfl⟩ := int_eq_ok.1 hs
    obtain ⟨⟨t, a⟩, hst, h⟩ := Out.bind_eq_ok.1 h
    have hP := (foldlM_range_both (binomialStep pow n.toNat p (((1 : Int) : D) - p))
      (fun k st => st.2.size = (n + 1).toNat ∧ ∀ i < k, ∃ v, st.2.get i = .ok v) False n.toNat
      (((0 : Int) : D), Arr.new (n + 1).toNat)
      ⟨by simp [Arr.new], by intro i hi; omega⟩
      (by
        intro k hk st ⟨h1, h2⟩
        refine ⟨fun st' h' => ?_, fun hf => hf.elim⟩
        unfold binomialStep at h'
        obtain ⟨c, _, h'⟩ := Out.bind_eq_ok.1 h'
        obtain ⟨a, ha, h'⟩ := Out.bind_eq_ok.1 h'
        unfold Arr.set at ha
        rw [if_pos ⟨by omega, by omega⟩] at ha
        simp only [Out.ok.injEq] at ha h'
        subst ha h'
        refine ⟨h1, fun i hi => ?_⟩
        unfold Arr.get
        dsimp only
        rw [if_pos ⟨by omega, by omega⟩]
        by_cases hik : i = k
        · subst hik
          simp
        · obtain ⟨v, hv⟩ := h2 i (by omega)
          unfold Arr.get at hv
          rw [if_pos ⟨by omega, by omega⟩] at hv
          simp only [Int.toNat_natCast, if_neg hik] at hv ⊢
          exact ⟨v, hv⟩)).1 _ hst
    obtain ⟨hP1, hP2⟩ := hP
    dsimp only at hP1 hP2 h
    unfold Arr.set at h
    rw [if_pos ⟨by omega, by omega⟩] at h
    simp only [Out.ok_bind, Out.ok.injEq] at h
    subst h
    refine ⟨hn0, rfl, fun i hi => ?_⟩
    obtain ⟨v, hv⟩ := hP2 i (by omega)
    unfold Arr.get at hv ⊢
    dsimp only
    rw [if_pos ⟨by omega, by omega⟩] at hv ⊢
    simp only [Int.toNat_natCast, if_neg (show i ≠ n.toNat by omega)] at hv ⊢
    exact ⟨v, hv⟩

end loops

section exact
variable {K : Type} [Field K] [LinearOrder K] [IsStrictOrderedRing K]

theorem iter_eq_pow (x : K) (n : Nat) : MathFns.Spec.iter x n = x ^ (n + 1) := by
  induction n with
  | zero => simp [MathFns.Spec.iter]
  | succ n ih => simp [MathFns.Spec.iter, ih, pow_succ]

theorem genericBinaryPow_eq (p : K) (r : Nat) (hr : 0 < r) :
    MathFns.genericBinaryPow (((1 : Int)) : K) (fun x y => .ok (x * y)) p r = .ok (p ^ r) := by
  obtain ⟨n, rfl⟩ : ∃ n, r = n + 1 := ⟨r - 1, by omega⟩
  obtain ⟨y, hy⟩ := (MathFns.C26_generic_total (fun x y : K => .ok (x * y)) (fun x y => ⟨_, rfl⟩)
    (((1 : Int)) : K) p n).1
  have := MathFns.C26_generic_correct (fun x y : K => .ok (x * y)) (id : K → K)
    (by intro x y z h; cases h; rfl) (((1 : Int)) : K) p y n (.inl hy)
  rw [iter_eq_pow] at this
  rw [Nat.cast_succ, hy]
  congr 1

theorem binomial_le_33 (n : Nat) (hn : n ≤ 33) (i : Nat) (hi : i ≤ n) :
    MathFns.binomial int n i = .ok (n.choose i : Int) := by
  have h : n.choose i ≤ 2147483647 := by
    refine (Nat.choose_le_middle i n).trans ?_
    have : ∀ m : Fin 34, m.val.choose (m.val / 2) ≤ 2147483647 := by decide +kernel
    exact this ⟨n, by omega⟩
  have := MathFns.C27_binomial n i hi (by
    rw [Finset.card_powersetCard, Finset.card_range]
    have hM : INT_MAX = 2147483647 := rfl
    have hm : INT_MIN = -2147483648 := rfl
    constructor <;> omega)
  rwa [Finset.card_powersetCard, Finset.card_range] at this

/-- The probabilities of the negative binomial distribution. -/
def negPmf (r : Nat) (p : K) (i : Nat) : K := ((i + r - 1).choose (r - 1) : K) * p ^ r * (1 - p) ^ i

theorem negPmf_succ (r : Nat) (hr : 0 < r) (p : K) (k : Nat) :
    negPmf r p k * ((1 - p) * ((r + (k + 1) - 1 : Int) : K) / ((k + 1 : Int) : K)) = negPmf r p (k + 1) := by
  obtain ⟨n, rfl⟩ : ∃ n, r = n + 1 := ⟨r - 1, by omega⟩
  unfold negPmf
  have e1 : k + (n + 1) - 1 = k + n := by omega
  have e2 : k + 1 + (n + 1) - 1 = k + n + 1 := by omega
  have e3 : n + 1 - 1 = n := by omega
  rw [e1, e2, e3]
  have h : (k + n + 1).choose n * (k + 1) = (k + n).choose n * (k + n + 1) := by
    have h1 := Nat.choose_mul_succ_eq (k + n) n
    have h2 : k + n + 1 - n = k + 1 := by omega
    rw [h2] at h1
    exact h1.symm
  have h' : ((k + n + 1).choose n : K) * (k + 1) = ((k + n).choose n : K) * (k + n + 1) := by
    exact_mod_cast h
  have hk : (k : K) + 1 ≠ 0 := by positivity
  push_cast
  rw [eq_comm]
  field_simp
  linear_combination (p ^ (n + 1) * (1 - p) ^ (k + 1)) * h'

theorem negCdf_succ (r : Nat) (p : K) (k : Nat) :
    negBinomialCdf r p k + negPmf r p (k + 1) = negBinomialCdf r p (k + 1) := by
  unfold negBinomialCdf negPmf
  rw [Finset.sum_range_succ _ (k + 1)]

theorem negCdf_zero (r : Nat) (p : K) :
    negBinomialCdf r p 0 = p ^ r ∧ negPmf r p 0 = p ^ r := by
  unfold negBinomialCdf negPmf
  simp

end exact

section
variable {K : Type} [Field K] [LinearOrder K] [IsStrictOrderedRing K]

theorem binomialCdf_last (n : Nat) (p : K) : binomialCdf n p n = 1 := by
  unfold binomialCdf
  have := add_pow p (1 - p) n
  rw [add_sub_cancel, one_pow] at this
  refine Eq.trans ?_ this.symm
  exact Finset.sum_congr rfl fun i _ => by ring

theorem binomialCdf_le_one (n : Nat) (p : K) (h0 : 0 ≤ p) (h1 : p ≤ 1) (k : Nat) (hk : k ≤ n) :
    binomialCdf n p k ≤ 1 := by
  rw [← binomialCdf_last n p]
  unfold binomialCdf
  apply Finset.sum_le_sum_of_subset_of_nonneg
  · intro i hi; simp only [Finset.mem_range] at *; omega
  · intro i _ _
    have : 0 ≤ 1 - p := by linarith
    positivity

end

/-- The probabilities of the negative binomial distribution add up to 1. -/
theorem negCdf_tendsto (r : Nat) (hr : 0 < r) (p : ℝ) (h0 : 0 < p) (h1 : p ≤ 1) :
    Filter.Tendsto (negBinomialCdf r p) Filter.atTop (nhds 1) := by
  obtain ⟨n, rfl⟩ : ∃ n, r = n + 1 := ⟨r - 1, by omega⟩
  have hq : ‖1 - p‖ < 1 := by rw [Real.norm_eq_abs, abs_lt]; constructor <;> linarith
  have h := (hasSum_choose_mul_geometric_of_norm_lt_one n hq).mul_left (p ^ (n + 1))
  have e : p ^ (n + 1) * (1 / (1 - (1 - p)) ^ (n + 1)) = 1 := by
    rw [sub_sub_cancel]
    field_simp
  rw [e] at h
  have h2 := h.tendsto_sum_nat
  have h3 := (Filter.tendsto_add_atTop_iff_nat 1).2 h2
  refine h3.congr fun k => ?_
  unfold negBinomialCdf
  refine Finset.sum_congr rfl fun i _ => ?_
  have e1 : i + (n + 1) - 1 = i + n := by omega
  rw [e1, Nat.add_sub_cancel]
  ring

/-- The probabilities of the Poisson distribution. -/
noncomputable def poiPmf (lambda : ℝ) (i : Nat) : ℝ := lambda ^ i * Real.exp (-lambda) / (i.factorial : ℝ)

theorem poiPmf_succ (lambda : ℝ) (k : Nat) :
    poiPmf lambda k * (lambda / ((k + 1 : Int) : ℝ)) = poiPmf lambda (k + 1) := by
  unfold poiPmf
  rw [Nat.factorial_succ]
  push_cast
  have : (k.factorial : ℝ) ≠ 0 := by exact_mod_cast k.factorial_ne_zero
  have : (k : ℝ) + 1 ≠ 0 := by positivity
  field_simp
  ring

theorem poiCdf_succ (lambda : ℝ) (k : Nat) :
    poissonCdf lambda k + poiPmf lambda (k + 1) = poissonCdf lambda (k + 1) := by
  unfold poissonCdf poiPmf
  rw [Finset.sum_range_succ _ (k + 1)]

theorem poiCdf_tendsto (lambda : ℝ) : Filter.Tendsto (poissonCdf lambda) Filter.atTop (nhds 1) := by
  have h := (NormedSpace.expSeries_div_hasSum_exp (𝔸 := ℝ) lambda).mul_left (Real.exp (-lambda))
  rw [← Real.exp_eq_exp_ℝ, ← Real.exp_add] at h
  simp only [neg_add_cancel, Real.exp_zero] at h
  have h3 := (Filter.tendsto_add_atTop_iff_nat 1).2 h.tendsto_sum_nat
  refine h3.congr fun k => ?_
  unfold poissonCdf
  refine Finset.sum_congr rfl fun i _ => ?_
  ring

/-- A distribution function with limit 1 has a quantile for every `u < 1`. -/
theorem exists_quantile (F : Nat → ℝ) (h : Filter.Tendsto F Filter.atTop (nhds 1)) (u : ℝ) (hu : u < 1) :
    ∃ k, IsQuantile F u k := by
  have hex : ∃ k, u < F k := (h.eventually (lt_mem_nhds hu)).exists
  classical
  exact ⟨Nat.find hex, Nat.find_spec hex, fun j hj => Nat.find_min hex hj⟩

section
variable {K : Type} [Field K] [LinearOrder K] [IsStrictOrderedRing K]

/-- Without a quantile the behaviour is undefined. -/
theorem negBinomial_none (r : Nat) (hr : 0 < r) (p : K) (h0 : 0 < p) (h1 : p ≤ 1) :
    ∃ b, negBinomialInit r p = .ok b ∧
      ∀ (E : Engine) (s s' : E.σ) (u : K), nextDouble0 s = .ok (u, s') →
        (∀ k, negBinomialCdf r p k ≤ u) → negBinomialNext b s = .ub := by
  have hi : negBinomialInit r p = .ok ⟨r, p, p ^ r⟩ := by
    unfold negBinomialInit
    rw [if_neg (by push_cast; rintro (h | h | h); exact absurd h (by omega); linarith; linarith),
      genericBinaryPow_eq p r hr]
    rfl
  refine ⟨_, hi, fun E s s' u hu hle => ?_⟩
  have hM : INT_MAX = 2147483647 := rfl
  unfold negBinomialNext
  rw [bind_run, hu]
  simp only [Out.bind]
  obtain ⟨e1, e2⟩ := negCdf_zero r p
  have := negBinomialLoop_ub (r : Int) (((1 : Int) : K) - p) u
    (fun k prob thr => ∃ j : Nat, k = j ∧ prob = negPmf r p j ∧ thr = negBinomialCdf r p j)
    (by
      rintro _ _ _ _ ⟨j, rfl, rfl, rfl⟩
      refine ⟨hle j, fun _ _ => ⟨j + 1, by push_cast; ring, ?_, ?_⟩⟩
      · rw [← negPmf_succ r hr p j]; push_cast; ring
      · rw [← negCdf_succ r p j, ← negPmf_succ r hr p j]; push_cast; ring)
    (by omega) (2 ^ 31) 0 (by omega) (by omega) (by omega) (p ^ r) (p ^ r)
    ⟨0, rfl, e2.symm, e1.symm⟩
  rw [lift_run, this]
  rfl

end

/-- Without a quantile the behaviour is undefined. -/
theorem poisson_none (lambda : ℝ) (h0 : 0 < lambda) :
    ∃ b, poissonInit Real.exp lambda = .ok b ∧
      ∀ (E : Engine) (s s' : E.σ) (u : ℝ), nextDouble0 s = .ok (u, s') →
        (∀ k, poissonCdf lambda k ≤ u) → poissonNext b s = .ub := by
  have hi : poissonInit Real.exp lambda = .ok ⟨lambda, Real.exp (-lambda)⟩ := by
    unfold poissonInit
    rw [if_neg (by push_cast; linarith)]
  refine ⟨_, hi, fun E s s' u hu hle => ?_⟩
  have hM : INT_MAX = 2147483647 := rfl
  unfold poissonNext
  rw [bind_run, hu]
  simp only [Out.bind]
  have e1 : poissonCdf lambda 0 = Real.exp (-lambda) := by simp [poissonCdf]
  have e2 : poiPmf lambda 0 = Real.exp (-lambda) := by simp [poiPmf]
  have := poissonLoop_ub lambda u
    (fun k prob thr => ∃ j : Nat, k = j ∧ prob = poiPmf lambda j ∧ thr = poissonCdf lambda j)
    (by
      rintro _ _ _ _ ⟨j, rfl, rfl, rfl⟩
      refine ⟨hle j, fun _ => ⟨j + 1, by push_cast; ring, ?_, ?_⟩⟩
      · rw [← poiPmf_succ]
      · rw [← poiCdf_succ, ← poiPmf_succ])
    (2 ^ 31) 0 (by omega) (by omega) (by omega) (Real.exp (-lambda)) (Real.exp (-lambda))
    ⟨0, rfl, e2.symm, e1.symm⟩
  rw [lift_run, this]
  rfl


theorem negCdf_le_one (r : Nat) (hr : 0 < r) (p : ℝ) (h0 : 0 < p) (h1 : p ≤ 1) (k : Nat) :
    negBinomialCdf r p k ≤ 1 := by
  have hm : Monotone (negBinomialCdf r p) := by
    apply monotone_nat_of_le_succ
    intro n
    rw [← negCdf_succ]
    have : 0 ≤ negPmf r p (n + 1) := by
      unfold negPmf
      have : 0 ≤ 1 - p := by linarith
      positivity
    linarith
  exact hm.ge_of_tendsto (negCdf_tendsto r hr p h0 h1) k

theorem poiCdf_le_one (lambda : ℝ) (h0 : 0 < lambda) (k : Nat) : poissonCdf lambda k ≤ 1 := by
  have hm : Monotone (poissonCdf lambda) := by
    apply monotone_nat_of_le_succ
    intro n
    rw [← poiCdf_succ]
    have : 0 ≤ poiPmf lambda (n + 1) := by
      unfold poiPmf
      positivity
    linarith
  exact hm.ge_of_tendsto (poiCdf_tendsto lambda) k

theorem nextDouble0_real (s : E.σ) :
    nextDouble0 s = .ok (((E.draw s).1.val : ℝ) / (2 ^ 64 - 1), (E.draw s).2) := by
  unfold nextDouble0 nextDouble2
  rw [if_neg (by norm_num), bind_run, draw_run]
  simp only [Out.bind, pure_run]
  congr 2
  push_cast
  ring

end Rand
