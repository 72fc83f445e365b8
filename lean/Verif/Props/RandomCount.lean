import Verif.Proof.RandomCount
import Verif.Props.RandomCont

/-! # C94: the samplers have the documented distribution (exact arithmetic)

The 2^64 outputs of the engine are counted.  `2^64 - 1` is the number by which the code divides. -/

namespace Rand.Props
open Cpp Spec Rand

/-- **C94.**  For `n ≤ 33`, `BinomialDistribution(n, p)` returns `k` for
`n choose k * p^k * (1 - p)^(n - k)` of the outputs (up to one output). -/
theorem C94_binomial_partial (n : Nat) (hn : n ≤ 33) (p : ℝ) (h0 : 0 ≤ p) (h1 : p ≤ 1) :
    ∃ b, binomialInit (fun x i => x ^ i) n p = .ok b ∧ ∀ k ≤ n,
      |(Nat.card {g : Fin (2 ^ 64) // ∀ (E : Engine) (s : E.σ), (E.draw s).1 = g →
          binomialNext b s = .ok ((k : Int), (E.draw s).2)} : ℝ)
        - (n.choose k : ℝ) * p ^ k * (1 - p) ^ (n - k) * (2 ^ 64 - 1)| ≤ 1 := by
  obtain ⟨b, hb, hrun⟩ := C62_binomial_partial n hn p h0 h1
  refine ⟨b, hb, fun k hk => ?_⟩
  have hpos : ∀ i, 0 ≤ (n.choose i : ℝ) * p ^ i * (1 - p) ^ (n - i) := by
    intro i
    have : 0 ≤ 1 - p := by linarith
    positivity
  have hmono : Monotone (binomialCdf n p) := cdf_mono _ hpos
  have hF0 : ∀ i, 0 ≤ binomialCdf n p i := fun i => Finset.sum_nonneg fun j _ => hpos j
  have hF1 : ∀ i, binomialCdf n p i ≤ 1 := by
    intro i
    rcases Nat.lt_or_ge n i with h | h
    · have : binomialCdf n p i = binomialCdf n p n := by
        unfold binomialCdf
        symm
        apply Finset.sum_subset (Finset.range_mono (by omega))
        intro j _ hj
        rw [Finset.mem_range, not_lt] at hj
        rw [Nat.choose_eq_zero_of_lt (by omega)]
        simp
      rw [this, binomialCdf_last]
    · exact binomialCdf_le_one n p h0 h1 i h
  have hM : ((2 : ℝ) ^ 64 - 1) = M := rfl
  -- the result is `k` iff the output lies in the interval of `k`
  have hiff : ∀ (E : Engine) (s : E.σ), binomialNext b s = .ok ((k : Int), (E.draw s).2) ↔
      (if k = 0 then 0 else binomialCdf n p (k - 1)) ≤ ((E.draw s).1.val : ℝ) / M ∧
        (k = n ∨ ((E.draw s).1.val : ℝ) / M < binomialCdf n p k) := by
    intro E s
    obtain ⟨k', hk', hr, hq, hl⟩ := hrun E s _ _ (nextDouble0_real s)
    rw [hM] at hq hl
    have hu0 : (0 : ℝ) ≤ ((E.draw s).1.val : ℝ) / M := div_nonneg (by positivity) M_pos.le
    constructor
    · intro h
      rw [hr] at h
      simp only [Out.ok.injEq, Prod.mk.injEq, Nat.cast_inj, and_true] at h
      subst h
      rcases lt_or_ge (((E.draw s).1.val : ℝ) / M) 1 with h | h
      · obtain ⟨q1, q2⟩ := hq h
        refine ⟨?_, Or.inr q1⟩
        split
        · exact hu0
        · exact not_lt.1 (q2 _ (by omega))
      · refine ⟨?_, Or.inl (hl h)⟩
        split
        · exact hu0
        · exact (hF1 _).trans h
    · rintro ⟨ha, hb'⟩
      have : k' = k := by
        rcases lt_or_ge (((E.draw s).1.val : ℝ) / M) 1 with h | h
        · obtain ⟨q1, q2⟩ := hq h
          rcases Nat.lt_trichotomy k' k with hc | hc | hc
          · exfalso
            rw [if_neg (by omega)] at ha
            have := hmono (show k' ≤ k - 1 by omega)
            linarith
          · exact hc
          · exfalso
            rcases hb' with hb' | hb'
            · omega
            · exact q2 k hc hb'
        · have e := hl h
          rcases hb' with hb' | hb'
          · rw [hb', e]
          · have := hF1 k
            linarith
      rw [hr, this]
  have ha0 : 0 ≤ (if k = 0 then 0 else binomialCdf n p (k - 1)) := by
    split
    · exact le_rfl
    · exact hF0 _
  have hab : (if k = 0 then 0 else binomialCdf n p (k - 1)) ≤ binomialCdf n p k := by
    split
    · exact hF0 k
    · exact hmono (by omega)
  have hd := cdf_diff (fun i => (n.choose i : ℝ) * p ^ i * (1 - p) ^ (n - i)) k
  rw [hM, hd]
  have key : ∀ g : Fin (2 ^ 64), (∀ (E : Engine) (s : E.σ), (E.draw s).1 = g →
      binomialNext b s = .ok ((k : Int), (E.draw s).2)) ↔
      (if k = 0 then 0 else binomialCdf n p (k - 1)) ≤ (g.val : ℝ) / M ∧
        (k = n ∨ (g.val : ℝ) / M < binomialCdf n p k) := by
    intro g
    constructor
    · intro h
      exact (hiff ⟨Unit, fun _ => (), fun _ => (g, ())⟩ ()).1 (h _ _ rfl)
    · intro h E s hg
      rw [hiff, hg]
      exact h
  by_cases hkn : k = n
  · have := card_last (if k = 0 then 0 else binomialCdf n p (k - 1)) ha0 (hab.trans (hF1 k)) _
      (fun g => (key g).trans ⟨fun h => h.1, fun h => ⟨h, Or.inl hkn⟩⟩)
    have hlast : binomialCdf n p k = 1 := by rw [hkn, binomialCdf_last]
    have e : (1 : ℝ) - (if k = 0 then 0 else binomialCdf n p (k - 1))
        = binomialCdf n p k - (if k = 0 then 0 else binomialCdf n p (k - 1)) := by rw [hlast]
    rw [e] at this
    exact this
  · exact card_quantile _ (binomialCdf n p k) ha0 hab (hF1 k) _
      (fun g => (key g).trans ⟨fun h => ⟨h.1, h.2.resolve_left hkn⟩, fun h => ⟨h.1, Or.inr h.2⟩⟩)

/-- **C94, refuted.**  For `n = 34` there is no `BinomialDistribution` at all: its constructor overflows,
for every `p` from 0 to 1. -/
theorem C94_binomial_refuted (p : ℝ) (h0 : 0 ≤ p) (h1 : p ≤ 1) :
    ¬ ∃ b, binomialInit (fun x i => x ^ i) 34 p = .ok b := by
  rintro ⟨b, hb⟩
  rw [C62_binomial_refuted (fun x i => x ^ i) p (by push_cast; linarith) (by push_cast; linarith)] at hb
  cases hb

example : ¬ ∃ b, binomialInit (fun x i => x ^ i) 34 (1 / 2 : ℝ) = .ok b :=
  C94_binomial_refuted (1 / 2) (by norm_num) (by norm_num)

/-- **C94.**  `NegativeBinomialDistribution(r, p)` returns `k` for
`(k + r - 1) choose (r - 1) * p^r * (1 - p)^k` of the outputs (up to one output), if `r + k` fits into
an `int`. -/
theorem C94_negBinomial_partial (r : Nat) (hr : 0 < r) (p : ℝ) (h0 : 0 < p) (h1 : p ≤ 1) :
    ∃ b, negBinomialInit r p = .ok b ∧ ∀ k : Nat, (r + k : Int) ≤ INT_MAX →
      |(Nat.card {g : Fin (2 ^ 64) // ∀ (E : Engine) (s : E.σ), (E.draw s).1 = g →
          negBinomialNext b s = .ok ((k : Int), (E.draw s).2)} : ℝ)
        - ((k + r - 1).choose (r - 1) : ℝ) * p ^ r * (1 - p) ^ k * (2 ^ 64 - 1)| ≤ 1 := by
  obtain ⟨b, hb, _, hrun⟩ := C62_negBinomial_partial r hr p h0 h1
  refine ⟨b, hb, fun k hk => ?_⟩
  have hpos : ∀ i, 0 ≤ ((i + r - 1).choose (r - 1) : ℝ) * p ^ r * (1 - p) ^ i := by
    intro i
    have : 0 ≤ 1 - p := by linarith
    positivity
  refine card_of_quantile (fun E => negBinomialNext b) (negBinomialCdf r p) (cdf_mono _ hpos)
    (fun i => Finset.sum_nonneg fun j _ => hpos j) (negCdf_le_one r hr p h0 h1) k _
    (cdf_diff (fun i => ((i + r - 1).choose (r - 1) : ℝ) * p ^ r * (1 - p) ^ i) k) ?_
  intro E s
  constructor
  · intro h
    have hb2 : b = ⟨r, p, p ^ r⟩ := by
      unfold negBinomialInit at hb
      rw [if_neg (by push_cast; rintro (h | h | h); exact absurd h (by omega); linarith; linarith),
        genericBinaryPow_eq p r hr] at hb
      cases hb
      rfl
    subst hb2
    unfold negBinomialNext at h
    rw [bind_run, nextDouble0_real] at h
    simp only [Out.bind] at h
    rw [lift_run] at h
    obtain ⟨v, hv, h⟩ := Out.bind_eq_ok.1 h
    cases h
    obtain ⟨e1, e2⟩ := negCdf_zero r p
    obtain ⟨n, hn, hn1, hn2⟩ := negBinomialLoop_inv (r : Int) (1 - p) (((E.draw s).1.val : ℝ) / (2 ^ 64 - 1))
      (negPmf r p) (negBinomialCdf r p) (fun j => negPmf_succ r hr p j) (negCdf_succ r p) 0 (2 ^ 31)
      (by omega) k (by rw [e1, e2]; push_cast at hv ⊢; exact hv)
    obtain rfl : k = n := by exact_mod_cast hn
    exact ⟨not_le.1 hn1, fun j hj => not_lt.2 (hn2 j hj)⟩
  · intro h
    exact hrun E s _ _ k (nextDouble0_real s) h hk

/-- **C94.**  `PoissonDistribution(lambda)` returns `k` for `lambda^k * exp(-lambda) / k!` of the
outputs (up to one output), if `k` fits into an `int`. -/
theorem C94_poisson_partial (lambda : ℝ) (h0 : 0 < lambda) :
    ∃ b, poissonInit Real.exp lambda = .ok b ∧ ∀ k : Nat, (k : Int) ≤ INT_MAX →
      |(Nat.card {g : Fin (2 ^ 64) // ∀ (E : Engine) (s : E.σ), (E.draw s).1 = g →
          poissonNext b s = .ok ((k : Int), (E.draw s).2)} : ℝ)
        - lambda ^ k * Real.exp (-lambda) / (k.factorial : ℝ) * (2 ^ 64 - 1)| ≤ 1 := by
  obtain ⟨b, hb, hrun⟩ := C62_poisson_partial lambda h0
  refine ⟨b, hb, fun k hk => ?_⟩
  have hpos : ∀ i : Nat, 0 ≤ lambda ^ i * Real.exp (-lambda) / (i.factorial : ℝ) := by
    intro i
    positivity
  refine card_of_quantile (fun E => poissonNext b) (poissonCdf lambda) (cdf_mono _ hpos)
    (fun i => Finset.sum_nonneg fun j _ => hpos j) (poiCdf_le_one lambda h0) k _
    (cdf_diff (fun i => lambda ^ i * Real.exp (-lambda) / (i.factorial : ℝ)) k) ?_
  intro E s
  constructor
  · intro h
    have hb2 : b = ⟨lambda, Real.exp (-lambda)⟩ := by
      unfold poissonInit at hb
      rw [if_neg (by push_cast; linarith)] at hb
      cases hb
      rfl
    subst hb2
    unfold poissonNext at h
    rw [bind_run, nextDouble0_real] at h
    simp only [Out.bind] at h
    rw [lift_run] at h
    obtain ⟨v, hv, h⟩ := Out.bind_eq_ok.1 h
    cases h
    have e1 : poissonCdf lambda 0 = Real.exp (-lambda) := by simp [poissonCdf]
    have e2 : poiPmf lambda 0 = Real.exp (-lambda) := by simp [poiPmf]
    obtain ⟨n, hn, hn1, hn2⟩ := poissonLoop_inv lambda (((E.draw s).1.val : ℝ) / (2 ^ 64 - 1))
      (poiPmf lambda) (poissonCdf lambda) (fun j => poiPmf_succ lambda j) (poiCdf_succ lambda) 0 (2 ^ 31)
      (by omega) k (by rw [e1, e2, Nat.cast_zero]; exact hv)
    obtain rfl : k = n := by exact_mod_cast hn
    exact ⟨not_le.1 hn1, fun j hj => not_lt.2 (hn2 j hj)⟩
  · intro h
    exact (hrun E s _ _ (nextDouble0_real s)).2 k h hk

/-- **C91 (distribution, exact arithmetic).**  `ExponentialDistribution(lambda)` returns a number of at
most `x` for `1 - exp(-lambda x)` of the outputs (up to one output; the greatest output is left out). -/
theorem C91_distribution_partial (lambda x : ℝ) (hl : 0 < lambda) (hx : 0 ≤ x) :
    ∃ d, exponentialInit lambda = .ok d ∧ ∀ fuel,
      |(Nat.card {g : Fin (2 ^ 64) // g.val ≠ 2 ^ 64 - 1 ∧ ∀ (E : Engine) (s : E.σ), (E.draw s).1 = g →
          ∃ y ≤ x, gammaNext Libm.real fuel d s = .ok (y, (E.draw s).2)} : ℝ)
        - (1 - Real.exp (-lambda * x)) * (2 ^ 64 - 1)| ≤ 1 := by
  obtain ⟨d, hd, hrun⟩ := C91_exponential_partial lambda hl
  refine ⟨d, hd, fun fuel => ?_⟩
  have hM : ((2 : ℝ) ^ 64 - 1) = M := rfl
  set F := 1 - Real.exp (-lambda * x) with hF
  have hF0 : 0 ≤ F := by
    have : Real.exp (-lambda * x) ≤ 1 := Real.exp_le_one_iff.2 (by nlinarith)
    linarith
  have hF1 : F < 1 := by have := Real.exp_pos (-lambda * x); linarith
  have hM1 : ((2 ^ 64 - 1 : Nat) : ℝ) = M := by norm_num [M]
  have hMp := M_pos
  have hfl : ⌊F * M⌋₊ < 2 ^ 64 - 1 := by
    rw [Nat.floor_lt (mul_nonneg hF0 hMp.le), hM1]
    nlinarith
  have key : ∀ g : Fin (2 ^ 64), (g.val ≠ 2 ^ 64 - 1 ∧ ∀ (E : Engine) (s : E.σ), (E.draw s).1 = g →
      ∃ y ≤ x, gammaNext Libm.real fuel d s = .ok (y, (E.draw s).2)) ↔
      0 ≤ g.val ∧ g.val < ⌊F * M⌋₊ + 1 := by
    intro g
    have hiff : g.val ≠ 2 ^ 64 - 1 → ∀ (E : Engine) (s : E.σ), (E.draw s).1 = g →
        ((∃ y ≤ x, gammaNext Libm.real fuel d s = .ok (y, (E.draw s).2)) ↔ g.val ≤ ⌊F * M⌋₊) := by
      intro hg E s hs
      obtain ⟨y, hy, hy0, hy1⟩ := hrun E s fuel (by
        rw [outAt_zero, hs]; have := g.isLt; omega)
      have e : unitAt E s 0 = (g.val : ℝ) / M := by rw [unitAt_zero, hs]
      rw [Nat.le_floor_iff (mul_nonneg hF0 hMp.le), ← div_le_iff₀ hMp, ← e, ← hy1, hF]
      constructor
      · rintro ⟨z, hz, hz1⟩
        rw [hy] at hz1
        simp only [Out.ok.injEq, Prod.mk.injEq, and_true] at hz1
        have : Real.exp (-lambda * x) ≤ Real.exp (-lambda * y) := Real.exp_le_exp.2 (by nlinarith)
        linarith
      · intro h
        have h2 : Real.exp (-lambda * x) ≤ Real.exp (-lambda * y) := by linarith
        have h3 := Real.exp_le_exp.1 h2
        exact ⟨y, by nlinarith, hy⟩
    constructor
    · rintro ⟨hg, h⟩
      have := (hiff hg ⟨Unit, fun _ => (), fun _ => (g, ())⟩ () rfl).1 (h _ _ rfl)
      omega
    · rintro ⟨_, h⟩
      have hg : g.val ≠ 2 ^ 64 - 1 := by omega
      exact ⟨hg, fun E s hs => (hiff hg E s hs).2 (by omega)⟩
  rw [card_between (2 ^ 64) 0 (⌊F * M⌋₊ + 1) (by omega) (by omega) _ key, hM]
  have h1 := Nat.floor_le (mul_nonneg hF0 hMp.le)
  have h2 := Nat.lt_floor_add_one (F * M)
  push_cast
  rw [abs_le]
  constructor <;> linarith

-- the hypotheses: a fair coin tossed 10 times; one success in three; the mean 5/2
example : (10 : Nat) ≤ 33 ∧ (0 : ℝ) ≤ 1 / 2 ∧ (1 / 2 : ℝ) ≤ 1 ∧ (4 : Nat) ≤ 10 := by norm_num
example : (0 : Nat) < 2 ∧ (0 : ℝ) < 1 / 3 ∧ (1 / 3 : ℝ) ≤ 1 ∧ (((2 : Nat) : Int) + ((7 : Nat) : Int)) ≤ INT_MAX := by
  refine ⟨by norm_num, by norm_num, by norm_num, by decide⟩
example : (0 : ℝ) < 5 / 2 ∧ ((3 : Nat) : Int) ≤ INT_MAX := ⟨by norm_num, by decide⟩
-- C94 for the fair coin: 210/1024 of the outputs give 4
example : ∃ b, binomialInit (fun x i => x ^ i) 10 (1 / 2 : ℝ) = .ok b ∧
    |(Nat.card {g : Fin (2 ^ 64) // ∀ (E : Engine) (s : E.σ), (E.draw s).1 = g →
        binomialNext b s = .ok (4, (E.draw s).2)} : ℝ) - 210 / 1024 * (2 ^ 64 - 1)| ≤ 1 := by
  obtain ⟨b, hb, h⟩ := C94_binomial_partial 10 (by norm_num) (1 / 2) (by norm_num) (by norm_num)
  refine ⟨b, hb, ?_⟩
  have := h 4 (by norm_num)
  have e : ((10 : Nat).choose 4 : ℝ) * (1 / 2) ^ 4 * (1 - 1 / 2) ^ (10 - 4) = 210 / 1024 := by
    norm_num [Nat.choose]
  rw [e] at this
  exact this

end Rand.Props
