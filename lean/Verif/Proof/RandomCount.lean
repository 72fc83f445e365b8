import Verif.Proof.RandomCont
import Mathlib.Algebra.Order.Floor.Semiring

/-! # Counting generator outputs: helper lemmas for C94 and C91 -/

namespace Rand
open Cpp Spec

variable {E : Engine}

/-- the number of doubles a generator distinguishes, less one -/
abbrev M : ℝ := 2 ^ 64 - 1

theorem M_pos : 0 < M := by norm_num [M]

theorem cut_lt (F : ℝ) (g : Nat) : (g : ℝ) / M < F ↔ g < ⌈F * M⌉₊ := by
  rw [div_lt_iff₀ M_pos, Nat.lt_ceil]

theorem ceil_bounds (F : ℝ) (h0 : 0 ≤ F) : F * M ≤ ⌈F * M⌉₊ ∧ (⌈F * M⌉₊ : ℝ) < F * M + 1 :=
  ⟨Nat.le_ceil _, Nat.ceil_lt_add_one (mul_nonneg h0 M_pos.le)⟩

theorem ceil_le (F : ℝ) (h1 : F ≤ 1) : ⌈F * M⌉₊ ≤ 2 ^ 64 - 1 := by
  rw [Nat.ceil_le]
  have : ((2 ^ 64 - 1 : Nat) : ℝ) = M := by norm_num [M]
  rw [this]
  have := M_pos
  nlinarith

theorem card_between (N a b : Nat) (hab : a ≤ b) (hb : b ≤ N) (P : Fin N → Prop)
    (h : ∀ g, P g ↔ a ≤ g.val ∧ g.val < b) : Nat.card {g : Fin N // P g} = b - a := by
  have : Nat.card {g : Fin N // P g} = Nat.card (Fin (b - a)) :=
    Nat.card_congr ⟨fun g => ⟨g.1.val - a, by have := (h _).1 g.2; omega⟩,
      fun x => ⟨⟨x.val + a, by have := x.isLt; omega⟩, (h _).2 ⟨by dsimp only; omega, by
        have := x.isLt; dsimp only; omega⟩⟩,
      fun g => by apply Subtype.ext; apply Fin.ext; have := (h _).1 g.2; dsimp only; omega,
      fun x => by apply Fin.ext; dsimp only; omega⟩
  rw [this, Nat.card_fin]

/-- the number of outputs between two values of a distribution function -/
theorem card_quantile (a b : ℝ) (h0 : 0 ≤ a) (hab : a ≤ b) (h1 : b ≤ 1) (P : Fin (2 ^ 64) → Prop)
    (h : ∀ g, P g ↔ a ≤ (g.val : ℝ) / M ∧ (g.val : ℝ) / M < b) :
    |(Nat.card {g : Fin (2 ^ 64) // P g} : ℝ) - (b - a) * M| ≤ 1 := by
  have hm : ⌈a * M⌉₊ ≤ ⌈b * M⌉₊ := Nat.ceil_mono (mul_le_mul_of_nonneg_right hab M_pos.le)
  rw [card_between (2 ^ 64) ⌈a * M⌉₊ ⌈b * M⌉₊ hm (le_trans (ceil_le b h1) (by norm_num)) P (by
    intro g
    rw [h, ← cut_lt, ← not_lt (b := a), cut_lt a, not_lt])]
  rw [Nat.cast_sub hm]
  obtain ⟨a1, a2⟩ := ceil_bounds a h0
  obtain ⟨b1, b2⟩ := ceil_bounds b (h0.trans hab)
  rw [abs_le]
  constructor <;> linarith

/-- the same if the upper end includes the greatest output -/
theorem card_last (a : ℝ) (h0 : 0 ≤ a) (h1 : a ≤ 1) (P : Fin (2 ^ 64) → Prop)
    (h : ∀ g, P g ↔ a ≤ (g.val : ℝ) / M) :
    |(Nat.card {g : Fin (2 ^ 64) // P g} : ℝ) - (1 - a) * M| ≤ 1 := by
  have hc := ceil_le a h1
  rw [card_between (2 ^ 64) ⌈a * M⌉₊ (2 ^ 64) (by omega) le_rfl P (by
    intro g
    rw [h, ← not_lt, cut_lt a, not_lt]
    exact ⟨fun h => ⟨h, g.isLt⟩, fun h => h.1⟩)]
  rw [Nat.cast_sub (by omega)]
  obtain ⟨a1, a2⟩ := ceil_bounds a h0
  have : ((2 ^ 64 : Nat) : ℝ) = M + 1 := by norm_num [M]
  rw [this, abs_le]
  constructor <;> linarith

section
variable {D : Type} [Add D] [Sub D] [Neg D] [Mul D] [Div D] [IntCast D] [LT D] [LE D]
  [DecidableLT D] [DecidableLE D]
set_option linter.unusedSectionVars false

theorem negBinomialLoop_inv (r : Int) (pc u : D) (P T : Nat → D)
    (hP : ∀ k : Nat, P k * (pc * ((r + (k + 1) - 1 : Int) : D) / ((k + 1 : Int) : D)) = P (k + 1))
    (hT : ∀ k : Nat, T k + P (k + 1) = T (k + 1)) (k : Nat) (fuel : Nat) (hk : ∀ j < k, T j ≤ u) (v : Int)
    (h : negBinomialLoop r pc u fuel k (P k) (T k) = .ok v) :
    ∃ n : Nat, v = n ∧ ¬ T n ≤ u ∧ ∀ j < n, T j ≤ u := by
  induction fuel generalizing k with
  | zero => cases h
  | succ f ih =>
    unfold negBinomialLoop at h
    by_cases hc : T k ≤ u
    · rw [if_pos hc] at h
      obtain ⟨a, ha, h⟩ := Out.bind_eq_ok.1 h
      obtain ⟨b, hb, h⟩ := Out.bind_eq_ok.1 h
      obtain ⟨c, hc', h⟩ := Out.bind_eq_ok.1 h
      obtain ⟨_, rfl⟩ := int_eq_ok.1 ha
      obtain ⟨_, rfl⟩ := int_eq_ok.1 hb
      obtain ⟨_, rfl⟩ := int_eq_ok.1 hc'
      dsimp only at h
      rw [hP, hT] at h
      refine ih (k + 1) ?_ (by push_cast; exact h)
      intro j hj
      rcases Nat.lt_or_eq_of_le (Nat.le_of_lt_succ hj) with h1 | h1
      · exact hk j h1
      · exact h1 ▸ hc
    · rw [if_neg hc] at h
      cases h
      exact ⟨k, rfl, hc, hk⟩

theorem poissonLoop_inv (lambda u : D) (P T : Nat → D)
    (hP : ∀ k : Nat, P k * (lambda / ((k + 1 : Int) : D)) = P (k + 1))
    (hT : ∀ k : Nat, T k + P (k + 1) = T (k + 1)) (k : Nat) (fuel : Nat) (hk : ∀ j < k, T j ≤ u) (v : Int)
    (h : poissonLoop lambda u fuel k (P k) (T k) = .ok v) :
    ∃ n : Nat, v = n ∧ ¬ T n ≤ u ∧ ∀ j < n, T j ≤ u := by
  induction fuel generalizing k with
  | zero => cases h
  | succ f ih =>
    unfold poissonLoop at h
    by_cases hc : T k ≤ u
    · rw [if_pos hc] at h
      obtain ⟨a, ha, h⟩ := Out.bind_eq_ok.1 h
      obtain ⟨_, rfl⟩ := int_eq_ok.1 ha
      dsimp only at h
      rw [hP, hT] at h
      refine ih (k + 1) ?_ (by push_cast; exact h)
      intro j hj
      rcases Nat.lt_or_eq_of_le (Nat.le_of_lt_succ hj) with h1 | h1
      · exact hk j h1
      · exact h1 ▸ hc
    · rw [if_neg hc] at h
      cases h
      exact ⟨k, rfl, hc, hk⟩

end

/-- A sampler that computes the quantile takes the value `k` for as many outputs as its probability
says. -/
theorem card_of_quantile (f : ∀ E : Engine, R E Int) (F : Nat → ℝ) (hF : Monotone F) (h0 : ∀ k, 0 ≤ F k)
    (h1 : ∀ k, F k ≤ 1) (k : Nat) (p : ℝ) (hp : p = F k - (if k = 0 then 0 else F (k - 1)))
    (hf : ∀ (E : Engine) (s : E.σ), f E s = .ok ((k : Int), (E.draw s).2) ↔
      IsQuantile F (((E.draw s).1.val : ℝ) / M) k) :
    |(Nat.card {g : Fin (2 ^ 64) // ∀ (E : Engine) (s : E.σ), (E.draw s).1 = g →
        f E s = .ok ((k : Int), (E.draw s).2)} : ℝ) - p * (2 ^ 64 - 1)| ≤ 1 := by
  rw [hp]
  have ha0 : 0 ≤ (if k = 0 then 0 else F (k - 1)) := by split; exact le_rfl; exact h0 _
  have hab : (if k = 0 then 0 else F (k - 1)) ≤ F k := by
    split
    · exact h0 k
    · exact hF (by omega)
  refine card_quantile _ (F k) ha0 hab (h1 k) _ ?_
  intro g
  have hq : ∀ u : ℝ, 0 ≤ u → (IsQuantile F u k ↔ (if k = 0 then 0 else F (k - 1)) ≤ u ∧ u < F k) := by
    intro u hu
    unfold IsQuantile
    constructor
    · rintro ⟨h1, h2⟩
      refine ⟨?_, h1⟩
      split
      · exact hu
      · exact not_lt.1 (h2 _ (by omega))
    · rintro ⟨h1, h2⟩
      refine ⟨h2, fun j hj => ?_⟩
      rw [if_neg (by omega)] at h1
      exact not_lt.2 ((hF (by omega)).trans h1)
  have hu : (0 : ℝ) ≤ (g.val : ℝ) / M := div_nonneg (by positivity) M_pos.le
  rw [← hq _ hu]
  constructor
  · intro h
    exact (hf ⟨Unit, fun _ => (), fun _ => (g, ())⟩ ()).1 (h _ _ rfl)
  · intro h E s hg
    rw [hf, hg]
    exact h

theorem cdf_mono (f : Nat → ℝ) (h : ∀ i, 0 ≤ f i) : Monotone (fun k => ∑ i ∈ Finset.range (k + 1), f i) := by
  apply monotone_nat_of_le_succ
  intro n
  rw [Finset.sum_range_succ (n := n + 1)]
  have := h (n + 1)
  linarith

theorem cdf_diff (f : Nat → ℝ) (k : Nat) : f k = (∑ i ∈ Finset.range (k + 1), f i) -
    (if k = 0 then 0 else ∑ i ∈ Finset.range (k - 1 + 1), f i) := by
  cases k with
  | zero => simp
  | succ n => rw [if_neg (by omega), Finset.sum_range_succ]; simp

end Rand
