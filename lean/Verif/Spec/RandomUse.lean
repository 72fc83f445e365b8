import Verif.Spec.RandomLaw
import Mathlib.Data.Real.ENatENNReal
import Mathlib.MeasureTheory.Integral.Lebesgue.Basic

/-! # Specification notions for the outputs of the engine that a sampler takes -/

namespace Rand.Spec
open MeasureTheory

/-- How many times `F` has to be repeated until a result is in `A` (`⊤` if none ever is). -/
noncomputable def rounds {β : Type} (F : Smp β) (A : Set β) (ω : ℕ → ℝ) : ℕ∞ :=
  ⨅ (j : ℕ) (_ : results F ω j ∈ A), ((j + 1 : ℕ) : ℕ∞)

/-- The code `f` (whose loops make at most as many rounds as the fuel says) takes as many outputs of the
engine as `N` says, `N` being a function of the outputs divided by `2^64 - 1`: if that is a number `m`,
then `f` returns after `m` outputs as soon as the fuel suffices; otherwise it does not return.  Sequences
with the greatest 64-bit number among the outputs taken are left out. -/
def Takes {E : Engine} {β : Type} (f : ℕ → R E β) (N : (ℕ → ℝ) → ℕ∞) : Prop :=
  ∀ s : E.σ,
    (∀ m : ℕ, N (unitAt E s) = m → (∀ i < m, outAt E s i < 2 ^ 64 - 1) →
      (∀ fuel, f fuel s = .diverge ∨ ∃ v, f fuel s = .ok (v, stateAt E s m)) ∧
      ∃ fuel0, ∀ fuel ≥ fuel0, f fuel s ≠ .diverge) ∧
    (N (unitAt E s) = ⊤ → (∀ i, outAt E s i < 2 ^ 64 - 1) → ∀ fuel, f fuel s = .diverge)

/-- Every call of the code `f` that returns takes exactly one output of the engine. -/
def TakesOne {E : Engine} {β : Type} (f : R E β) : Prop :=
  ∀ s v s', f s = .ok (v, s') → s' = stateAt E s 1

/-- The mean of a number that depends on the sequence, on an ideal generator. -/
noncomputable def meanOf (N : (ℕ → ℝ) → ℕ∞) : ENNReal := ∫⁻ ω, (N ω : ENNReal) ∂ideal

/-- The outputs taken by the polar method: two for each point of the square. -/
noncomputable def normalUse (ω : ℕ → ℝ) : ℕ∞ := 2 * rounds square disc ω

/-- The outputs taken for a gamma distributed number of shape `k`: one for each unit of the shape, and
three for each candidate of the method of Ahrens and Dieter if `k` is not whole. -/
noncomputable def gammaUse (k : ℝ) (ω : ℕ → ℝ) : ℕ∞ :=
  (⌊k⌋.toNat : ℕ∞) + if k = ⌊k⌋ then 0 else
    3 * rounds triple {t | adAccepts (k - ⌊k⌋) t.1 t.2.1 t.2.2} fun i => ω (i + ⌊k⌋.toNat)

/-- The outputs taken for a number with Student's distribution: those of the one sampler and, of the
sequence then left, those of the other. -/
noncomputable def studentTUse (left : Bool) (r : ℝ) (ω : ℕ → ℝ) : ℕ∞ :=
  if left then normalUse ω + gammaUse (r / 2) (normalSmp 0 1 ω).2
  else gammaUse (r / 2) ω + normalUse (gammaSmp (r / 2) 2 ω).2

end Rand.Spec
