import Verif.Spec.Random
import Mathlib.Probability.ProductMeasure
import Mathlib.Probability.Distributions.Gamma
import Mathlib.Probability.Distributions.Exponential
import Mathlib.Probability.Distributions.Gaussian.Real

/-! # Specification notions for the laws of the samplers under ideally uniform numbers -/

namespace Rand.Spec
open MeasureTheory

/-- The law of an infinite sequence of independent numbers, uniform on `[0, 1]`: an ideal generator. -/
noncomputable def ideal : Measure (ℕ → ℝ) :=
  Measure.infinitePi fun _ => volume.restrict (Set.Icc (0 : ℝ) 1)

/-- A procedure that consumes some numbers of a sequence: its result and the numbers left. -/
abbrev Smp (β : Type) := (ℕ → ℝ) → β × (ℕ → ℝ)

/-- On an ideal generator the result of `F` has the law `ν`, is independent of the numbers left, and
these are again an ideal sequence. -/
def Samples {β : Type} [MeasurableSpace β] (F : Smp β) (ν : Measure β) : Prop :=
  Measurable F ∧ ideal.map F = ν.prod ideal

/-- Whenever the code `f` returns, having used `m` outputs of the engine none of which is the greatest
64-bit number, its result and the outputs left (each divided by `2^64 - 1`) are what `F` makes of the
outputs. -/
def Agrees {E : Engine} {β : Type} (f : R E β) (F : Smp β) : Prop :=
  ∀ s v s', f s = .ok (v, s') → ∃ m, s' = stateAt E s m ∧
    ((∀ i < m, outAt E s i < 2 ^ 64 - 1) → F (unitAt E s) = (v, unitAt E s'))

/-- The next number of the sequence. -/
def next : Smp ℝ := fun ω => (ω 0, fun i => ω (i + 1))

/-- The results of repeating `F` forever. -/
def results {β : Type} (F : Smp β) (ω : ℕ → ℝ) (j : ℕ) : β := (F ((fun ω => (F ω).2)^[j] ω)).1

open Classical in
/-- Repeats `F` until the result is in `A` (`d` if it never is). -/
noncomputable def repeatUntil {β : Type} (F : Smp β) (A : Set β) (d : β) : Smp β := fun ω =>
  if h : ∃ j, results F ω j ∈ A then F ((fun ω => (F ω).2)^[Nat.find h] ω) else (d, ω)

/-! ### The procedures -/

/-- An exponential number by inversion. -/
noncomputable def expSmp : Smp ℝ := fun ω => (-Real.log (1 - ω 0), fun i => ω (i + 1))

/-- The sum of `n` exponential numbers and of the result of `F`. -/
noncomputable def expSum (F : Smp ℝ) : ℕ → Smp ℝ
  | 0 => F
  | n + 1 => fun ω => ((expSmp ω).1 + (expSum F n (expSmp ω).2).1, (expSum F n (expSmp ω).2).2)

/-- Three numbers, each taken from `1`. -/
def triple : Smp (ℝ × ℝ × ℝ) := fun ω => ((1 - ω 0, 1 - ω 1, 1 - ω 2), fun i => ω (i + 3))

/-- The method of Ahrens and Dieter: the candidate of the first triple that is accepted. -/
noncomputable def adSmp (delta : ℝ) : Smp ℝ := fun ω =>
  let t := repeatUntil triple {t | adAccepts delta t.1 t.2.1 t.2.2} (0, 0, 0) ω
  (adCandidate delta t.1.1 t.1.2.1, t.2)

/-- A gamma distributed number with shape `k` and scale `theta`: `floor(k)` exponential numbers and one
for the rest. -/
noncomputable def gammaSmp (k theta : ℝ) : Smp ℝ := fun ω =>
  let r := expSum (if k = ⌊k⌋ then fun ω => (0, ω) else adSmp (k - ⌊k⌋)) ⌊k⌋.toNat ω
  (theta * r.1, r.2)

/-- The points of the unit disc without its centre. -/
def disc : Set (ℝ × ℝ) := {q | 0 < q.1 ^ 2 + q.2 ^ 2 ∧ q.1 ^ 2 + q.2 ^ 2 ≤ 1}

/-- Marsaglia's polar method: the multiple of the point whose square of the norm is `-2 log (norm^2)`. -/
noncomputable def polarPoint (q : ℝ × ℝ) : ℝ × ℝ :=
  (q.1 * Real.sqrt (-2 * Real.log (q.1 ^ 2 + q.2 ^ 2) / (q.1 ^ 2 + q.2 ^ 2)),
    q.2 * Real.sqrt (-2 * Real.log (q.1 ^ 2 + q.2 ^ 2) / (q.1 ^ 2 + q.2 ^ 2)))

/-- A point of the square `[-1, 1]^2`. -/
def square : Smp (ℝ × ℝ) := fun ω => ((2 * ω 0 - 1, 2 * ω 1 - 1), fun i => ω (i + 2))

/-- Two normal numbers: the polar method for the first point drawn that lies in the disc. -/
noncomputable def normalSmp (mean stddev : ℝ) : Smp (ℝ × ℝ) := fun ω =>
  let q := repeatUntil square disc (0, 0) ω
  ((mean + stddev * (polarPoint q.1).1, mean + stddev * (polarPoint q.1).2), q.2)

/-- A number with Student's distribution: the normal number is drawn first if `left`. -/
noncomputable def studentTSmp (left : Bool) (r : ℝ) : Smp ℝ := fun ω =>
  if left then
    let x := normalSmp 0 1 ω
    let y := gammaSmp (r / 2) 2 x.2
    (x.1.1 * Real.sqrt (r / y.1), y.2)
  else
    let y := gammaSmp (r / 2) 2 ω
    let x := normalSmp 0 1 y.2
    (x.1.1 * Real.sqrt (r / y.1), x.2)

/-- A uniform number of the interval from `min` to `max`. -/
def uniformSmp (min max : ℝ) : Smp ℝ := fun ω => (ω 0 * (max - min) + min, fun i => ω (i + 1))

open Classical in
/-- The event that a number is below `p`. -/
noncomputable def belowSmp (p : ℝ) : Smp Bool := fun ω => (decide (ω 0 < p), fun i => ω (i + 1))

open Classical in
/-- Inversion of a distribution function on the natural numbers: the least `k` with `u < F k`. -/
noncomputable def quantileSmp (F : ℕ → ℝ) : Smp ℤ := fun ω =>
  (if h : ∃ k, ω 0 < F k then ((Nat.find h : ℕ) : ℤ) else 0, fun i => ω (i + 1))

/-- The law on the integers that gives the mass `f k` to every natural number `k`. -/
noncomputable def massLaw (f : ℕ → ℝ) : Measure ℤ :=
  Measure.sum fun k : ℕ => ENNReal.ofReal (f k) • Measure.dirac (k : ℤ)

/-- The results of `n` calls of the code `f`, one after the other. -/
def calls {E : Engine} {β : Type} (f : R E β) : ℕ → R E (List β)
  | 0 => pure []
  | n + 1 => do
    let x ← f
    let l ← calls f n
    pure (x :: l)

end Rand.Spec
