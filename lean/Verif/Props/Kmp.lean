import Verif.Proof.Kmp

/-! # Properties C08 and C09: substring search -/

namespace Kmp
open Cpp

/-- C08: for every base, non-empty pattern and start position (below 2^31), `kmpSearch` ends, has no
undefined behaviour, and returns the first occurrence at or after `start`, or -1. -/
theorem C08_first_occurrence (base pattern : Str) (start : Nat) (hp : pattern ≠ [])
    (hpl : pattern.length < 2147483648) (hbl : base.length < 2147483648)
    (hst : start < 2147483648) :
    ∃ r, Spec.IsFirstOccurrence base pattern start r ∧
      ∀ fuel, 2 * (base.length + pattern.length) + 2 ≤ fuel →
        kmpSearch fuel base pattern start = .ok r := by
  have h1 : ∀ fuel, 2 * (base.length + pattern.length) + 2 ≤ fuel →
      ∃ r, kmpSearch fuel base pattern start = .ok r ∧
        Spec.IsFirstOccurrence base pattern start r := by
    intro fuel hf
    obtain ⟨r, hr, h⟩ := kmpSearch_ok base pattern start fuel hp hpl hbl hst hf
    refine ⟨r, hr, ?_⟩
    unfold Spec.IsFirstOccurrence
    simp only [occ_iff]
    exact h
  obtain ⟨r, hr, hfirst⟩ := h1 _ (Nat.le_refl _)
  refine ⟨r, hfirst, fun fuel hf => ?_⟩
  obtain ⟨r', hr', hfirst'⟩ := h1 fuel hf
  rw [hr']
  congr 1
  rcases hfirst with ⟨q, rfl, hq1, hq2, hq3⟩ | ⟨rfl, hno⟩ <;>
    rcases hfirst' with ⟨q', rfl, hq1', hq2', hq3'⟩ | ⟨rfl, hno'⟩
  · by_cases h : q < q'
    · exact absurd hq2 (hq3' q hq1 h)
    by_cases h : q' < q
    · exact absurd hq2' (hq3 q' hq1' h)
    · omega
  · exact absurd hq2 (hno' q hq1)
  · exact absurd hq2' (hno q' hq1')
  · rfl

example : bytes ['a','b','a','b','a','c'] ≠ [] ∧
    (bytes ['a','b','a','b','a','c']).length < 2147483648 := by decide
-- "ababacab", "abac" from 1: found at 2 by the model itself
example : kmpSearch 100 (bytes ['a','b','a','b','a','c','a','b']) (bytes ['a','b','a','c']) 1 = .ok 2 := by
  decide +kernel

/-- C09 as stated is false: every search for the empty pattern writes outside its table. -/
theorem C09_empty_pattern_refuted (fuel : Nat) (base : Str) (start : Nat) :
    kmpSearch fuel base [] start = .ub :=
  kmpSearch_empty fuel base start

/-- C09 as stated is false: a start position of 2^31 or `npos` (2^64 - 1) leads to an out-of-bounds
read, and 2^32 to an occurrence before the start. -/
theorem C09_large_start_refuted :
    (∀ fuel, 5 ≤ fuel → kmpSearch fuel (bytes ['a']) (bytes ['a']) (2 ^ 31) = .ub) ∧
    (∀ fuel, 5 ≤ fuel → kmpSearch fuel (bytes ['a']) (bytes ['a']) (2 ^ 64 - 1) = .ub) ∧
    (∃ fuel, kmpSearch fuel (bytes ['a']) (bytes ['a']) (2 ^ 32) = .ok 0) := by
  refine ⟨fun fuel hf => ?_, fun fuel hf => ?_, 10, by decide +kernel⟩ <;>
    exact kmpSearch_negative _ _ _ _ (by decide) (by decide) (by decide) (by decide)
      (by simp [bytes]; omega)

/-- C09 (exact domain, lengths below 2^31): undefined behaviour happens exactly for the empty pattern
and for start positions whose conversion to `int` is negative; otherwise the answer is the right one
for the start position modulo 2^32.  Missing from the full property: those inputs, and starts from
2^32 on. -/
theorem C09_defined_partial (base pattern : Str) (start fuel : Nat)
    (hpl : pattern.length < 2147483648) (hbl : base.length < 2147483648)
    (hf : 2 * (base.length + pattern.length) + 2 ≤ fuel) :
    (kmpSearch fuel base pattern start = .ub ↔
      pattern = [] ∨ 2147483648 ≤ start % 4294967296) ∧
    (pattern ≠ [] → start % 4294967296 < 2147483648 → ∃ r,
      kmpSearch fuel base pattern start = .ok r ∧
      Spec.IsFirstOccurrence base pattern (start % 4294967296) r) := by
  have good : pattern ≠ [] → start % 4294967296 < 2147483648 → ∃ r,
      kmpSearch fuel base pattern start = .ok r ∧
      Spec.IsFirstOccurrence base pattern (start % 4294967296) r := by
    intro hp hs
    obtain ⟨r, h1, h2⟩ := C08_first_occurrence base pattern (start % 4294967296) hp hpl hbl hs
    refine ⟨r, ?_, h1⟩
    rw [← h2 fuel hf]
    apply kmpSearch_toInt
    unfold toInt
    simp
  refine ⟨⟨fun h => ?_, ?_⟩, good⟩
  · by_cases hp : pattern = []
    · exact .inl hp
    by_cases hs : start % 4294967296 < 2147483648
    · obtain ⟨r, hr, -⟩ := good hp hs
      rw [hr] at h; simp at h
    · exact .inr (by omega)
  · rintro (rfl | h)
    · exact kmpSearch_empty _ _ _
    · by_cases hp : pattern = []
      · subst hp; exact kmpSearch_empty _ _ _
      · refine kmpSearch_negative base pattern start fuel hp hpl hbl ?_ (by omega)
        have : start % 4294967296 < 4294967296 := Nat.mod_lt _ (by decide)
        unfold toInt
        dsimp only
        rw [if_neg (by omega)]
        omega

end Kmp
