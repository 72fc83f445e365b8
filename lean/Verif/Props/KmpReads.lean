import Verif.Proof.KmpReads

/-! # Property C165: how often kmpSearch looks at the characters of the text -/

namespace Kmp
open Cpp

/-- C165 (the text is read once through): for every text, non-empty pattern and start position (below 2^31), the search ends after at
most `2 |pattern| + 1` rounds of its first loop and `2 (|text| - start) + 2` of its second; the positions of the text that it reads
never go back, lie between `start` and the end of the text, and before the end of the occurrence that is found; and they are at most
`2 (|text| - start)`. -/
theorem C165_forward (base pattern : Str) (start fuel : Nat) (hp : pattern ≠ [])
    (hpl : pattern.length < 2147483648) (hbl : base.length < 2147483648) (hst : start < 2147483648)
    (hf : 2 * pattern.length + 1 ≤ fuel) (hf' : 2 * (base.length - start) + 2 ≤ fuel) :
    ∃ r reads, kmpReads fuel base pattern start = .ok (r, reads) ∧ kmpSearch fuel base pattern start = .ok r ∧
      reads.Pairwise (· ≤ ·) ∧
      (∀ c ∈ reads, (start : Int) ≤ c ∧ c < base.length ∧ (r ≠ -1 → c < r + pattern.length)) ∧
      reads.length ≤ 2 * (base.length - start) := by
  obtain ⟨r, l, m', h1, h2, h3, h4, h5⟩ := kmpReads_ok base pattern start fuel hp hpl hbl hst hf (by omega)
  refine ⟨r, l, h1, h2, ?_⟩
  by_cases hs : start ≤ base.length
  · have R := h4 hs
    refine ⟨R.sorted, fun c hc => ?_, ?_⟩
    · have := R.range c hc
      exact ⟨this.1, this.2.1, fun hr => by have := h3 hr; omega⟩
    · have := R.length (.inr (by omega))
      omega
  · rw [h5 (by omega)]
    exact ⟨List.Pairwise.nil, fun c hc => by simp at hc, by simp⟩

/-- C165 (no character is read often): a character of the text that is read `c` times needs a pattern of at least `fib (c + 2) - 1`
characters. -/
theorem C165_delay (base pattern : Str) (start fuel : Nat) (hp : pattern ≠ [])
    (hpl : pattern.length < 2147483648) (hbl : base.length < 2147483648) (hst : start < 2147483648)
    (hf : 2 * pattern.length + 1 ≤ fuel) (hf' : 2 * (base.length - start) + 2 ≤ fuel) :
    ∃ r reads, kmpReads fuel base pattern start = .ok (r, reads) ∧
      ∀ m, Nat.fib (reads.count m + 2) ≤ pattern.length + 1 := by
  obtain ⟨r, l, m', h1, -, -, h4, h5⟩ := kmpReads_ok base pattern start fuel hp hpl hbl hst hf (by omega)
  refine ⟨r, l, h1, fun m => ?_⟩
  have hpos : 0 < pattern.length := List.length_pos_iff.mpr hp
  by_cases hs : start ≤ base.length
  · have R := h4 hs
    rcases Int.lt_trichotomy m start with h | h | h
    · have : l.count m = 0 := List.count_eq_zero.2 fun hmem => by have := (R.range m hmem).1; omega
      rw [this]; simp
    · subst h
      have := (R.here 0 rfl).1
      omega
    · exact R.later m h
  · rw [h5 (by omega)]
    simp

/-- C165 (whatever the sizes): no character of the text is read more than 44 times. -/
theorem C165_most (base pattern : Str) (start fuel : Nat) (hp : pattern ≠ [])
    (hpl : pattern.length < 2147483648) (hbl : base.length < 2147483648) (hst : start < 2147483648)
    (hf : 2 * pattern.length + 1 ≤ fuel) (hf' : 2 * (base.length - start) + 2 ≤ fuel) :
    ∃ r reads, kmpReads fuel base pattern start = .ok (r, reads) ∧ ∀ m, reads.count m ≤ 44 := by
  obtain ⟨r, l, h1, h2⟩ := C165_delay base pattern start fuel hp hpl hbl hst hf hf'
  refine ⟨r, l, h1, fun m => ?_⟩
  by_contra hc
  have h3 : Nat.fib 47 ≤ Nat.fib (l.count m + 2) := Nat.fib_mono (by omega)
  have h4 : Nat.fib 47 = 2971215073 := by decide +kernel
  have := h2 m
  omega

-- the hypotheses: "aabaabaab" searched for "aabaac"
example : bytes ['a', 'a', 'b', 'a', 'a', 'c'] ≠ [] ∧ (bytes ['a', 'a', 'b', 'a', 'a', 'c']).length < 2147483648 ∧
    2 * (bytes ['a', 'a', 'b', 'a', 'a', 'c']).length + 1 ≤ 40 ∧ 2 * (9 - 0) + 2 ≤ 40 := by decide
example : kmpReads 40 (bytes ['a', 'a', 'b', 'a', 'a', 'b', 'a', 'a', 'c']) (bytes ['a', 'a', 'b', 'a', 'a', 'c']) 0 =
    .ok (3, [0, 1, 2, 3, 4, 5, 5, 6, 7, 8]) := by decide +kernel
-- the bound of `C165_delay` is attained: patterns of 1, 2, 4, 7 and 12 characters, and a character read 1, 2, 3, 4 and 5 times
example : Nat.fib 3 - 1 = 1 ∧ Nat.fib 4 - 1 = 2 ∧ Nat.fib 5 - 1 = 4 ∧ Nat.fib 6 - 1 = 7 ∧ Nat.fib 7 - 1 = 12 := by decide
example : kmpReads 40 (bytes ['c']) (bytes ['a']) 0 = .ok (-1, [0]) := by decide +kernel
example : kmpReads 40 (bytes ['a', 'c']) (bytes ['a', 'b']) 0 = .ok (-1, [0, 1, 1]) := by decide +kernel
example : kmpReads 40 (bytes ['a', 'b', 'a', 'c']) (bytes ['a', 'b', 'a', 'a']) 0 = .ok (-1, [0, 1, 2, 3, 3, 3]) := by
  decide +kernel
example : kmpReads 40 (bytes ['a', 'b', 'a', 'a', 'b', 'a', 'c']) (bytes ['a', 'b', 'a', 'a', 'b', 'a', 'b']) 0 =
    .ok (-1, [0, 1, 2, 3, 4, 5, 6, 6, 6, 6]) := by decide +kernel
example : kmpReads 60 (bytes ['a', 'b', 'a', 'a', 'b', 'a', 'b', 'a', 'a', 'b', 'a', 'c'])
    (bytes ['a', 'b', 'a', 'a', 'b', 'a', 'b', 'a', 'a', 'b', 'a', 'a']) 0 =
    .ok (-1, [0, 1, 2, 3, 4, 5, 6, 7, 8, 9, 10, 11, 11, 11, 11, 11]) := by decide +kernel

end Kmp
