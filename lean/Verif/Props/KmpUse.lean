import Verif.Proof.KmpUse

/-! # C154: searching again and again, and the number of steps of a search -/

namespace Kmp
open Cpp Spec

/-- C154: searching again one position further finds all occurrences, overlapping ones too, each once and in ascending order. -/
theorem C154_all (base pattern : Str) (hp : pattern ≠ []) (hpl : pattern.length < 2147483648) (hbl : base.length < 2147483648)
    (fuel n : Nat) (hf : 2 * (base.length + pattern.length) + 2 ≤ fuel) (hn : base.length < n) :
    ∃ found, findAll fuel base pattern n 0 = .ok found ∧ Lists base pattern 0 found :=
  findAll_lists base pattern hp hpl hbl fuel hf n 0 (by omega) (by omega)

-- "aa" in "aaaba": at 0 and 1
example : findAll 100 (bytes ['a','a','a','b','a']) (bytes ['a','a']) 6 0 = .ok [0, 1] := by decide +kernel

/-- C154: searching again behind the last occurrence replaces the occurrences from the left to the right. -/
theorem C154_replace (base pattern by' : Str) (hp : pattern ≠ []) (hpl : pattern.length < 2147483648)
    (hbl : base.length < 2147483648) (fuel n : Nat) (hf : 2 * (base.length + pattern.length) + 2 ≤ fuel) (hn : base.length < n) :
    ∃ t, replaceAll fuel base pattern by' n 0 = .ok t ∧ Replaced pattern by' base t ∧
      ∀ t', Replaced pattern by' base t' → t' = t := by
  obtain ⟨t, e, h⟩ := replaceAll_replaced base pattern by' hp hpl hbl fuel hf n 0 (by omega) (by omega)
  rw [List.drop_zero] at h
  exact ⟨t, e, h, fun t' h' => Replaced.unique h' h⟩

-- "aa" replaced by "ab" in "aaaba": "ababa"
example : replaceAll 100 (bytes ['a','a','a','b','a']) (bytes ['a','a']) (bytes ['a','b']) 6 0 =
    .ok (bytes ['a','b','a','b','a']) := by decide +kernel

/-- C154: the loop that prepares the pattern tests its condition at most `2 |pattern| + 1` times, and the loop over the text at
most `2 (|base| - start) + 2` times: with a bound `fuel` of that size on both loops the search still gives its answer. -/
theorem C154_steps (base pattern : Str) (start fuel : Nat) (hp : pattern ≠ []) (hpl : pattern.length < 2147483648)
    (hbl : base.length < 2147483648) (hst : start ≤ base.length)
    (hf : 2 * pattern.length + 1 ≤ fuel) (hf' : 2 * (base.length - start) + 2 ≤ fuel) :
    ∃ r, kmpSearch fuel base pattern start = .ok r ∧ IsFirstOccurrence base pattern start r := by
  obtain ⟨r, h1, h2⟩ := kmpSearch_steps base pattern start fuel hp hpl hbl (by omega) hf (by omega)
  refine ⟨r, h1, ?_⟩
  unfold IsFirstOccurrence
  simp only [occ_iff]
  exact h2

-- "aab" in "aaaaaaaab" with 20 tests of each condition
example : kmpSearch 20 (bytes ['a','a','a','a','a','a','a','a','b']) (bytes ['a','a','b']) 0 = .ok 6 := by decide +kernel

end Kmp
