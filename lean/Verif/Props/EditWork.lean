import Verif.Proof.EditWork
import Mathlib.Tactic.Linarith
import Mathlib.Tactic.NormNum

/-! # C191: work and memory of `editDistance`

`uses` counts the uses of single cells of the matrix; `peak` and `left` are the greatest number of bytes in use and the number
of bytes in use at the end, from the blocks taken and given back (`Spec/Tally.lean`). -/

namespace EditDistance.Props
open Cpp Tally.Spec

/-- C191: the counted function is that of the model. -/
theorem C191_same (a b : Str) : (Work.editDistance a b).out = editDistance a b := Work.editDistance_out a b

/-- C191: the matrix is used exactly `4mn + m + n + 3` times for texts of `m` and `n` characters, whatever the characters. -/
theorem C191_work (a b : Str) (ha : a ≠ []) (hb : b ≠ []) (hm : a.length < 2147483647) (hn : b.length < 2147483647) :
    (Work.editDistance a b).uses = 4 * a.length * b.length + a.length + b.length + 3 :=
  (Work.editDistance_costs a b ha hb _ (by rw [Work.editDistance_out, editDistance_eq a b hm hn])).1

/-- C191: if a text is empty, no memory is taken and nothing is compared. -/
theorem C191_empty (a : Str) : (Work.editDistance a []).uses = 0 ∧ (Work.editDistance a []).mem = [] ∧
    (Work.editDistance [] a).uses = 0 ∧ (Work.editDistance [] a).mem = [] := by
  unfold Work.editDistance
  simp only [List.length_nil, or_true, true_or, if_true]
  exact ⟨rfl, rfl, rfl, rfl⟩

/-- C191: everything taken is given back before the call returns. -/
theorem C191_returned (a b : Str) (hm : a.length < 2147483647) (hn : b.length < 2147483647) :
    left (Work.editDistance a b).mem = 0 := by
  by_cases ha : a = []
  · subst ha; rw [(C191_empty b).2.2.2]; rfl
  by_cases hb : b = []
  · subst hb; rw [(C191_empty a).2.1]; rfl
  · rw [(Work.editDistance_costs a b ha hb _ (by rw [Work.editDistance_out, editDistance_eq a b hm hn])).2]
    exact Work.trace_left _ _

/-- C191, partial: texts of `m` and `n` characters need `4(m+1)(n+1) + 8(m+2)` bytes, no more and no less.  Missing: a
bound linear in the lengths, which is false (`C191_memory_refuted`). -/
theorem C191_memory_partial (a b : Str) (ha : a ≠ []) (hb : b ≠ []) (hm : a.length < 2147483647) (hn : b.length < 2147483647) :
    peak (Work.editDistance a b).mem = 4 * (a.length + 1) * (b.length + 1) + 8 * (a.length + 2) := by
  rw [(Work.editDistance_costs a b ha hb _ (by rw [Work.editDistance_out, editDistance_eq a b hm hn])).2]
  exact Work.trace_peak _ _

/-- C191 is false: the memory needed is not `k` times the lengths of the texts, for any `k` below `2^31 - 2`.  For two texts
of 100000 characters it is more than 40 GB, though two rows of the matrix would do. -/
theorem C191_memory_refuted : (∀ k : Nat, k < 2147483646 → ∃ a b : Str, a.length < 2147483647 ∧ b.length < 2147483647 ∧
      k * (a.length + b.length) < peak (Work.editDistance a b).mem) ∧
    ∀ a b : Str, a.length = 100000 → b.length = 100000 → 40000000000 < peak (Work.editDistance a b).mem := by
  refine ⟨fun k hk => ?_, fun a b ha hb => ?_⟩
  · have hl : (List.replicate (k + 1) (byte 'a')).length = k + 1 := List.length_replicate
    refine ⟨List.replicate (k + 1) (byte 'a'), List.replicate (k + 1) (byte 'a'), by omega, by omega, ?_⟩
    rw [C191_memory_partial _ _ (by simp) (by simp) (by omega) (by omega), hl]
    push_cast
    have : (0 : Int) ≤ (k : Int) * k := mul_nonneg (by omega) (by omega)
    nlinarith
  · rw [C191_memory_partial a b (by rintro rfl; simp at ha) (by rintro rfl; simp at hb) (by omega) (by omega), ha, hb]
    norm_num

-- two texts of four and five characters: 4·4·5 + 4 + 5 + 3 uses of cells, 168 bytes
example : (Work.editDistance (bytes ['t','h','i','s']) (bytes ['t','h','e','s','e'])).uses = 92 ∧
    peak (Work.editDistance (bytes ['t','h','i','s']) (bytes ['t','h','e','s','e'])).mem = 168 ∧
    (Work.editDistance (bytes ['t','h','i','s']) (bytes ['t','h','e','s','e'])).out = .ok 2 := by
  decide +kernel
-- the hypotheses hold for them
example : bytes ['t','h','i','s'] ≠ [] ∧ (bytes ['t','h','i','s']).length < 2147483647 := by decide +kernel

end EditDistance.Props
