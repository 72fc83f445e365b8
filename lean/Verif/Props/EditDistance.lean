import Verif.Proof.EditDistance

/-! # Properties C10 and C11: edit distance -/

namespace EditDistance
open Cpp

/-- C10: `editDistance(a, b)` returns the least number of single-character edits that turn `a` into
`b`: a sequence of that many edits exists, and every edit sequence has at least that many. -/
theorem C10_least_edits (a b : Str) (ha : a.length < 2147483647) (hb : b.length < 2147483647) :
    ∃ d : Nat, editDistance a b = .ok d ∧ Spec.Edits d a b ∧ ∀ n, Spec.Edits n a b → d ≤ n :=
  ⟨lev a b, editDistance_eq a b ha hb, edits_lev a b, fun _ h => lev_le_of_edits h⟩

-- "this" → "thus" in one step; the model computes 1
example : Spec.Edits 1 (bytes ['t','h','i','s']) (bytes ['t','h','u','s']) :=
  .step (.replace (bytes ['t','h']) (byte 'i') (byte 'u') (bytes ['s'])) (.done _)
example : editDistance (bytes ['t','h','i','s']) (bytes ['t','h','u','s']) = .ok 1 := by
  decide +kernel

/-- C11: the distance is 0 exactly for equal strings. -/
theorem C11_zero_iff (a b : Str) (ha : a.length < 2147483647) (hb : b.length < 2147483647) :
    editDistance a b = .ok 0 ↔ a = b := by
  rw [editDistance_eq a b ha hb]
  constructor
  · intro h
    apply lev_eq_zero
    simp only [Out.ok.injEq] at h
    omega
  · rintro rfl; rw [lev_self]; rfl

/-- C11: symmetry. -/
theorem C11_symmetric (a b : Str) (ha : a.length < 2147483647) (hb : b.length < 2147483647) :
    editDistance a b = editDistance b a := by
  rw [editDistance_eq a b ha hb, editDistance_eq b a hb ha, lev_symm]

/-- C11: triangle inequality. -/
theorem C11_triangle (a b c : Str) (ha : a.length < 2147483647) (hb : b.length < 2147483647)
    (hc : c.length < 2147483647) (x y z : Int) (h1 : editDistance a b = .ok x)
    (h2 : editDistance b c = .ok y) (h3 : editDistance a c = .ok z) : z ≤ x + y := by
  rw [editDistance_eq a b ha hb] at h1
  rw [editDistance_eq b c hb hc] at h2
  rw [editDistance_eq a c ha hc] at h3
  have := lev_le_of_edits (Edits.trans (edits_lev a b) (edits_lev b c))
  simp only [Out.ok.injEq] at h1 h2 h3
  omega

/-- C11: the distance lies between the difference and the maximum of the lengths. -/
theorem C11_bounds (a b : Str) (ha : a.length < 2147483647) (hb : b.length < 2147483647) :
    ∃ d : Nat, editDistance a b = .ok d ∧ d ≤ max a.length b.length ∧
      a.length ≤ b.length + d ∧ b.length ≤ a.length + d := by
  refine ⟨lev a b, editDistance_eq a b ha hb, lev_le_max a b, ?_, ?_⟩
  · have := length_le_lev a b; omega
  · have := length_le_lev b a; rw [lev_symm] at this; omega

example : (bytes ['t','i','s']).length < 2147483647 := by decide
example : editDistance (bytes ['t','i','s']) (bytes ['t','h','i','s']) = .ok 1 ∧
    editDistance (bytes ['t','h','i','s']) (bytes ['t','h','u','s']) = .ok 1 ∧
    editDistance (bytes ['t','i','s']) (bytes ['t','h','u','s']) = .ok 2 := by
  decide +kernel

end EditDistance
