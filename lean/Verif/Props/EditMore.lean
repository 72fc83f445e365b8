import Verif.Proof.EditMore
import Verif.Props.Kmp

/-! # Property C161: how `editDistance` reacts to the shape of its arguments

All theorems are about texts of fewer than 2^31 - 1 characters (the lengths are ints, C10). -/

namespace EditDistance
open Cpp

/-- C161: what two texts have in common at their beginnings and at their ends does not matter. -/
theorem C161_common (p s a b : Str) (ha : (p ++ a ++ s).length < 2147483647)
    (hb : (p ++ b ++ s).length < 2147483647) :
    editDistance (p ++ a ++ s) (p ++ b ++ s) = editDistance a b := by
  have h1 := ha
  have h2 := hb
  simp only [List.length_append] at h1 h2
  rw [editDistance_eq _ _ ha hb, editDistance_eq a b (by omega) (by omega), lev_append_cancel_right,
    lev_append_cancel]

example : editDistance (bytes ['a','b','x','c']) (bytes ['a','b','y','z','c']) = .ok 2 ∧
    editDistance (bytes ['x']) (bytes ['y','z']) = .ok 2 := by decide +kernel

/-- C161: reading both texts backwards gives the same distance. -/
theorem C161_reverse (a b : Str) (ha : a.length < 2147483647) (hb : b.length < 2147483647) :
    editDistance a.reverse b.reverse = editDistance a b := by
  rw [editDistance_eq _ _ (by simpa using ha) (by simpa using hb), editDistance_eq a b ha hb, lev_reverse]

example : editDistance (bytes ['s','i','h','t']) (bytes ['s','u','h']) = .ok 2 ∧
    editDistance (bytes ['t','h','i','s']) (bytes ['h','u','s']) = .ok 2 := by decide +kernel

/-- C161: the distance of two concatenations is at most the sum of the distances of their parts. -/
theorem C161_append (a a' b b' : Str) (ha : (a ++ a').length < 2147483647)
    (hb : (b ++ b').length < 2147483647) :
    ∃ x y z : Int, editDistance a b = .ok x ∧ editDistance a' b' = .ok y ∧
      editDistance (a ++ a') (b ++ b') = .ok z ∧ z ≤ x + y := by
  have h1 := ha
  have h2 := hb
  simp only [List.length_append] at h1 h2
  have := lev_append_le a a' b b'
  exact ⟨lev a b, lev a' b', lev (a ++ a') (b ++ b'), editDistance_eq a b (by omega) (by omega),
    editDistance_eq a' b' (by omega) (by omega), editDistance_eq _ _ ha hb, by omega⟩

-- the sum is not always reached: "ab" + "c" and "a" + "bc" are the same text
example : editDistance (bytes ['a','b']) (bytes ['a']) = .ok 1 ∧ editDistance (bytes ['c']) (bytes ['b','c']) = .ok 1 ∧
    editDistance (bytes ['a','b','c']) (bytes ['a','b','c']) = .ok 0 := by decide +kernel

/-- C161: the distance is the difference of the lengths exactly if the shorter text arises from the
longer one by leaving out characters. -/
theorem C161_subsequence (a b : Str) (ha : a.length < 2147483647) (hb : b.length < 2147483647) :
    editDistance a b = .ok ((b.length : Int) - a.length) ↔ List.Sublist a b := by
  rw [editDistance_eq a b ha hb]
  constructor
  · intro h
    simp only [Out.ok.injEq] at h
    exact sublist_of_lev (by omega)
  · intro h
    have h1 := lev_le_of_edits (edits_sublist h)
    have h2 := length_le_lev b a
    rw [lev_symm] at h2
    have h3 := h.length_le
    congr 1
    omega

example : List.Sublist (bytes ['a','c']) (bytes ['a','b','c','d']) := by decide
example : editDistance (bytes ['a','c']) (bytes ['a','b','c','d']) = .ok 2 := by decide +kernel

/-- C161: texts without a common character have the greatest distance there is (`C11_bounds`). -/
theorem C161_disjoint (a b : Str) (h : ∀ c, c ∈ a → c ∉ b) (ha : a.length < 2147483647)
    (hb : b.length < 2147483647) : editDistance a b = .ok ((max a.length b.length : Nat) : Int) := by
  rw [editDistance_eq a b ha hb, lev_disjoint h]

example : (∀ c, c ∈ bytes ['a','b'] → c ∉ bytes ['c','d','e']) ∧
    editDistance (bytes ['a','b']) (bytes ['c','d','e']) = .ok 3 := by decide +kernel

/-- C161: for texts of one length the distance is at most the number of places where they differ. -/
theorem C161_hamming (a b : Str) (h : a.length = b.length) (ha : a.length < 2147483647) :
    ∃ d : Nat, editDistance a b = .ok d ∧ d ≤ ((a.zip b).filter fun p => p.1 ≠ p.2).length :=
  ⟨lev a b, editDistance_eq a b ha (by omega), lev_hamming a b h⟩

-- and it can be less: "abcd" and "bcda" differ everywhere
example : editDistance (bytes ['a','b','c','d']) (bytes ['b','c','d','a']) = .ok 2 ∧
    (((bytes ['a','b','c','d']).zip (bytes ['b','c','d','a'])).filter fun p => p.1 ≠ p.2).length = 4 := by
  decide +kernel

/-- C161: if `kmpSearch` finds a pattern in a text, then `editDistance` of the two is the difference of
their lengths. -/
theorem C161_found (base pattern : Str) (start fuel : Nat) (hp : pattern ≠ [])
    (hpl : pattern.length < 2147483647) (hbl : base.length < 2147483647) (hst : start < 2147483648)
    (hf : 2 * (base.length + pattern.length) + 2 ≤ fuel) (r : Int)
    (h : Kmp.kmpSearch fuel base pattern start = .ok r) (hr : r ≠ -1) :
    editDistance pattern base = .ok ((base.length : Int) - pattern.length) := by
  obtain ⟨r', h1, h2⟩ := Kmp.C08_first_occurrence base pattern start hp (by omega) (by omega) hst
  rw [h2 fuel hf] at h
  cases h
  rcases h1 with ⟨q, _, _, ⟨u, v, rfl, _⟩, _⟩ | ⟨h, _⟩
  · exact (C161_subsequence _ _ hpl hbl).2
      ((List.sublist_append_right u pattern).trans (List.sublist_append_left _ v))
  · exact absurd h hr

example : Kmp.kmpSearch 100 (bytes ['x','a','b','y']) (bytes ['a','b']) 0 = .ok 1 ∧
    editDistance (bytes ['a','b']) (bytes ['x','a','b','y']) = .ok 2 := by decide +kernel

end EditDistance
