import Verif.Proof.TrieRegular

/-! # C45: exactly when the iteration over a trie works -/

namespace Trie.Props
open Cpp Spec

/-- **C45, what holds.**  After the insertion of `ws` the iteration is right exactly if `ws` is regular: then it ends and
shows each word once, in alphabetical order; otherwise it does not end or some word is missing. -/
theorem C45_regular_partial (ws : List Str) (hl : ∀ w ∈ ws, Lower w) :
    ∃ st, build ws = .ok st ∧
      (Regular ws → ∃ l N, l.Pairwise (· < ·) ∧ (∀ w, w ∈ l ↔ w ∈ ws) ∧ ∀ fuel, N ≤ fuel → iterate mapInt st fuel = .ok l) ∧
      (¬ Regular ws → ∀ fuel l, iterate mapInt st fuel = .ok l → ∃ w ∈ ws, w ∉ l) := by
  obtain ⟨st, e, R, B⟩ := build_branch ws hl
  have hlow : ∀ w ∈ ws.toFinset, Lower w := fun w hw => hl w (by simpa using hw)
  refine ⟨st, e, fun H => ?_, fun H fuel l hi => ?_⟩
  · obtain ⟨l, s, k1, k2, k3, k4⟩ := runs_root R B hlow
      (by simpa [Shared] using H.first) (by simpa [Shared] using H.down) (by simpa [Shared] using H.gap) 27 (by omega)
    rw [show (28 : Int) - (27 : Nat) = 1 by norm_num] at k1 k3
    obtain ⟨N, hN⟩ := iterate_runs R k1 k2
    refine ⟨l, N, k4, fun w => ?_, hN⟩
    rw [k3 w, from_all hlow]
    simp
  · by_contra hall
    push Not at hall
    obtain ⟨⟨t, ht, hstop⟩, hshow⟩ := iterate_reach R hi
    obtain ⟨g1, g2, g3⟩ := regular_of_complete R ht hstop (fun w hw => hshow w (hall w (by simpa using hw))) hlow
    exact H ⟨by simpa [Shared] using g1, by simpa [Shared] using g2, by simpa [Shared] using g3⟩

/-- The words bab, baa, ba and a are regular though three of them share two letters. -/
example : Regular [bytes ['b', 'a', 'b'], bytes ['b', 'a', 'a'], bytes ['b', 'a'], bytes ['a']] :=
  Check.regular (by decide +kernel)

example : Shared [bytes ['b', 'a', 'b'], bytes ['b', 'a', 'a'], bytes ['b', 'a'], bytes ['a']] (bytes ['b', 'a']) :=
  ⟨bytes ['b', 'a', 'b'], by decide, bytes ['b', 'a', 'a'], by decide, by decide, by decide, by decide⟩

/-- the iteration over them, computed -/
example : (do iterate mapInt (← build [bytes ['b', 'a', 'b'], bytes ['b', 'a', 'a'], bytes ['b', 'a'], bytes ['a']]) 200) =
    .ok [bytes ['a'], bytes ['b', 'a'], bytes ['b', 'a', 'a'], bytes ['b', 'a', 'b']] := by decide +kernel

/-- The words ba, bc and c are not regular: two words begin with b and one with a later letter. -/
example : ¬ Regular [bytes ['b', 'a'], bytes ['b', 'c'], bytes ['c']] := by
  intro h
  have := h.first 98 ⟨bytes ['b', 'a'], by decide, bytes ['b', 'c'], by decide, by decide, by decide, by decide⟩
    (bytes ['c']) (by decide) 99 (by decide)
  exact absurd this (by decide)

/-- The words baa and bab and bb are not regular: they would be shown as baa, bab only. -/
example : ¬ Regular [bytes ['b', 'a', 'a'], bytes ['b', 'a', 'b'], bytes ['b', 'b']] := by
  intro h
  exact h.gap [] 98 97 ⟨bytes ['b', 'a', 'a'], by decide, bytes ['b', 'a', 'b'], by decide, by decide, by decide, by decide⟩
    98 (by decide) (by decide) (bytes ['b', 'b']) (by decide) (by decide)

example : (do iterate mapInt (← build [bytes ['b', 'a', 'a'], bytes ['b', 'a', 'b'], bytes ['b', 'b']]) 200) =
    .ok [bytes ['b', 'a', 'a'], bytes ['b', 'a', 'b']] := by decide +kernel

end Trie.Props
