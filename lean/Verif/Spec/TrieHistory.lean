import Verif.Spec.TrieTour

/-! # Histories of insertions and removals after which the iteration works -/

namespace Trie.Spec
open Cpp

/-- At some time two different words beginning with `v` were in the set. -/
def Fork (ops : List (Bool × Str)) (v : Str) : Prop :=
  ∃ l, l <+: ops ∧ ∃ u ∈ words l, ∃ w ∈ words l, u ≠ w ∧ v <+: u ∧ v <+: w

/-- The beginnings which count: the first letter is the smallest which was ever shared, and after `v`, `a` a letter `c` up
to `a` counts only if no smaller one was shared there. -/
inductive Open (F : Str → Prop) : Str → Prop where
  | first (a : Byte) : (∀ b, F [b] → a ≤ b) → Open F [a]
  | next (v : Str) (a c : Byte) : Open F (v ++ [a]) → (∀ b, F (v ++ [a, b]) → ¬ (b < c ∧ c ≤ a)) → Open F (v ++ [a, c])

/-- The beginnings `F` were shared at some time, the words are those of `S` now: no word begins with a letter after a shared
one; after `v`, `a` the letter of a counting shared beginning is at most `a`, and no word has after `v`, `a` a letter after it up
to `a`. -/
structure RegularH (F : Str → Prop) (S : Finset Str) : Prop where
  first : ∀ a, F [a] → ∀ w ∈ S, ∀ b, [b] <+: w → b ≤ a
  down : ∀ v a c, F (v ++ [a, c]) → Open F (v ++ [a, c]) → c ≤ a
  gap : ∀ v a c, F (v ++ [a, c]) → Open F (v ++ [a, c]) → ∀ d, c < d → d ≤ a → ∀ w ∈ S, ¬ v ++ [a, d] <+: w

/-- The history is regular. -/
def RegularAfter (ops : List (Bool × Str)) : Prop := RegularH (Fork ops) (words ops)

end Trie.Spec
