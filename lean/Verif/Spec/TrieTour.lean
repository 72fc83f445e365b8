import Verif.Spec.Trie

/-! # Sets of words over which the iteration works -/

namespace Trie.Spec
open Cpp

/-- Two different words of `ws` begin with `v`. -/
def Shared (ws : List Str) (v : Str) : Prop := ∃ u ∈ ws, ∃ w ∈ ws, u ≠ w ∧ v <+: u ∧ v <+: w

/-- If several words begin with the letter `a`, then no word begins with a later letter.  If several words begin with
`v`, `a`, `c`, then `c` is not after `a`, and no word begins with `v`, `a` and a letter after `c` up to `a`. -/
structure Regular (ws : List Str) : Prop where
  first : ∀ a, Shared ws [a] → ∀ w ∈ ws, ∀ b, [b] <+: w → b ≤ a
  down : ∀ v a c, Shared ws (v ++ [a, c]) → c ≤ a
  gap : ∀ v a c, Shared ws (v ++ [a, c]) → ∀ d, c < d → d ≤ a → ∀ w ∈ ws, ¬ v ++ [a, d] <+: w

end Trie.Spec
