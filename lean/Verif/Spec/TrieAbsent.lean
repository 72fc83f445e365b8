import Verif.Spec.TrieHistory

/-! # Spec: absent words whose removal is safe -/

namespace Trie.Spec
open Cpp

/-- For the empty beginning of `w` and for each beginning of `w` which two words shared at some time, there is a word with
this beginning which is not before `w` in the alphabet. -/
def Sheltered (ops : List (Bool × Str)) (w : Str) : Prop :=
  ∀ v, v <+: w → (v = [] ∨ Fork ops v) → ∃ u ∈ words ops, v <+: u ∧ w ≤ u

end Trie.Spec
