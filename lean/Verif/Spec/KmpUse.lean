import Verif.Spec.Kmp

/-! # All occurrences of a substring, and replacing them -/

namespace Kmp.Spec
open Cpp

/-- `found` lists exactly the positions from `start` on at which `pattern` occurs, in ascending order. -/
def Lists (base pattern : Str) (start : Nat) (found : List Int) : Prop :=
  found.Pairwise (· < ·) ∧ ∀ r : Int, r ∈ found ↔ ∃ q : Nat, r = q ∧ start ≤ q ∧ OccursAt base pattern q

/-- `t` is `s` with occurrences of `pattern` replaced by `by'`, from the left, each time the first one in the rest. -/
inductive Replaced (pattern by' : Str) : Str → Str → Prop
  | none (s : Str) (h : ∀ q, ¬ OccursAt s pattern q) : Replaced pattern by' s s
  | one (before rest t : Str) (h : ∀ q, q < before.length → ¬ OccursAt (before ++ pattern ++ rest) pattern q)
      (ht : Replaced pattern by' rest t) : Replaced pattern by' (before ++ pattern ++ rest) (before ++ by' ++ t)

end Kmp.Spec
