import Verif.Cpp

/-! # Occurrences of a substring (independent of the model) -/

namespace Kmp.Spec
open Cpp

/-- `pattern` occurs in `base` at index `q`. -/
def OccursAt (base pattern : Str) (q : Nat) : Prop :=
  ∃ before after, base = before ++ pattern ++ after ∧ before.length = q

/-- The answer that a substring search from `start` has to give. -/
def IsFirstOccurrence (base pattern : Str) (start : Nat) (r : Int) : Prop :=
  (∃ q : Nat, r = q ∧ start ≤ q ∧ OccursAt base pattern q ∧
    ∀ q', start ≤ q' → q' < q → ¬ OccursAt base pattern q') ∨
  (r = -1 ∧ ∀ q, start ≤ q → ¬ OccursAt base pattern q)

end Kmp.Spec
