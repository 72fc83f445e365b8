import Mathlib.Data.Rat.Floor
import Verif.Cpp

/-! # What conversions and loops are expected to do -/

namespace Json.Spec
open Cpp

/-- The finite values of type `float`: at most 24 significant bits, no bit below `2^-149`, below `2^128`. -/
def IsFloat (q : ℚ) : Prop := ∃ m k : Int, |m| ≤ 2 ^ 24 ∧ -149 ≤ k ∧ q = m * 2 ^ k ∧ |q| < 2 ^ 128

/-- The body is run once for each element in order; what it leaves in the elements. -/
def each {α σ : Type} (body : σ → α → Out (σ × α)) : σ → List α → Out (σ × List α)
  | st, [] => .ok (st, [])
  | st, x :: l => do
    let (st, x) ← body st x
    let (st, l) ← each body st l
    .ok (st, x :: l)

end Json.Spec
