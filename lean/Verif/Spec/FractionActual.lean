import Verif.Spec.FractionLoop

/-! # What the statements over fractions compute in the library, said with rational numbers -/

namespace Fraction.Spec
open Cpp

/-- The value a statement gives to its variable: `n - y` is `y - n`, `n / y` is `y / n`, and `x /= y` divides numerator by numerator
and denominator by denominator, each towards 0, before the quotient of the two is taken.  `none`: the quotient is one by 0. -/
def actualValue (σ : Nat → ℚ) : Stmt → Option ℚ
  | .left .sub _ n y => some (σ y - n)
  | .left .div _ n y => if n = 0 then none else some (σ y / n)
  | .assign .div x y =>
    if (σ x).den < (σ y).den then none
    else some (((σ x).num.tdiv (σ y).num : Int) / (((σ x).den / (σ y).den : Nat) : ℚ))
  | s => value σ s

/-- the program without loops with these values -/
def actualRun : Prog → (Nat → ℚ) → Option (Nat → ℚ)
  | .done, σ => some σ
  | .step s p, σ => (actualValue σ s).bind fun v => actualRun p (Function.update σ s.target v)
  | .branch c x y yes no, σ => if holds c (σ x) (σ y) then actualRun yes σ else actualRun no σ

/-- the program with loops with these values, as long as it meets only admitted statements -/
def actualLoop (admit : (Nat → ℚ) → Stmt → Bool) : Nat → (Nat → ℚ) → Loop → Res
  | 0, _, _ => .more
  | _ + 1, σ, .stmt s =>
    if admit σ s then
      match actualValue σ s with
      | some v => .ends (Function.update σ s.target v)
      | none => .zero
    else .large
  | n + 1, σ, .seq p q =>
    match actualLoop admit n σ p with
    | .ends σ' => actualLoop admit n σ' q
    | r => r
  | n + 1, σ, .cond c x y p q => if holds c (σ x) (σ y) then actualLoop admit n σ p else actualLoop admit n σ q
  | n + 1, σ, .loop c x y p =>
    if holds c (σ x) (σ y) then
      match actualLoop admit n σ p with
      | .ends σ' => actualLoop admit n σ' (.loop c x y p)
      | r => r
    else .ends σ

/-- the statement is not `x /= y` with `y = 0` -/
def divides (σ : Nat → ℚ) : Stmt → Bool
  | .assign .div _ y => decide (σ y ≠ 0)
  | _ => true

/-- the constants of the statement and the value it gives are within `B`, and it is not `x /= y` with `y = 0` -/
def actualFits (B : Nat) (σ : Nat → ℚ) (s : Stmt) : Bool :=
  decide (Consts B s) && divides σ s &&
    match actualValue σ s with
    | some v => decide (Within B v)
    | none => true

end Fraction.Spec
