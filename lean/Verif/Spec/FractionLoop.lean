import Verif.Model.FractionLoop
import Verif.Spec.FractionProg

/-! # What a program with loops over fractions should compute: the same over the rational numbers -/

namespace Fraction.Spec
open Cpp

/-- how a run over the rational numbers comes out -/
inductive Res where
  /-- it ends with these values -/
  | ends (σ : Nat → ℚ)
  /-- it divides by 0 -/
  | zero
  /-- it meets a statement that is not admitted -/
  | large
  /-- it needs more steps -/
  | more

/-- The program over the rational numbers, as long as it meets only admitted statements. -/
def runR (admit : (Nat → ℚ) → Stmt → Bool) : Nat → (Nat → ℚ) → Loop → Res
  | 0, _, _ => .more
  | _ + 1, σ, .stmt s =>
    if admit σ s then
      match value σ s with
      | some v => .ends (Function.update σ s.target v)
      | none => .zero
    else .large
  | n + 1, σ, .seq p q =>
    match runR admit n σ p with
    | .ends σ' => runR admit n σ' q
    | r => r
  | n + 1, σ, .cond c x y p q => if holds c (σ x) (σ y) then runR admit n σ p else runR admit n σ q
  | n + 1, σ, .loop c x y p =>
    if holds c (σ x) (σ y) then
      match runR admit n σ p with
      | .ends σ' => runR admit n σ' (.loop c x y p)
      | r => r
    else .ends σ

/-- every statement is admitted -/
def anything (_ : Nat → ℚ) (_ : Stmt) : Bool := true

instance (B : Nat) : (s : Stmt) → Decidable (Consts B s)
  | .decl _ n d => inferInstanceAs (Decidable (Small n ∧ Small d))
  | .declInt _ n => inferInstanceAs (Decidable (Small n))
  | .right _ _ _ n => inferInstanceAs (Decidable (n.natAbs ≤ B))
  | .left _ _ n _ => inferInstanceAs (Decidable (n.natAbs ≤ B))
  | .copy _ _ => inferInstanceAs (Decidable True)
  | .bin _ _ _ _ => inferInstanceAs (Decidable True)
  | .assign _ _ _ => inferInstanceAs (Decidable True)

/-- the constants of the statement and the value it gives are within `B` -/
def fitsIn (B : Nat) (σ : Nat → ℚ) (s : Stmt) : Bool :=
  decide (Consts B s) &&
    match value σ s with
    | some v => decide (Within B v)
    | none => true

/-- every statement of a program has a property -/
def Every (P : Stmt → Prop) : Loop → Prop
  | .stmt s => P s
  | .seq p q => Every P p ∧ Every P q
  | .cond _ _ _ p q => Every P p ∧ Every P q
  | .loop _ _ _ p => Every P p

/-- `Fraction s, i(1), k(K), one(1), t; while (i <= k) { t = i + 1; t = t * i; t = one / t; s += t; i = i + 1; }` with `s`, `i`,
`k`, `one`, `t` the variables 0 to 4 -/
def telescope (K : Int) : Loop :=
  .seq (.stmt (.declInt 1 1)) (.seq (.stmt (.declInt 2 K)) (.seq (.stmt (.declInt 3 1))
    (.loop .le 1 2 (.seq (.stmt (.right .add 4 1 1)) (.seq (.stmt (.bin .mul 4 4 1)) (.seq (.stmt (.bin .div 4 3 4))
      (.seq (.stmt (.assign .add 0 4)) (.stmt (.right .add 1 1 1)))))))))

end Fraction.Spec
