import Verif.Model.FractionProg
import Verif.Spec.Fraction

/-! # What a program with fractions should compute: the same over the rational numbers -/

namespace Fraction.Spec
open Cpp

/-- the operations on rational numbers; there is no quotient by 0 -/
def eval : Op → ℚ → ℚ → Option ℚ
  | .add, a, b => some (a + b)
  | .sub, a, b => some (a - b)
  | .mul, a, b => some (a * b)
  | .div, a, b => if b = 0 then none else some (a / b)

/-- the comparisons of rational numbers -/
def holds : Cmp → ℚ → ℚ → Bool
  | .lt, a, b => decide (a < b)
  | .le, a, b => decide (a ≤ b)
  | .gt, a, b => decide (b < a)
  | .ge, a, b => decide (b ≤ a)
  | .eq, a, b => decide (a = b)
  | .ne, a, b => decide (a ≠ b)

/-- the value a statement should give to its variable -/
def value (st : Nat → ℚ) : Stmt → Option ℚ
  | .decl _ n d => eval .div n d
  | .declInt _ n => some n
  | .copy _ y => some (st y)
  | .bin o _ y z => eval o (st y) (st z)
  | .assign o x y => eval o (st x) (st y)
  | .right o _ y n => eval o (st y) n
  | .left o _ n y => eval o n (st y)

/-- what a program should compute; `none` if it divides by 0 -/
def run : Prog → (Nat → ℚ) → Option (Nat → ℚ)
  | .done, st => some st
  | .step s p, st => (value st s).bind fun v => run p (Function.update st s.target v)
  | .branch c x y yes no, st => if holds c (st x) (st y) then run yes st else run no st

/-- The constants of a statement are `int`s. -/
def Typed : Stmt → Prop
  | .decl _ n d => IsInt n ∧ IsInt d
  | .declInt _ n => IsInt n
  | .right _ _ _ n => IsInt n
  | .left _ _ n _ => IsInt n
  | _ => True

/-- A statement that is not one of `x /= y`, `x = n - y`, `x = n / y`. -/
def Plain : Stmt → Prop
  | .assign o _ _ => o ≠ .div
  | .left o _ _ _ => o = .add ∨ o = .mul
  | _ => True

/-- every statement of a program has a property -/
def All (P : Stmt → Prop) : Prog → Prop
  | .done => True
  | .step s p => P s ∧ All P p
  | .branch _ _ _ yes no => All P yes ∧ All P no

/-- numerator and denominator are at most `B` -/
def Within (B : Nat) (q : ℚ) : Prop := q.num.natAbs ≤ B ∧ q.den ≤ B

instance (B : Nat) (q : ℚ) : Decidable (Within B q) := inferInstanceAs (Decidable (_ ∧ _))

/-- the integer constants among the operands are at most `B`; those of constructors are not the least `int` -/
def Consts (B : Nat) : Stmt → Prop
  | .decl _ n d => Small n ∧ Small d
  | .declInt _ n => Small n
  | .right _ _ _ n => n.natAbs ≤ B
  | .left _ _ n _ => n.natAbs ≤ B
  | _ => True

/-- On the way through the program the variables are within `B`. -/
def Fits (B : Nat) : Prog → (Nat → ℚ) → Prop
  | .done, _ => True
  | .step s p, st => Consts B s ∧ ∀ v, value st s = some v → Within B v ∧ Fits B p (Function.update st s.target v)
  | .branch c x y yes no, st => if holds c (st x) (st y) then Fits B yes st else Fits B no st

end Fraction.Spec
