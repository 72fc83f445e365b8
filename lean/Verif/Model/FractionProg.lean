import Verif.Model.Fraction
import Mathlib.Logic.Function.Basic

/-!
# Programs with variables of type `Fraction`, /repo/src/include/math_utils/Fraction.h

The statements of a client, and branches on comparisons; a loop is written out as many times as it is run.  Variables are
numbered; before its declaration a variable is `Fraction()`.  Every statement calls the operators modelled in
`Model/Fraction.lean`.
-/

namespace Fraction
open Cpp

/-- the four operations -/
inductive Op where
  | add | sub | mul | div
  deriving DecidableEq

/-- the six comparisons -/
inductive Cmp where
  | lt | le | gt | ge | eq | ne
  deriving DecidableEq

/-- Statements of a client. -/
inductive Stmt where
  /-- `Fraction x(n, d);` -/
  | decl (x : Nat) (n d : Int)
  /-- `Fraction x(n);` -/
  | declInt (x : Nat) (n : Int)
  /-- `x = y;` -/
  | copy (x y : Nat)
  /-- `x = y + z;` etc. -/
  | bin (o : Op) (x y z : Nat)
  /-- `x += y;` etc. -/
  | assign (o : Op) (x y : Nat)
  /-- `x = y + n;` etc. with an `int` -/
  | right (o : Op) (x y : Nat) (n : Int)
  /-- `x = n + y;` etc. with an `int` -/
  | left (o : Op) (x : Nat) (n : Int) (y : Nat)

/-- A program. -/
inductive Prog where
  | done
  | step (s : Stmt) (p : Prog)
  /-- `if (x < y) yes else no` etc. -/
  | branch (c : Cmp) (x y : Nat) (yes no : Prog)

/-- The variables. -/
abbrev Vars := Nat → Frac

/-- `y + z`, `y - z`, `y * z`, `y / z`, Fraction.h:35-39, 52-56, 69-72, 84-87. -/
def binary : Op → Frac → Frac → Out Frac
  | .add => add
  | .sub => sub
  | .mul => mul
  | .div => div

/-- `x += y` etc., Fraction.h:45-50, 62-67, 78-82, 93-97. -/
def compound : Op → Frac → Frac → Out Frac
  | .add => addAssign
  | .sub => subAssign
  | .mul => mulAssign
  | .div => divAssign

/-- `y + n` etc.: the conversion of Fraction.h:16-17 and the operators. -/
def withInt : Op → Frac → Int → Out Frac
  | .add => addInt
  | .sub => subInt
  | .mul => mulInt
  | .div => divInt

/-- `n + y` etc., Fraction.h:41-43, 58-60, 74-76, 89-91. -/
def intWith : Op → Int → Frac → Out Frac
  | .add => intAdd
  | .sub => intSub
  | .mul => intMul
  | .div => intDiv

/-- The comparisons, Fraction.h:99-121. -/
def compare : Cmp → Frac → Frac → Out Bool
  | .lt => lt
  | .le => le
  | .gt => gt
  | .ge => ge
  | .eq => fun a b => .ok (eq a b)
  | .ne => fun a b => .ok (ne a b)

/-- The variable a statement writes. -/
def Stmt.target : Stmt → Nat
  | .decl x _ _ | .declInt x _ | .copy x _ | .bin _ x _ _ | .assign _ x _ | .right _ x _ _ | .left _ x _ _ => x

/-- The value a statement writes; constructors Fraction.h:16-30, and the (implicit) assignment operator. -/
def Stmt.value (st : Vars) : Stmt → Out Frac
  | .decl _ n d => mk2 n d
  | .declInt _ n => ofInt n
  | .copy _ y => .ok (st y)
  | .bin o _ y z => binary o (st y) (st z)
  | .assign o x y => compound o (st x) (st y)
  | .right o _ y n => withInt o (st y) n
  | .left o _ n y => intWith o n (st y)

/-- A program: the variables at its end. -/
def Prog.run : Prog → Vars → Out Vars
  | .done, st => .ok st
  | .step s p, st => do
    let v ← s.value st
    p.run (Function.update st s.target v)
  | .branch c x y yes no, st => do
    if ← compare c (st x) (st y) then yes.run st else no.run st

end Fraction
