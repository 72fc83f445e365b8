import Verif.Model.FractionProg

/-!
# Programs with conditions and loops over variables of type `Fraction`, /repo/src/include/math_utils/Fraction.h

The statements and comparisons are those of `Model/FractionProg.lean`.
-/

namespace Fraction
open Cpp

/-- Programs of a client; the statements and conditions call the constructors and operators of Fraction.h:16-121. -/
inductive Loop where
  /-- one statement -/
  | stmt (s : Stmt)
  /-- `p; q` -/
  | seq (p q : Loop)
  /-- `if (x c y) p else q` -/
  | cond (c : Cmp) (x y : Nat) (p q : Loop)
  /-- `while (x c y) p` -/
  | loop (c : Cmp) (x y : Nat) (p : Loop)

/-- Running a program whose conditions call Fraction.h:99-121; `n` bounds the nesting of steps, and a program that needs more
is not finished (`diverge`). -/
def runL : Nat → Vars → Loop → Out Vars
  | 0, _, _ => .diverge
  | _ + 1, st, .stmt s => do
    let v ← s.value st
    .ok (Function.update st s.target v)
  | n + 1, st, .seq p q => do
    let st ← runL n st p
    runL n st q
  | n + 1, st, .cond c x y p q => do
    if ← compare c (st x) (st y) then runL n st p else runL n st q
  | n + 1, st, .loop c x y p => do
    if ← compare c (st x) (st y) then do
      let st ← runL n st p
      runL n st (.loop c x y p)
    else .ok st

end Fraction
