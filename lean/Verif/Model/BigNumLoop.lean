import Verif.Model.BigNumProg

/-!
# Programs with conditions and loops over variables of type `BigNum<N>`, /repo/src/include/math_utils/BigNum.h

The statements are those of `Model/BigNumProg.lean`; the conditions call the comparison operators.
-/

namespace BigNum
open Cpp

/-- The comparisons, BigNum.h:71-81. -/
inductive Rel where
  | lt | le | gt | ge | eq | ne
  deriving DecidableEq

/-- Programs of a client. -/
inductive Prog where
  /-- one statement -/
  | stmt (s : Stmt)
  /-- `p; q` -/
  | seq (p q : Prog)
  /-- `if (x R y) p else q` -/
  | cond (R : Rel) (x y : Nat) (p q : Prog)
  /-- `while (x R y) p` -/
  | loop (R : Rel) (x y : Nat) (p : Prog)

/-- The value of a condition, BigNum.h:71-81. -/
def test (a b : Big) : Rel → Out Bool
  | .lt => lt a b
  | .le => le a b
  | .gt => gt a b
  | .ge => ge a b
  | .eq => eq a b
  | .ne => ne a b

/-- Running a program; `n` bounds the steps. -/
def runP (N fuel : Nat) : Nat → Vars → Prog → Out Vars
  | 0, _, _ => .diverge
  | _ + 1, st, .stmt s => exec N fuel st s
  | n + 1, st, .seq p q => do
    let st ← runP N fuel n st p
    runP N fuel n st q
  | n + 1, st, .cond R x y p q => do
    let c ← test (st x) (st y) R
    if c then runP N fuel n st p else runP N fuel n st q
  | n + 1, st, .loop R x y p => do
    let c ← test (st x) (st y) R
    if c then do
      let st ← runP N fuel n st p
      runP N fuel n st (.loop R x y p)
    else .ok st

end BigNum
