import Verif.Model.BigNum
import Mathlib.Logic.Function.Basic

/-!
# Programs with variables of type `BigNum<N>`, /repo/src/include/math_utils/BigNum.h

The statements of a client.  Variables are numbered; before its declaration a variable is `BigNum()`.  Every statement
calls the operators modelled in `Model/BigNum.lean`.
-/

namespace BigNum
open Cpp

/-- Statements of a client. -/
inductive Stmt where
  /-- `BigNum x(k);` -/
  | decl (x : Nat) (k : Int)
  /-- `x = y;` -/
  | assign (x y : Nat)
  /-- `x = y + z;` -/
  | plus (x y z : Nat)
  /-- `x = y - z;` -/
  | minus (x y z : Nat)
  /-- `x = y * z;` -/
  | times (x y z : Nat)
  /-- `x += y;` -/
  | plusEq (x y : Nat)
  /-- `x -= y;` -/
  | minusEq (x y : Nat)
  /-- `x += k;` with an `int64_t` -/
  | plusEqInt (x : Nat) (k : Int)
  /-- `x -= k;` -/
  | minusEqInt (x : Nat) (k : Int)
  /-- `x *= k;` -/
  | timesEqInt (x : Nat) (k : Int)
  /-- `++x;` -/
  | inc (x : Nat)
  /-- `--x;` -/
  | dec (x : Nat)

/-- The values of the variables. -/
abbrev Vars := Nat → Big

/-- A statement that gives `x` the value computed. -/
def Vars.put (st : Vars) (x : Nat) (v : Out Big) : Out Vars := do
  let b ← v
  .ok (Function.update st x b)

/-- One statement: constructor BigNum.h:23-29, assignment BigNum.h:51-56, operators BigNum.h:84-95, 110-133, 136-147,
162-185, 188-191, 204-208, 217-220, 228-231.  `x = x;` calls `memcpy` with overlapping memory (BigNum.h:55): undefined, except
if nothing is copied. -/
def exec (N fuel : Nat) (st : Vars) : Stmt → Out Vars
  | .decl x k => st.put x (ofInt N k)
  | .assign x y => st.put x (if x = y ∧ (st y).len ≠ 0 then .ub else .ok (assign (st x) (st y)))
  | .plus x y z => st.put x (do .ok (assign (st x) (← plus N fuel (st y) (st z))))
  | .minus x y z => st.put x (do .ok (assign (st x) (← minus N fuel (st y) (st z))))
  | .times x y z => st.put x (do .ok (assign (st x) (← times N (st y) (st z))))
  | .plusEq x y => st.put x (plusAssign N fuel (st x) (st y))
  | .minusEq x y => st.put x (minusAssign N fuel (st x) (st y))
  | .plusEqInt x k => st.put x (plusAssignInt N fuel (st x) k)
  | .minusEqInt x k => st.put x (minusAssignInt N fuel (st x) k)
  | .timesEqInt x k => st.put x (timesAssignInt N (st x) k)
  | .inc x => st.put x (inc N fuel (st x))
  | .dec x => st.put x (dec N fuel (st x))

/-- A sequence of statements. -/
def execs (N fuel : Nat) : Vars → List Stmt → Out Vars
  | st, [] => .ok st
  | st, s :: p => do execs N fuel (← exec N fuel st s) p

end BigNum
