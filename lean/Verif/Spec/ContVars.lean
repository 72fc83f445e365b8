import Verif.Model.ContVars

/-! # What assignments of container variables mean: they are carried out one after the other -/

open Cpp

namespace Cont.Vars.Spec

variable {σ C ρ : Type}

/-- The variable an expression designates: that on the left. -/
def target : Ex → Nat
  | .var i => i
  | .assign l _ => target l

/-- The simple assignments `x = y` between variables an expression carries out, in order (the right operand first). -/
def steps : Ex → List (Nat × Nat)
  | .var _ => []
  | .assign l r => steps r ++ steps l ++ [(target l, target r)]

/-- carry out `x = y` -/
def assign (st : Store σ) (a : Nat × Nat) : Store σ := fun j => if j = a.1 then st a.2 else st j

/-- The meaning of a program: each variable has its own value, an assignment copies the value, and a call acts on the
variable designated by the expression in front of it, and on no other. -/
def run (call : σ → C → Out (ρ × σ)) : Store σ → List (Stmt C) → Out (List ρ × Store σ)
  | st, [] => .ok ([], st)
  | st, .expr e :: p => run call ((steps e).foldl assign st) p
  | st, .call e c :: p => do
    let st := (steps e).foldl assign st
    let (x, v) ← call (st (target e)) c
    let (xs, st) ← run call (fun j => if j = target e then v else st j) p
    .ok (x :: xs, st)
  | st, .copy x e :: p =>
    let st := (steps e).foldl assign st
    run call (fun j => if j = x then st (target e) else st j) p

/-- The expressions `x`, `x = y` and `x = y = ... = z`. -/
inductive Chain : Ex → Prop
  | var (i : Nat) : Chain (.var i)
  | assign (i : Nat) {r : Ex} (h : Chain r) : Chain (.assign (.var i) r)

/-- In a program all expressions are such chains, and calls are made for variables only (not for the result of an
assignment). -/
def Plain (p : List (Stmt C)) : Prop :=
  ∀ s ∈ p, match s with
    | .expr e => Chain e
    | .call e _ => ∃ i, e = .var i
    | .copy _ e => Chain e

end Cont.Vars.Spec
