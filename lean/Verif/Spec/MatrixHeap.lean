import Verif.Model.MatrixHeap
import Mathlib.Algebra.BigOperators.Group.Finset.Basic

/-! # Programs on matrix variables

`Stmt` lists what a program does with matrix variables, which are numbered in the order of their declarations.  `Spec.run` says
what the variables hold if matrices are plain values; `Mem.run` performs the statements in the model of the memory. -/

namespace Matrix
open Cpp

/-- `+`, `-`, `*`. -/
inductive BinOp where
  | plus | minus | times
  deriving DecidableEq

/-- A statement; variables are given by their numbers. -/
inductive Stmt (α : Type) where
  /-- `Matrix<T> x(n, m);` -/
  | declare (n m : Nat)
  /-- `Matrix<T> x(ini);` -/
  | declareRows (ini : List (List α))
  /-- `Matrix<T> x(y);` -/
  | declareCopy (y : Nat)
  /-- `Matrix<T> x = y op z;` -/
  | declareOp (op : BinOp) (y z : Nat)
  /-- `x = y;` -/
  | assign (x y : Nat)
  /-- `x = y op z;` -/
  | assignOp (op : BinOp) (x y z : Nat)
  /-- `x += y;` -/
  | addTo (x y : Nat)
  /-- `x -= y;` -/
  | subFrom (x y : Nat)
  /-- `x *= y;` -/
  | mulTo (x y : Nat)
  /-- `x[i][j] = v;` -/
  | write (x i j : Nat) (v : α)

/-- Not `x *= y;`. -/
def Stmt.NotMulTo {α : Type} : Stmt α → Prop
  | .mulTo _ _ => False
  | _ => True

/-- No product. -/
def Stmt.NoProduct {α : Type} : Stmt α → Prop
  | .declareOp .times _ _ => False
  | .assignOp .times _ _ _ => False
  | .mulTo _ _ => False
  | _ => True

namespace Spec

/-- A matrix as a value. -/
structure Value (α : Type) where
  rows : Nat
  cols : Nat
  entry : Nat → Nat → α

/-- Sum, difference and product; `none` if the shapes do not match. -/
def op {α : Type} [Field α] (A B : Value α) : BinOp → Option (Value α)
  | .plus => if A.rows = B.rows ∧ A.cols = B.cols then some ⟨A.rows, A.cols, fun i j => A.entry i j + B.entry i j⟩ else none
  | .minus => if A.rows = B.rows ∧ A.cols = B.cols then some ⟨A.rows, A.cols, fun i j => A.entry i j - B.entry i j⟩ else none
  | .times => if A.cols = B.rows then
      some ⟨A.rows, B.cols, fun i j => ∑ k ∈ Finset.range A.cols, A.entry i k * B.entry k j⟩ else none

/-- The variables after a statement; `none` if the statement makes no sense. -/
def step {α : Type} [Field α] (env : List (Value α)) : Stmt α → Option (List (Value α))
  | .declare n m => some (env ++ [⟨n, m, fun _ _ => 0⟩])
  | .declareRows ini => match ini with
    | [] => none
    | first :: _ => if ∀ r ∈ ini, first.length ≤ r.length then
        some (env ++ [⟨ini.length, first.length, fun i j => (ini.getD i []).getD j 0⟩]) else none
  | .declareCopy y => do some (env ++ [← env[y]?])
  | .declareOp o y z => do some (env ++ [← op (← env[y]?) (← env[z]?) o])
  | .assign x y => do
    let _ ← env[x]?
    some (env.set x (← env[y]?))
  | .assignOp o x y z => do
    let _ ← env[x]?
    some (env.set x (← op (← env[y]?) (← env[z]?) o))
  | .addTo x y => do some (env.set x (← op (← env[x]?) (← env[y]?) .plus))
  | .subFrom x y => do some (env.set x (← op (← env[x]?) (← env[y]?) .minus))
  | .mulTo x y => do some (env.set x (← op (← env[x]?) (← env[y]?) .times))
  | .write x i j v => do
    let A ← env[x]?
    if i < A.rows ∧ j < A.cols then
      some (env.set x ⟨A.rows, A.cols, fun a b => if a = i ∧ b = j then v else A.entry a b⟩) else none

/-- The variables after a program. -/
def run {α : Type} [Field α] (prog : List (Stmt α)) : Option (List (Value α)) := prog.foldlM step []

/-- The blocks a statement never gives back: `y * z` with `r` rows leaves an object, its array of row pointers and its `r` rows. -/
def leak {α : Type} (env : List (Value α)) : Stmt α → Nat
  | .declareOp .times y _ => (env[y]?).elim 0 fun A => A.rows + 2
  | .assignOp .times _ y _ => (env[y]?).elim 0 fun A => A.rows + 2
  | _ => 0

/-- The blocks a program never gives back. -/
def leaked {α : Type} [Field α] : List (Value α) → List (Stmt α) → Nat
  | _, [] => 0
  | env, st :: rest => leak env st + (step env st).elim 0 fun env' => leaked env' rest

end Spec

namespace Mem

/-- The object a variable names. -/
def var (vars : List Obj) (x : Nat) : Out Obj :=
  match vars[x]? with
  | some o => .ok o
  | none => .ub

/-- `y op z`. -/
def binop {α : Type} (ar : Arith α) (h : Heap α) (A B : Obj) : BinOp → Out (Obj × Heap α)
  | .plus => combine ar ar.add h A B
  | .minus => combine ar ar.sub h A B
  | .times => times ar h A B

/-- `x = y;`: assigning a variable to itself does nothing (Matrix.h:44). -/
def assignVar {α : Type} (s : List Obj × Heap α) (x y : Nat) : Out (List Obj × Heap α) := do
  let (vars, h) := s
  let a ← var vars x
  let b ← var vars y
  if x = y then .ok (vars, h) else do
  let (a, h) ← assign h a b
  .ok (vars.set x a, h)

/-- A statement.  `x = y op z;` makes a temporary, assigns it and destroys it. -/
def step {α : Type} (ar : Arith α) (s : List Obj × Heap α) : Stmt α → Out (List Obj × Heap α)
  | .declare n m => do
    let (o, h) ← make ar s.2 n m
    .ok (s.1 ++ [o], h)
  | .declareRows ini => do
    let (o, h) ← ofRows s.2 ini
    .ok (s.1 ++ [o], h)
  | .declareCopy y => do
    let (o, h) ← deepCopy s.2 (← var s.1 y)
    .ok (s.1 ++ [o], h)
  | .declareOp p y z => do
    let (o, h) ← binop ar s.2 (← var s.1 y) (← var s.1 z) p
    .ok (s.1 ++ [o], h)
  | .assign x y => assignVar s x y
  | .assignOp p x y z => do
    let a ← var s.1 x
    let (tmp, h) ← binop ar s.2 (← var s.1 y) (← var s.1 z) p
    let (a, h) ← assign h a tmp
    let h ← clear h tmp
    .ok (s.1.set x a, h)
  | .addTo x y => do
    let h ← combineAssign ar.add s.2 (← var s.1 x) (← var s.1 y)
    .ok (s.1, h)
  | .subFrom x y => do
    let h ← combineAssign ar.sub s.2 (← var s.1 x) (← var s.1 y)
    .ok (s.1, h)
  | .mulTo x y => do
    let (a, h) ← timesAssign ar s.2 (← var s.1 x) (← var s.1 y)
    .ok (s.1.set x a, h)
  | .write x i j v => do
    let h ← set s.2 (← var s.1 x) i j v
    .ok (s.1, h)

/-- A program. -/
def run {α : Type} (ar : Arith α) (prog : List (Stmt α)) : Out (List Obj × Heap α) := prog.foldlM (step ar) ([], .empty)

/-- The end of the scope: all variables are destroyed, the last first. -/
def endScope {α : Type} (s : List Obj × Heap α) : Out (Heap α) := s.1.reverse.foldlM clear s.2

/-- Exactly `k` blocks are allocated. -/
def Live {α : Type} (h : Heap α) (k : Nat) : Prop :=
  ∃ L : List Nat, L.Nodup ∧ L.length = k ∧ ∀ a, (h.cell a).isSome = true ↔ a ∈ L

end Mem
end Matrix
