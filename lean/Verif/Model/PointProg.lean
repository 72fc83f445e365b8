import Verif.Model.Geometry

/-!
# Programs with points, /repo/src/include/geometry/Point.h

A caller's program: variables of type `Point<N>`, expressions with the operators of Point.h, assignments, compound
assignments and loops.  Operands are evaluated from left to right.  Every evaluation carries the number of objects made with
`new` (`M` in `Model/Geometry.lean`); points that are variables or temporaries are destroyed by the compiler and not counted.
-/

namespace Geo
open Cpp

mutual
/-- Expressions of type `Point<N>`. -/
inductive PExpr (N : Nat) (D : Type) where
  | var (x : Nat)
  | add (p q : PExpr N D)
  | sub (p q : PExpr N D)
  | smul (p : PExpr N D) (c : SExpr N D)
  | sdiv (p : PExpr N D) (c : SExpr N D)
/-- Expressions of type `double`. -/
inductive SExpr (N : Nat) (D : Type) where
  | const (c : D)
  | coord (p : PExpr N D) (i : Fin N)
  | dot (p q : PExpr N D)
  | len (p : PExpr N D)
end

/-- Statements. -/
inductive PStmt (N : Nat) (D : Type) where
  /-- `x = e;` (the assignment of the compiler) -/
  | assign (x : Nat) (e : PExpr N D)
  /-- `x += e;` -/
  | addTo (x : Nat) (e : PExpr N D)
  /-- `x -= e;` -/
  | subFrom (x : Nat) (e : PExpr N D)
  /-- `x *= c;` -/
  | mulBy (x : Nat) (c : SExpr N D)
  /-- `x /= c;` -/
  | divBy (x : Nat) (c : SExpr N D)
  /-- `x.normalize();` -/
  | normalize (x : Nat)
  /-- a loop of `k` rounds -/
  | loop (k : Nat) (body : List (PStmt N D))

variable {D : Type} [Add D] [Sub D] [Mul D] [Div D] [IntCast D] [LT D] [DecidableLT D] {N : Nat}

/-- The variables. -/
abbrev Vars (N : Nat) (D : Type) := Nat → Point N D

mutual
/-- The value of an expression; the operators of Point.h:48-58, 77-85 and 92-96. -/
def PExpr.eval (F : Fp D) (σ : Vars N D) : PExpr N D → M (Point N D)
  | .var x => pure (σ x)
  | .add p q => do Geo.add (← p.eval F σ) (← q.eval F σ)
  | .sub p q => do Geo.sub (← p.eval F σ) (← q.eval F σ)
  | .smul p c => do Geo.smul (← p.eval F σ) (← c.eval F σ)
  | .sdiv p c => do Geo.sdiv (← p.eval F σ) (← c.eval F σ)
/-- The value of an expression; Point.h:43-45, 71-75, 141-145 and 153-157. -/
def SExpr.eval (F : Fp D) (σ : Vars N D) : SExpr N D → M D
  | .const c => pure c
  | .coord p i => do pure ((← p.eval F σ) i)
  | .dot p q => do pure (Geo.dot (← p.eval F σ) (← q.eval F σ))
  | .len p => do pure (Geo.len F (← p.eval F σ))
end

/-- The reference passed to `x += e` (Point.h:60-68): the variable itself if `e` is that variable. -/
def PExpr.ref (x : Nat) (e : PExpr N D) (v : Point N D) : PRef N D :=
  match e with
  | .var y => if y = x then .self else .other v
  | _ => .other v

/-- The reference passed to `x *= c` (Point.h:87-90, 98-101): a coordinate of the variable itself if `c` is one. -/
def SExpr.ref (x : Nat) (c : SExpr N D) (v : D) : CRef N D :=
  match c with
  | .coord (.var y) i => if y = x then .elem i else .val v
  | _ => .val v

mutual
/-- One statement: Point.h:60-68, 87-90, 98-101, 159-162. -/
def PStmt.run (F : Fp D) (σ : Vars N D) : PStmt N D → M (Vars N D)
  | .assign x e => do pure (Function.update σ x (← e.eval F σ))
  | .addTo x e => do pure (Function.update σ x (addAssign (σ x) (e.ref x (← e.eval F σ))))
  | .subFrom x e => do pure (Function.update σ x (subAssign (σ x) (e.ref x (← e.eval F σ))))
  | .mulBy x c => do pure (Function.update σ x (mulAssign (σ x) (c.ref x (← c.eval F σ))))
  | .divBy x c => do pure (Function.update σ x (divAssign (σ x) (c.ref x (← c.eval F σ))))
  | .normalize x => pure (Function.update σ x (Geo.normalize F (σ x)))
  | .loop k body => (List.range k).foldlM (fun σ _ => runAll F σ body) σ
/-- Statements one after the other. -/
def runAll (F : Fp D) (σ : Vars N D) : List (PStmt N D) → M (Vars N D)
  | [] => pure σ
  | s :: ss => do runAll F (← s.run F σ) ss
end

end Geo
