import Verif.Model.PointProg

/-! # How many binary operators a program evaluates -/

namespace Geo
variable {D : Type} {N : Nat}

mutual
/-- The operators `+`, `-`, `*` and `/` with a point as result. -/
def PExpr.ops : PExpr N D → Nat
  | .var _ => 0
  | .add p q => p.ops + q.ops + 1
  | .sub p q => p.ops + q.ops + 1
  | .smul p c => p.ops + c.ops + 1
  | .sdiv p c => p.ops + c.ops + 1
/-- The same within expressions for numbers. -/
def SExpr.ops : SExpr N D → Nat
  | .const _ => 0
  | .coord p _ => p.ops
  | .dot p q => p.ops + q.ops
  | .len p => p.ops
end

mutual
/-- How often such an operator is evaluated in a statement. -/
def PStmt.ops : PStmt N D → Nat
  | .assign _ e => e.ops
  | .addTo _ e => e.ops
  | .subFrom _ e => e.ops
  | .mulBy _ c => c.ops
  | .divBy _ c => c.ops
  | .normalize _ => 0
  | .loop k body => k * opsAll body
/-- How often in a list of statements. -/
def opsAll : List (PStmt N D) → Nat
  | [] => 0
  | s :: ss => s.ops + opsAll ss
end

end Geo
