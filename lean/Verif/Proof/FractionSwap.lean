import Verif.Spec.FractionSwap
import Verif.Proof.FractionProg

/-! # Helper lemmas: a program with `n - y` is the one with `y - n` -/

namespace Fraction
open Cpp Spec

/-- the integer operand on the right -/
def swapStmt : Stmt → Stmt
  | .left o x n y => .right o x y n
  | s => s

def swapProg : Prog → Prog
  | .done => .done
  | .step s p => .step (swapStmt s) (swapProg p)
  | .branch c x y yes no => .branch c x y (swapProg yes) (swapProg no)

theorem swap_value (s : Stmt) (st : Vars) : (swapStmt s).value st = s.value st := by
  cases s with
  | left o x n y => cases o <;> rfl
  | _ => rfl

theorem swap_target (s : Stmt) : (swapStmt s).target = s.target := by
  cases s <;> rfl

theorem swap_run (p : Prog) : ∀ st, (swapProg p).run st = p.run st := by
  induction p with
  | done => intro st; rfl
  | step s p ih =>
    intro st
    simp only [swapProg, Prog.run, swap_value, swap_target, ih]
  | branch c x y yes no h1 h2 =>
    intro st
    simp only [swapProg, Prog.run, h1, h2]

theorem swap_spec (p : Prog) : ∀ st, run (swapProg p) st = swappedRun p st := by
  induction p with
  | done => intro st; rfl
  | step s p ih =>
    intro st
    simp only [swapProg, run, swappedRun, swap_target, ih]
    congr 1
    cases s with
    | left o x n y =>
      cases o
      · simp [swapStmt, value, swappedValue, eval, add_comm]
      · simp [swapStmt, value, swappedValue, eval]
      · simp [swapStmt, value, swappedValue, eval, mul_comm]
      · simp [swapStmt, value, swappedValue, eval]
    | _ => rfl
  | branch c x y yes no h1 h2 =>
    intro st
    simp only [swapProg, run, swappedRun, h1, h2]

theorem swap_all (p : Prog) : (All Typed p → All Typed (swapProg p)) ∧ (All NoDivAssign p → All Plain (swapProg p)) := by
  induction p with
  | done => exact ⟨fun h => h, fun h => h⟩
  | step s p ih =>
    refine ⟨fun h => ⟨?_, ih.1 h.2⟩, fun h => ⟨?_, ih.2 h.2⟩⟩
    · have := h.1
      cases s <;> exact this
    · have := h.1
      cases s <;> first | exact trivial | exact this
  | branch c x y yes no h1 h2 => exact ⟨fun h => ⟨h1.1 h.1, h2.1 h.2⟩, fun h => ⟨h1.2 h.1, h2.2 h.2⟩⟩

end Fraction
