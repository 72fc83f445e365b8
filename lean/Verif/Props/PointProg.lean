import Verif.Proof.PointProg

/-! # C100 for programs with points -/

namespace Geo.Props
open Cpp
variable {D : Type} [Add D] [Sub D] [Mul D] [Div D] [IntCast D] [LT D] [DecidableLT D] {N : Nat}

/-- **C100, exactly** (any arithmetic, any dimension).  A program leaves one object for each evaluation of a binary operator
with a point as result, rounds of loops included, and none for anything else. -/
theorem C100_exact (F : Fp D) (σ : Vars N D) (p : List (PStmt N D)) (n : Nat) : ((runAll F σ p).run n).2 = n + opsAll p :=
  leaves_all F p σ n

/-- **C100, what holds.**  Nothing is left exactly by the programs that evaluate no such operator: those with compound
assignments, scalar products, lengths, coordinates and `normalize` only.  Missing: all others. -/
theorem C100_partial (F : Fp D) (σ : Vars N D) (p : List (PStmt N D)) (n : Nat) :
    ((runAll F σ p).run n).2 = n ↔ opsAll p = 0 := by
  rw [C100_exact]; omega

/-- **C100, refuted**: a loop with `a = a + b` leaves an object in each round, so there is no bound on what is left. -/
theorem C100_refuted (F : Fp D) (σ : Vars N D) (k n : Nat) :
    ((runAll F σ [.loop k [.assign 0 (.add (.var 0) (.var 1))]]).run n).2 = n + k := by
  rw [C100_exact]; simp [opsAll, PStmt.ops, PExpr.ops]

-- `a += b` instead: the same values and nothing left
example : let σ : Vars 2 Int := fun x => if x = 0 then ![1, 2] else ![10, 20]
    ∀ F : Fp Int, opsAll [PStmt.loop (N := 2) (D := Int) 3 [.addTo 0 (.var 1)]] = 0 ∧
      ((runAll F σ [.loop 3 [.addTo 0 (.var 1)]]).run 0).1 0 0 = 31 ∧
      ((runAll F σ [.loop 3 [.assign 0 (.add (.var 0) (.var 1))]]).run 0).1 0 0 = 31 ∧
      ((runAll F σ [.loop 3 [.assign 0 (.add (.var 0) (.var 1))]]).run 0).2 = 3 := by
  intro σ F
  exact ⟨rfl, rfl, rfl, rfl⟩

end Geo.Props
