import Verif.Model.RandomObj

/-! # Programs that use generators and distributions -/

namespace Rand
open Cpp
variable {E : Engine}

/-- A generator that the program has constructed and not destroyed. -/
def Objs.Has (w : Objs E) (g : Nat) : Prop := ∃ x, w.gens[g]? = some x ∧ x.client = true ∧ x.alive = true

/-- A distribution that has not been destroyed. -/
def Objs.HasDist (w : Objs E) (d : Nat) : Prop := ∃ y, w.dists[d]? = some y ∧ y.alive = true

/-- A program uses only what it has, and destroys a generator only when no distribution uses it. -/
def ObjCmd.Legal (w : Objs E) : ObjCmd → Prop
  | .newRandom _ => True
  | .deleteRandom g => w.Has g ∧ ∀ (d : Nat) (y : Dist), w.dists[d]? = some y → y.alive = true → y.gen ≠ g
  | .newDist _ => True
  | .newDistWith g => w.Has g
  | .setGenerator d g => w.HasDist d ∧ w.Has g
  | .destroyDist d => w.HasDist d
  | .draw d _ => w.HasDist d
  | .drawG g _ => w.Has g

/-- The states such a program can reach. -/
inductive ObjReach : Objs E → Prop
  | init : ObjReach ⟨[], []⟩
  | step {w w' : Objs E} (c : ObjCmd) : ObjReach w → c.Legal w → objStep w c = .ok w' → ObjReach w'

end Rand
