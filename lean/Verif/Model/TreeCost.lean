import Verif.Model.Tree

/-!
# The loops of /repo/src/graph/Tree.cpp with a counter of rounds

The same text as in `Model/Tree.lean`; each round of a loop counts one.  (The rounds of the loop of `addNode` are bounded by
the fuel of `Tree.addNode`.)
-/

namespace Tree
open Cpp

/-- The loop of `getAncestor`, Tree.cpp:14-15, with the number of rounds. -/
def climbC (h : Heap) (level : Int) : Nat → Nat → Nat → Out (Nat × Nat)
  | 0, _, _ => .ub
  | n + 1, cur, k =>
    if level ≥ 2 ^ (30 - n) then do
      let cur ← (if level.toNat.testBit (30 - n) then do ancAt (← deref h cur) (30 - n) else .ok cur)
      climbC h level n cur (k + 1)
    else .ok (cur, k)

/-- `cur->getAncestor(level)`, Tree.cpp:12-18, with the number of rounds. -/
def getAncestorC (h : Heap) (cur : Nat) (level : Int) : Out (Nat × Nat) := climbC h level 31 cur 0

/-- Body of the loop of `LCA`, Tree.cpp:46-48, with the number of rounds. -/
def lcaStepC (h : Heap) (s : (Nat × Nat) × Nat) (i : Nat) : Out ((Nat × Nat) × Nat) := do
  let a ← ancAt (← deref h s.1.1) i
  let b ← ancAt (← deref h s.1.2) i
  if a ≠ b then .ok ((a, b), s.2 + 1) else .ok (s.1, s.2 + 1)

/-- `LCA(x, y)`, Tree.cpp:38-51, with the number of rounds of its loop and of the one in `getAncestor`. -/
def lcaC (h : Heap) (x y : Nat) : Out (Option Nat × Nat) := do
  let hx ← getHeight h x
  let hy ← getHeight h y
  let ((x, y), k) ← (if hx < hy then do
      let (y, k) ← getAncestorC h y (← int (hy - hx))
      .ok ((x, y), k)
    else do
      let (x, k) ← getAncestorC h x (← int (hx - hy))
      .ok ((x, y), k))
  if x = y then .ok (some x, k) else
  let nx ← deref h x
  let ((x, _), k) ← (List.range nx.ancestor.length).reverse.foldlM (lcaStepC h) ((x, y), k)
  .ok ((← deref h x).fa, k)

end Tree
