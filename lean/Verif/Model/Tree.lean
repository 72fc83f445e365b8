import Verif.Cpp

/-!
# Model of `class Node` and `class Tree`, /repo/src/include/graph/Tree.h and /repo/src/graph/Tree.cpp

Node objects live in a heap; a pointer is the address of an object (a natural number), `none` is `nullptr`.
Dereferencing an address without an object and indexing a vector beyond its end are undefined.
-/

namespace Tree
open Cpp

/-- The data members of `Node`, Tree.h:26-33.  `height` is indeterminate (`none`) until it is set. -/
structure Nd where
  fa : Option Nat
  son : List Nat
  id : Int
  val : Int
  height : Option Int
  ancestor : List Nat
  deriving DecidableEq

/-- The objects alive. -/
abbrev Heap := Nat → Option Nd

/-- `Node(id, val)`, Tree.cpp:5-8. -/
def mkNode (id val : Int) : Nd := ⟨none, [], id, val, none, []⟩

/-- `p->` -/
def deref (h : Heap) (p : Nat) : Out Nd := match h p with | some nd => .ok nd | none => .ub

/-- Writing the object at `p`. -/
def store (h : Heap) (p : Nat) (nd : Nd) : Heap := fun q => if q = p then some nd else h q

/-- `nd.ancestor[i]` -/
def ancAt (nd : Nd) (i : Nat) : Out Nat := match nd.ancestor[i]? with | some p => .ok p | none => .ub

/-- `p->getHeight()`, Tree.h:20; reading the indeterminate value is undefined. -/
def getHeight (h : Heap) (p : Nat) : Out Int := do
  match (← deref h p).height with
  | some d => .ok d
  | none => .ub

/-- The loop of `getAncestor`, Tree.cpp:14-15, at `i = 31 - n`.  `1 << 31` is undefined. -/
def climb (h : Heap) (level : Int) : Nat → Nat → Out Nat
  | 0, _ => .ub
  | n + 1, cur =>
    if level ≥ 2 ^ (30 - n) then do
      let cur ← (if level.toNat.testBit (30 - n) then do ancAt (← deref h cur) (30 - n) else .ok cur)
      climb h level n cur
    else .ok cur

/-- `cur->getAncestor(level)`, Tree.cpp:12-18. -/
def getAncestor (h : Heap) (cur : Nat) (level : Int) : Out Nat := climb h level 31 cur

/-- `setRoot(newRoot)`, Tree.cpp:20-24; the member `root` itself is not modelled (no other function reads
it). -/
def setRoot (h : Heap) (r : Nat) : Out Heap := do
  let nd ← deref h r
  .ok (store h r { nd with fa := none, height := some 0 })

/-- The loop of `addNode`, Tree.cpp:31-35.  The fuel bounds the number of rounds. -/
def fillAncestors (h : Heap) (node : Nat) : Nat → Nat → Out Heap
  | 0, _ => .diverge
  | fuel + 1, i => do
    let nd ← deref h node
    let next ← deref h (← ancAt nd i)
    if next.ancestor.length ≤ i then .ok h else
    let a ← ancAt next i
    fillAncestors (store h node { nd with ancestor := nd.ancestor ++ [a] }) node fuel (i + 1)

/-- `addNode(node, fa)`, Tree.cpp:26-36. -/
def addNode (fuel : Nat) (h : Heap) (node fa : Nat) : Out Heap := do
  let f ← deref h fa
  let h := store h fa { f with son := f.son ++ [node] }
  let nd ← deref h node
  let h := store h node { nd with fa := some fa }
  let d ← int ((← getHeight h fa) + 1)
  let nd ← deref h node
  let h := store h node { nd with height := some d }
  let nd ← deref h node
  let h := store h node { nd with ancestor := nd.ancestor ++ [fa] }
  fillAncestors h node fuel 0

/-- Body of the loop of `LCA`, Tree.cpp:46-48. -/
def lcaStep (h : Heap) (xy : Nat × Nat) (i : Nat) : Out (Nat × Nat) := do
  let a ← ancAt (← deref h xy.1) i
  let b ← ancAt (← deref h xy.2) i
  if a ≠ b then .ok (a, b) else .ok xy

/-- `LCA(x, y)`, Tree.cpp:38-51. -/
def lca (h : Heap) (x y : Nat) : Out (Option Nat) := do
  let hx ← getHeight h x
  let hy ← getHeight h y
  let (x, y) ← (if hx < hy then do .ok (x, ← getAncestor h y (← int (hy - hx)))
    else do .ok (← getAncestor h x (← int (hx - hy)), y))
  if x = y then .ok (some x) else
  let nx ← deref h x
  let (x, _) ← (List.range nx.ancestor.length).reverse.foldlM (lcaStep h) (x, y)
  .ok (← deref h x).fa

/-- `getDistance(x, y)`, Tree.cpp:53-55. -/
def getDistance (h : Heap) (x y : Nat) : Out Int := do
  let s ← int ((← getHeight h x) + (← getHeight h y))
  match ← lca h x y with
  | none => .ub
  | some a => int (s - (← int (2 * (← getHeight h a))))

/-- A client: choose a root, then add nodes in the given order. -/
def run (fuel : Nat) (h : Heap) (r : Nat) (adds : List (Nat × Nat)) : Out Heap := do
  let h ← setRoot h r
  adds.foldlM (fun h a => addNode fuel h a.1 a.2) h

end Tree
