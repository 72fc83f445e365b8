import Verif.Model.Tree

/-! # The getters and setters of `Node`, /repo/src/include/graph/Tree.h:15-24, and the root of a `Tree` -/

namespace Tree
open Cpp

/-- `p->getVal()`, Tree.h:15. -/
def getVal (h : Heap) (p : Nat) : Out Int := do .ok (← deref h p).val

/-- `p->getFa()`, Tree.h:16. -/
def getFa (h : Heap) (p : Nat) : Out (Option Nat) := do .ok (← deref h p).fa

/-- `p->getSon()`, Tree.h:17 (a copy of the vector). -/
def getSon (h : Heap) (p : Nat) : Out (List Nat) := do .ok (← deref h p).son

/-- `p->setFa(newFa)`, Tree.h:18. -/
def setFa (h : Heap) (p : Nat) (newFa : Option Nat) : Out Heap := do .ok (store h p { ← deref h p with fa := newFa })

/-- `p->addSon(newSon)`, Tree.h:19. -/
def addSon (h : Heap) (p newSon : Nat) : Out Heap := do
  let nd ← deref h p
  .ok (store h p { nd with son := nd.son ++ [newSon] })

/-- `p->setHeight(x)`, Tree.h:21. -/
def setHeight (h : Heap) (p : Nat) (x : Int) : Out Heap := do .ok (store h p { ← deref h p with height := some x })

/-- `p->getDegree()`, Tree.h:23: the size converted to `int`. -/
def getDegree (h : Heap) (p : Nat) : Out Int := do .ok (toInt (← deref h p).son.length)

/-- `p->getID()`, Tree.h:24. -/
def getID (h : Heap) (p : Nat) : Out Int := do .ok (← deref h p).id

/-- A tree object and the nodes.  `root` is the member of `Tree`, Tree.h:46, indeterminate (`none`) in a new object (there is no
constructor); the member `nodes`, Tree.h:47, is never used. -/
structure Obj where
  heap : Heap
  root : Option Nat

/-- `t.setRoot(r)`, Tree.cpp:20-24. -/
def Obj.setRoot (t : Obj) (r : Nat) : Out Obj := do .ok ⟨← Tree.setRoot t.heap r, some r⟩

/-- `t.getRoot()`, Tree.h:39; reading an indeterminate pointer is undefined. -/
def Obj.getRoot (t : Obj) : Out Nat := match t.root with | some r => .ok r | none => .ub

/-- `t.addNode(node, fa)`, Tree.cpp:26-36. -/
def Obj.addNode (fuel : Nat) (t : Obj) (node fa : Nat) : Out Obj := do .ok { t with heap := ← Tree.addNode fuel t.heap node fa }

/-- Several nodes added one after the other to a tree. -/
def Obj.addAll (fuel : Nat) (t : Obj) (adds : List (Nat × Nat)) : Out Obj :=
  adds.foldlM (fun t a => t.addNode fuel a.1 a.2) t

end Tree
