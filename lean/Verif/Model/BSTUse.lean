import Verif.Model.BST

/-! # The values of nodes, /repo/src/include/graph/BST.h:10-12, and programs that use a tree as a dictionary -/

namespace BST
open Cpp

/-- `p->getVal()`, BST.h:10. -/
def getVal (h : Heap) (p : Nat) : Out Int := do .ok (← ld h p).val

/-- `p->getRank()`, BST.h:11. -/
def getRank (h : Heap) (p : Nat) : Out Int := do .ok (← ld h p).rank

/-- `p->setVal(newVal)`, BST.h:12. -/
def setVal (h : Heap) (p : Nat) (newVal : Int) : Out Heap := do .ok (store h p { ← ld h p with val := newVal })

/-- A statement of a client. -/
inductive Use where
  /-- `bst.insert(p);` -/
  | insert (p : Nat)
  /-- `bst.erase(p);` -/
  | erase (p : Nat)
  /-- `p->setVal(v);` -/
  | setVal (p : Nat) (v : Int)
  /-- print `p->getVal()` -/
  | getVal (p : Nat)
  /-- print `p->getRank()` -/
  | getRank (p : Nat)
  /-- `BSTNode* x = bst.find(k);` print `x->getVal()`, or that `x` is null -/
  | find (k : Int)
  /-- `BSTNode* x = bst.find(k);` and `x->setVal(v)` unless `x` is null -/
  | findSet (k : Int) (v : Int)

/-- A program: what it prints (`none`: null), and the state at the end. -/
def exec (fuel : Nat) : St → List Use → Out (List (Option Int) × St)
  | s, [] => .ok ([], s)
  | s, .insert p :: us => do exec fuel (← insert fuel s p) us
  | s, .erase p :: us => do exec fuel (← erase fuel s p) us
  | s, .setVal p v :: us => do exec fuel { s with heap := ← setVal s.heap p v } us
  | s, .getVal p :: us => do
    let x ← getVal s.heap p
    let (out, s) ← exec fuel s us
    .ok (some x :: out, s)
  | s, .getRank p :: us => do
    let x ← getRank s.heap p
    let (out, s) ← exec fuel s us
    .ok (some x :: out, s)
  | s, .find k :: us => do
    let x ← (match ← find fuel s k with
      | some p => do .ok (some (← getVal s.heap p))
      | none => .ok none)
    let (out, s) ← exec fuel s us
    .ok (x :: out, s)
  | s, .findSet k v :: us => do
    match ← find fuel s k with
    | some p => exec fuel { s with heap := ← setVal s.heap p v } us
    | none => exec fuel s us

end BST
