import Verif.Model.BST

/-! # Search trees of nodes -/

namespace BST.Spec

/-- Binary trees of addresses. -/
inductive T where
  | nil
  | node (l : T) (p : Nat) (r : T)

/-- The address of the top node. -/
def T.ptr : T → Option Nat
  | .nil => none
  | .node _ p _ => some p

/-- The addresses from left to right. -/
def T.keys : T → List Nat
  | .nil => []
  | .node l p r => l.keys ++ p :: r.keys

/-- The heap holds the tree `t` below a node `fa` (or at the top): child links as in `t`, every parent link
points back, ranks and values are `rk` and `vl`. -/
def Holds (rk vl : Nat → Int) (h : Heap) : T → Option Nat → Prop
  | .nil, _ => True
  | .node l p r, fa => h p = some ⟨l.ptr, r.ptr, fa, rk p, vl p⟩ ∧ Holds rk vl h l (some p) ∧ Holds rk vl h r (some p)

/-- The same without the parent links. -/
def HoldsDown (rk vl : Nat → Int) (h : Heap) : T → Prop
  | .nil => True
  | .node l p r => (∃ fa, h p = some ⟨l.ptr, r.ptr, fa, rk p, vl p⟩) ∧ HoldsDown rk vl h l ∧ HoldsDown rk vl h r

/-- From left to right the ranks do not decrease. -/
def Ordered (rk : Nat → Int) (ks : List Nat) : Prop := ks.Pairwise fun a b => rk a ≤ rk b

/-- The state is a search tree with the nodes `ks` (from left to right). -/
def IsTree (rk vl : Nat → Int) (s : St) (ks : List Nat) : Prop :=
  ∃ t : T, Holds rk vl s.heap t none ∧ s.root = t.ptr ∧ t.keys = ks ∧ ks.Nodup ∧ Ordered rk ks

/-- A client program that inserts the nodes `xs` one after the other. -/
def insertAll (fuel : Nat) : St → List Nat → Cpp.Out St
  | s, [] => .ok s
  | s, x :: xs => do insertAll fuel (← insert fuel s x) xs

/-- What a client may do with nodes. -/
inductive Cmd where
  | insert (p : Nat)
  | erase (p : Nat)

/-- A client program. -/
def run (fuel : Nat) : St → List Cmd → Cpp.Out St
  | s, [] => .ok s
  | s, .insert p :: cs => do run fuel (← insert fuel s p) cs
  | s, .erase p :: cs => do run fuel (← erase fuel s p) cs

/-- The nodes a program inserts. -/
def inserted : List Cmd → List Nat
  | [] => []
  | .insert p :: cs => p :: inserted cs
  | .erase _ :: cs => inserted cs

/-- The place of a new node: after all nodes of the same or a smaller rank. -/
def place (rk : Nat → Int) (x : Nat) (ks : List Nat) : List Nat :=
  ks.takeWhile (fun p => decide (rk p ≤ rk x)) ++ x :: ks.dropWhile (fun p => decide (rk p ≤ rk x))

/-- The sequence of nodes that should result, for programs that only ever erase the first node of the sequence. -/
def expect (rk : Nat → Int) : List Nat → List Cmd → Option (List Nat)
  | ks, [] => some ks
  | ks, .insert p :: cs => expect rk (place rk p ks) cs
  | [], .erase _ :: _ => none
  | k :: ks, .erase p :: cs => if k = p then expect rk ks cs else none

/-- A client program of which each command gets its own bound on the number of iterations of a loop. -/
def runEach : St → List (Cmd × Nat) → Cpp.Out St
  | s, [] => .ok s
  | s, (.insert p, fuel) :: cs => do runEach (← insert fuel s p) cs
  | s, (.erase p, fuel) :: cs => do runEach (← erase fuel s p) cs

end BST.Spec
