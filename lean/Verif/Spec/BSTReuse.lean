import Verif.Spec.BST

/-! # Programs that use node objects more than once -/

namespace BST.Spec

/-- What a client may do: make a node object `BSTNode(k, v)` at an address (a new object, or a new value for an object that is
there), insert a node, erase a node. -/
inductive Re where
  | make (p : Nat) (k v : Int)
  | insert (p : Nat)
  | erase (p : Nat)

/-- A client program. -/
def runRe (fuel : Nat) : St → List Re → Cpp.Out St
  | s, [] => .ok s
  | s, .make p k v :: cs => runRe fuel ⟨store s.heap p (mkNode k v), s.root⟩ cs
  | s, .insert p :: cs => do runRe fuel (← insert fuel s p) cs
  | s, .erase p :: cs => do runRe fuel (← erase fuel s p) cs

/-- What the client knows: the nodes in the tree in order, the rank and the value last given to each object, and which
objects are ready to be inserted. -/
structure Plan where
  ks : List Nat
  rk : Nat → Int
  vl : Nat → Int
  ready : List Nat

/-- A map with one value replaced. -/
def put (f : Nat → Int) (p : Nat) (k : Int) : Nat → Int := fun q => if q = p then k else f q

/-- The discipline: objects in the tree are not made anew; a node is inserted only if it was made after it was last erased, or
was alone in the tree when it was erased; only the first node is erased. -/
def plan : Plan → List Re → Option Plan
  | w, [] => some w
  | w, .make p k v :: cs =>
    if p ∈ w.ks then none else plan ⟨w.ks, put w.rk p k, put w.vl p v, p :: w.ready⟩ cs
  | w, .insert p :: cs =>
    if p ∈ w.ready then plan ⟨place w.rk p w.ks, w.rk, w.vl, w.ready.filter (fun q => q ≠ p)⟩ cs else none
  | w, .erase p :: cs => match w.ks with
    | [] => none
    | k :: ks => if k = p then plan ⟨ks, w.rk, w.vl, if ks = [] then p :: w.ready else w.ready⟩ cs else none

end BST.Spec
