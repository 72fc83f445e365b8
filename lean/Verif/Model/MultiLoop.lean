import Verif.Model.ContRef

/-!
# Range-based for loops over MultiSet and MultiMap, /repo/src/include/containers/{MultiSet,MultiMap}.h

As in `Model/MapLoop.lean`, an iterator is the node it points to (its key and its name), or `none` for the end; a MultiSet is a
MultiMap whose values carry nothing.  `insert` puts an element behind those equal to it (C++11, 23.2.4).  Not every member exists
in both classes: the comments say where it is.
-/

open Cpp

namespace Cont.MultiLoop
open Cont.Ref.Map (MObj MObj.read MObj.write)

variable {κ ν σ : Type} [LinearOrder κ] [LinearOrder ν]

/-- The body of a loop over a MultiSet or MultiMap, with variables `σ` of its own. -/
inductive Body (κ ν σ : Type) where
  /-- end of this round -/
  | done (st : σ)
  /-- `break;` -/
  | stop (st : σ)
  /-- `s.insert(k);` (MultiSet) -/
  | insert (k : κ) (v : ν) (b : Body κ ν σ)
  /-- `s.erase(k);` (MultiSet) -/
  | remove (k : κ) (b : Body κ ν σ)
  /-- `m.erase(k);` (MultiMap) -/
  | erase (k : κ) (b : Body κ ν σ)
  /-- `m.clear();` -/
  | clear (b : Body κ ν σ)
  /-- `m.count(k)` -/
  | count (k : κ) (b : Nat → Body κ ν σ)
  /-- `s.contains(k)` (MultiSet) -/
  | contains (k : κ) (b : Bool → Body κ ν σ)
  /-- `m.find(k)`: the elements of a Set, in order (MultiMap) -/
  | find (k : κ) (b : List ν → Body κ ν σ)
  /-- `m.size()` -/
  | size (b : Nat → Body κ ν σ)
  /-- reading `x` (MultiSet) or `x.first` (MultiMap) -/
  | key (b : κ → Body κ ν σ)
  /-- reading `x.second` (MultiMap) -/
  | read (b : ν → Body κ ν σ)
  /-- `x.second = v;` (MultiMap) -/
  | write (v : ν) (b : Body κ ν σ)

/-- The object with the given pairs, which are in order, MultiSet.h:162-165, MultiMap.h:165-169. -/
def ofPairs (m : List (κ × ν)) : MObj κ ν :=
  { next := m.length, mem := fun i => m[i]?.map fun p => p.2, nodes := m.zipIdx.map fun p => (p.1.1, p.2) }

/-- `insert(value)`, MultiSet.h:193-196: a new node. -/
def insert (s : MObj κ ν) (k : κ) (v : ν) : MObj κ ν :=
  { next := s.next + 1, mem := fun i => if i = s.next then some v else s.mem i, nodes := Stl.mmapInsert k s.next s.nodes }

/-- `erase(key)`, MultiMap.h:203-206 (and MultiSet.h:203): all nodes with this key are deleted. -/
def erase (s : MObj κ ν) (k : κ) : MObj κ ν :=
  { s with nodes := Stl.mapErase k s.nodes
           mem := fun i => if i ∈ (Stl.mapErase k s.nodes).map (fun n => n.2) then s.mem i else none }

/-- `clear()`, MultiSet.h:212-215, MultiMap.h:198-201. -/
def clear (s : MObj κ ν) : MObj κ ν := { s with nodes := [], mem := fun _ => none }

/-- `find(key)`, MultiMap.h:213-221. -/
def find (s : MObj κ ν) (k : κ) : Out (List ν) :=
  (Stl.mmapRange k s.nodes).foldlM (fun valueSet r => do .ok (Set.insert valueSet (← s.read r))) []

/-- Running the body with the loop variable bound to the node `x` (members: MultiSet.h:183-220, MultiMap.h:188-221; sizes and counts
below 2^31): the variables, the object, whether there was a `break`. -/
def exec : MObj κ ν → κ × Nat → Body κ ν σ → Out (σ × MObj κ ν × Bool)
  | s, _, .done st => .ok (st, s, false)
  | s, _, .stop st => .ok (st, s, true)
  | s, x, .insert k v b => exec (insert s k v) x b
  | s, x, .remove k b => if (Stl.mapFind k s.nodes).isNone then .exit else exec (erase s k) x b
  | s, x, .erase k b => exec (erase s k) x b
  | s, x, .clear b => exec (clear s) x b
  | s, x, .count k b => exec s x (b (Stl.mmapRange k s.nodes).length)
  | s, x, .contains k b => exec s x (b (Stl.mapFind k s.nodes).isSome)
  | s, x, .find k b => do exec s x (b (← find s k))
  | s, x, .size b => exec s x (b s.nodes.length)
  | s, x, .key b => if s.mem x.2 = none then .ub else exec s x (b x.1)
  | s, x, .read b => do exec s x (b (← s.read x.2))
  | s, x, .write v b => do exec (← s.write x.2 v) x b

/-- `++it` for an iterator (MultiSet.h:82, MultiMap.h:78) to the node with the name `r`: undefined if the node has been erased. -/
def next (r : Nat) : List (κ × Nat) → Out (Option (κ × Nat))
  | [] => .ub
  | n :: l => if n.2 = r then .ok l.head? else next r l

/-- The rounds of a loop from the iterator on, MultiSet.h:88, 98, MultiMap.h:85, 95: the variables, the object, and the nodes
visited. -/
def rounds (body : σ → Body κ ν σ) : Nat → σ → MObj κ ν → Option (κ × Nat) → Out (σ × MObj κ ν × List (κ × Nat))
  | 0, _, _, _ => .diverge
  | _ + 1, st, s, none => .ok (st, s, [])
  | n + 1, st, s, some x => do
    let (st, s, stop) ← exec s x (body st)
    if stop then .ok (st, s, [x]) else do
      let it ← next x.2 s.nodes
      let (st, s, vis) ← rounds body n st s it
      .ok (st, s, x :: vis)

/-- `for (auto& x : m) body`, MultiSet.h:88, 98, MultiMap.h:85, 95. -/
def forMulti (body : σ → Body κ ν σ) (n : Nat) (st : σ) (s : MObj κ ν) : Out (σ × MObj κ ν × List (κ × Nat)) :=
  rounds body n st s s.nodes.head?

end Cont.MultiLoop
