import Verif.Model.ContRef

/-!
# Range-based for loops over Map and Set whose body uses the container, /repo/src/include/containers/{Map,Set}.h

`for (auto& x : m) body` calls `m.begin()` and `m.end()` once (Map.h:109, 119; Set.h:82, 92).  An iterator is the node it points
to (its key, which cannot be assigned, and its name, see `Model/ContRef.lean`), or `none` for the end.  That iterators to a node
of a `std::map` or `std::set` stay valid until the node is erased, and the end always, is not code of /repo but written in the
C++11 standard (23.2.4).
-/

open Cpp

namespace Cont.MapLoop
open Cont.Ref Cont.Ref.Map

variable {κ ν σ : Type} [LinearOrder κ]

/-- The body of a loop over a Map, with variables `σ` of its own. -/
inductive Body (κ ν σ : Type) where
  /-- end of this round -/
  | done (st : σ)
  /-- `break;` -/
  | stop (st : σ)
  /-- `m.set(k, v);` or `m[k] = v;` -/
  | set (k : κ) (v : ν) (b : Body κ ν σ)
  /-- `m.erase(k);` -/
  | erase (k : κ) (b : Body κ ν σ)
  /-- `m.clear();` -/
  | clear (b : Body κ ν σ)
  /-- reading `m[k]`, which may insert the key -/
  | index (k : κ) (b : ν → Body κ ν σ)
  /-- reading `m.get(k)` -/
  | get (k : κ) (b : ν → Body κ ν σ)
  /-- `m.contains(k)` -/
  | contains (k : κ) (b : Bool → Body κ ν σ)
  /-- `m.size()`, Map.h:232-235 (for fewer than 2^31 elements) -/
  | size (b : Nat → Body κ ν σ)
  /-- reading `x.first` -/
  | key (b : κ → Body κ ν σ)
  /-- reading `x.second` -/
  | read (b : ν → Body κ ν σ)
  /-- `x.second = v;` -/
  | write (v : ν) (b : Body κ ν σ)

/-- A Map with the given pairs, which are in order, Map.h:184-192. -/
def ofMap (m : List (κ × ν)) : MObj κ ν :=
  { next := m.length, mem := fun i => m[i]?.map fun p => p.2, nodes := m.zipIdx.map fun p => (p.1.1, p.2) }

/-- Running the body with the loop variable bound to the node `x` (members: Map.h:205-250): the variables, the Map, whether there
was a `break`. -/
def exec (dflt : ν) : MObj κ ν → κ × Nat → Body κ ν σ → Out (σ × MObj κ ν × Bool)
  | s, _, .done st => .ok (st, s, false)
  | s, _, .stop st => .ok (st, s, true)
  | s, x, .set k v b => do exec dflt (← Ref.Map.set dflt s k v) x b
  | s, x, .erase k b => exec dflt (Ref.Map.erase s k) x b
  | s, x, .clear b => exec dflt (Ref.Map.clear s) x b
  | s, x, .index k b => do
    let (r, s) := Ref.Map.index dflt s k
    exec dflt s x (b (← s.read r))
  | s, x, .get k b => do exec dflt s x (b (← s.read (← Ref.Map.get s k)))
  | s, x, .contains k b => exec dflt s x (b (Stl.mapFind k s.nodes).isSome)
  | s, x, .size b => exec dflt s x (b s.nodes.length)
  | s, x, .key b => if s.mem x.2 = none then .ub else exec dflt s x (b x.1)
  | s, x, .read b => do exec dflt s x (b (← s.read x.2))
  | s, x, .write v b => do exec dflt (← s.write x.2 v) x b

/-- `++it` for an iterator (Map.h:103, Set.h:76) to the node with the name `r`: undefined if the node has been erased. -/
def next (r : Nat) : List (κ × Nat) → Out (Option (κ × Nat))
  | [] => .ub
  | n :: l => if n.2 = r then .ok l.head? else next r l

/-- The rounds of a loop over a Map from the iterator on, Map.h:109, 119: the variables, the Map, and the nodes visited. -/
def rounds (dflt : ν) (body : σ → Body κ ν σ) :
    Nat → σ → MObj κ ν → Option (κ × Nat) → Out (σ × MObj κ ν × List (κ × Nat))
  | 0, _, _, _ => .diverge
  | _ + 1, st, s, none => .ok (st, s, [])
  | n + 1, st, s, some x => do
    let (st, s, stop) ← exec dflt s x (body st)
    if stop then .ok (st, s, [x]) else do
      let it ← next x.2 s.nodes
      let (st, s, vis) ← rounds dflt body n st s it
      .ok (st, s, x :: vis)

/-- `for (auto& x : map) body`, Map.h:109, 119. -/
def forMap (dflt : ν) (body : σ → Body κ ν σ) (n : Nat) (st : σ) (s : MObj κ ν) : Out (σ × MObj κ ν × List (κ × Nat)) :=
  rounds dflt body n st s s.nodes.head?

/-- The body of a loop over a Set. -/
inductive SBody (κ σ : Type) where
  | done (st : σ)
  | stop (st : σ)
  /-- `s.insert(k);` -/
  | insert (k : κ) (b : SBody κ σ)
  /-- `s.erase(k);` -/
  | erase (k : κ) (b : SBody κ σ)
  /-- `s.clear();` -/
  | clear (b : SBody κ σ)
  /-- `s.contains(k)` -/
  | contains (k : κ) (b : Bool → SBody κ σ)
  /-- `s.size()`, Set.h:182-185 (for fewer than 2^31 elements) -/
  | size (b : Nat → SBody κ σ)
  /-- reading `x` -/
  | read (b : κ → SBody κ σ)

/-- The members of a Set (Set.h:182-205) are those of a Map whose values carry nothing. -/
def SBody.toMap : SBody κ σ → Body κ Unit σ
  | .done st => .done st
  | .stop st => .stop st
  | .insert k b => .index k fun _ => b.toMap
  | .erase k b => .erase k b.toMap
  | .clear b => .clear b.toMap
  | .contains k b => .contains k fun c => (b c).toMap
  | .size b => .size fun n => (b n).toMap
  | .read b => .key fun k => (b k).toMap

/-- `for (auto& x : set) body`, Set.h:82, 92, for a Set with the given elements, which are in order. -/
def forSet (body : σ → SBody κ σ) (n : Nat) (st : σ) (xs : List κ) : Out (σ × MObj κ Unit × List (κ × Nat)) :=
  forMap () (fun st => (body st).toMap) n st (ofMap (xs.map fun x => (x, ())))

end Cont.MapLoop
