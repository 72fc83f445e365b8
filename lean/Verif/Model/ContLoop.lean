import Verif.Model.ContRef

/-!
# Range-based for loops over List and Vector whose body uses the container, /repo/src/include/containers

`for (auto& x : c) body` calls `c.begin()` and `c.end()` once (List.h:208, 218; Vector.h:195, 205), compares the iterator with
the latter before each round and increments it after each.  An iterator is the name of its element (`Model/ContRef.lean`), or
`none` for the end.  Which calls invalidate iterators is not code of /repo but written in the C++11 standard: those to an
element of a `std::list` stay valid until it is removed, and the end of a `std::list` always; the end of a `std::vector` becomes
invalid with every insertion and removal.
-/

open Cpp

namespace Cont.Loop
open Cont.Ref

variable {α σ : Type}

/-- The body of a loop, with variables `σ` of its own: what it does with the container and with the loop variable `x`. -/
inductive Body (C α σ : Type) where
  /-- end of this round -/
  | done (st : σ)
  /-- `break;` -/
  | stop (st : σ)
  /-- a call of a member; the rest of the body may depend on what it returns -/
  | call (c : C) (k : Option α → Body C α σ)
  /-- `c.size()`, List.h:314-317, Vector.h:296-299 (for fewer than 2^31 elements) -/
  | size (k : Nat → Body C α σ)
  /-- reading `x` -/
  | read (k : α → Body C α σ)
  /-- `x = v;` -/
  | write (v : α) (b : Body C α σ)

/-- Running the body with the loop variable bound to the element `r`: the variables, the container, whether there was a `break`
(members: List.h:265-377, Vector.h:243-342). -/
def exec {S C : Type} (K : Class S C α) : S → Nat → Body C α σ → Out (σ × S × Bool)
  | s, _, .done st => .ok (st, s, false)
  | s, _, .stop st => .ok (st, s, true)
  | s, r, .call c k => do
    let (x, s) ← K.call s c
    exec K s r (k x)
  | s, r, .size k => exec K s r (k (K.obj s).nodes.length)
  | s, r, .read k => do exec K s r (k (← (K.obj s).read r))
  | s, r, .write v b => do exec K (K.upd s (← (K.obj s).write r v)) r b

/-- A List with the given values, List.h:244-247. -/
def ofList (vs : List α) : Obj α := { next := vs.length, mem := fun i => vs[i]?, nodes := List.range vs.length }

/-- `++it` for an iterator (List.h:203, Vector.h:189) to the element `r`: undefined if the element has been removed. -/
def next (s : Obj α) (r : Nat) : Out (Option Nat) :=
  if r ∈ s.nodes then .ok s.nodes[s.nodes.idxOf r + 1]? else .ub

/-- The rounds of a loop over a List from the iterator on, List.h:208, 218: the variables, the List, and the elements visited. -/
def rounds [LinearOrder α] (body : σ → Body (Lst.Call α) α σ) : Nat → σ → Obj α → Option Nat → Out (σ × Obj α × List Nat)
  | 0, _, _, _ => .diverge
  | _ + 1, st, s, none => .ok (st, s, [])
  | n + 1, st, s, some r => do
    let (st, s, stop) ← exec listClass s r (body st)
    if stop then .ok (st, s, [r]) else do
      let it ← next s r
      let (st, s, vis) ← rounds body n st s it
      .ok (st, s, r :: vis)

/-- `for (auto& x : list) body`, List.h:208, 218. -/
def forList [LinearOrder α] (body : σ → Body (Lst.Call α) α σ) (n : Nat) (st : σ) (s : Obj α) : Out (σ × Obj α × List Nat) :=
  rounds body n st s s.nodes.head?

/-- Calls of a Vector that leave its end where it is. -/
def Stays : Vector.Call α → Bool
  | .get _ | .first | .last | .set _ _ => true
  | _ => false

/-- As `exec` for a Vector, and whether `end()` is still valid (C++11 23.3.6.5: insertions and removals invalidate it). -/
def execV (grow : Nat → Nat) : Vector.Vec α → Nat → Bool → Body (Vector.Call α) α σ → Out (σ × Vector.Vec α × Bool × Bool)
  | s, _, e, .done st => .ok (st, s, false, e)
  | s, _, e, .stop st => .ok (st, s, true, e)
  | s, r, e, .call c k => do
    let (x, s) ← Ref.Vector.call grow s c
    execV grow s r (e && Stays c) (k x)
  | s, r, e, .size k => execV grow s r e (k s.nodes.length)
  | s, r, e, .read k => do execV grow s r e (k (← s.toObj.read r))
  | s, r, e, .write v b => do execV grow { s with toObj := ← s.toObj.write r v } r e b

/-- The rounds of a loop over a Vector, Vector.h:195, 205: comparing with an `end()` that has been invalidated is undefined. -/
def roundsV (grow : Nat → Nat) (body : σ → Body (Vector.Call α) α σ) :
    Nat → σ → Vector.Vec α → Option Nat → Out (σ × Vector.Vec α × List Nat)
  | 0, _, _, _ => .diverge
  | _ + 1, st, s, none => .ok (st, s, [])
  | n + 1, st, s, some r => do
    let (st, s, stop, e) ← execV grow s r true (body st)
    if stop then .ok (st, s, [r]) else
    if e = false then .ub else do
      let it ← next s.toObj r
      let (st, s, vis) ← roundsV grow body n st s it
      .ok (st, s, r :: vis)

/-- `for (auto& x : vector) body`, Vector.h:195, 205. -/
def forVector (grow : Nat → Nat) (body : σ → Body (Vector.Call α) α σ) (n : Nat) (st : σ) (s : Vector.Vec α) :
    Out (σ × Vector.Vec α × List Nat) :=
  roundsV grow body n st s s.nodes.head?

end Cont.Loop
