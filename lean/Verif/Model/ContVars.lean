import Verif.Model.Sequence
import Verif.Model.Assoc

/-!
# Programs with several container variables: copying, assigning and converting

`operator=` of Vector is the implicit one; List.h:259-263, Set.h:171-175, MultiSet.h:177-181, Map.h:199-203 and
MultiMap.h:181-186 return `*this` by reference, Stack.h:137-141 and Queue.h:150-154 by value: the result is a new temporary
object, constructed by the implicit copy constructor.  The containers of the standard library are copied with all their
elements (they share nothing), so a store gives each variable its own value.
-/

open Cpp

namespace Cont.Vars

variable {σ C ρ : Type}

/-- A class of containers: what a call does with the value of an object, and whether `operator=` returns a reference. -/
structure Class (σ C ρ : Type) where
  call : σ → C → Out (ρ × σ)
  byRef : Bool

/-- `Stack<T>` (Stack.h:137-141: by value) -/
def stack (α : Type) : Class (List α) (Stack.Call α) (Option α) := ⟨Stack.call, false⟩

/-- one call of a Queue (Queue.h:186-197) -/
def queueCall {α : Type} (q : List α) : Queue.Call α → Out (Option α × List α)
  | .enqueue x => .ok (none, Queue.enqueue q x)
  | .dequeue => do
    let (x, q) ← Queue.dequeue q
    .ok (some x, q)

/-- `Queue<T>` (Queue.h:150-154: by value) -/
def queue (α : Type) : Class (List α) (Queue.Call α) (Option α) := ⟨queueCall, false⟩

/-- `List<T>` (List.h:259-263: by reference) -/
def list (α : Type) [LinearOrder α] : Class (List α) (Lst.Call α) (Option α) := ⟨Lst.call, true⟩

/-- `Vector<T>` (implicit: by reference) -/
def vector (α : Type) : Class (List α) (Vector.Call α) (Option α) := ⟨Vector.call, true⟩

/-- `Set<T>` (Set.h:171-175: by reference) -/
def set (α : Type) [LinearOrder α] : Class (List α) (Set.Call α) Unit := ⟨fun s c => .ok ((), Set.call s c), true⟩

/-- `MultiSet<T>` (MultiSet.h:177-181: by reference) -/
def multiset (α : Type) [LinearOrder α] : Class (List α) (MultiSet.Call α) Unit :=
  ⟨fun s c => do .ok ((), ← MultiSet.call s c), true⟩

/-- `Map<K, V>` (Map.h:199-203: by reference; the right operand has to be a variable or such a result, since it is taken by
a reference that is not const) -/
def map {κ ν : Type} [LinearOrder κ] (dflt : ν) : Class (List (κ × ν)) (Map.Call κ ν) Unit :=
  ⟨fun m c => .ok ((), Map.call dflt m c), true⟩

/-- An expression for a container: a variable or an assignment. -/
inductive Ex where
  | var (i : Nat)
  | assign (l r : Ex)

/-- What an expression stands for: a variable, or a temporary object. -/
inductive Place (σ : Type) where
  | var (i : Nat)
  | temp (v : σ)

/-- the variables of the program -/
abbrev Store (σ : Type) := Nat → σ

/-- the value of the object -/
def Place.val (st : Store σ) : Place σ → σ
  | .var i => st i
  | .temp v => v

/-- store a value in the object (a temporary is gone at the end of the statement) -/
def Place.put (st : Store σ) (v : σ) : Place σ → Store σ
  | .var i => fun j => if j = i then v else st j
  | .temp _ => st

/-- Evaluation of an expression.  `rightFirst`: which operand of an assignment is evaluated first (unspecified before C++17,
the right one since). -/
def eval (K : Class σ C ρ) (rightFirst : Bool) : Store σ → Ex → Place σ × Store σ
  | st, .var i => (.var i, st)
  | st, .assign l r =>
    let (pl, pr, st) :=
      if rightFirst then
        let (pr, st) := eval K rightFirst st r
        let (pl, st) := eval K rightFirst st l
        (pl, pr, st)
      else
        let (pl, st) := eval K rightFirst st l
        let (pr, st) := eval K rightFirst st r
        (pl, pr, st)
    let v := pr.val st
    let st := pl.put st v
    (if K.byRef then
      match pl with
      | .var i => .var i
      | .temp _ => .temp v
    else .temp v, st)

/-- A statement: `e;`, `e.f(...)`, `T x(e);` (copy construction; also by way of `toStlX()` or the conversion operator and
the constructor from an STL container, e.g. Queue.h:89-98, 140-143, both of which copy). -/
inductive Stmt (C : Type) where
  | expr (e : Ex)
  | call (e : Ex) (c : C)
  | copy (x : Nat) (e : Ex)

/-- A program: the results of all calls, and the variables at the end. -/
def run (K : Class σ C ρ) (rightFirst : Bool) : Store σ → List (Stmt C) → Out (List ρ × Store σ)
  | st, [] => .ok ([], st)
  | st, .expr e :: p => run K rightFirst (eval K rightFirst st e).2 p
  | st, .call e c :: p => do
    let (pl, st) := eval K rightFirst st e
    let (x, v) ← K.call (pl.val st) c
    let (xs, st) ← run K rightFirst (pl.put st v) p
    .ok (x :: xs, st)
  | st, .copy x e :: p =>
    let (pl, st) := eval K rightFirst st e
    run K rightFirst (fun j => if j = x then pl.val st else st j) p

end Cont.Vars
