import Verif.Model.ContRef

/-!
# What a reference to an element of a sequence means

Written without names of elements: a reference is the position at which the element is now, or nothing if the element has
been removed.  The values in the container are those of C51 to C54.
-/

open Cpp

namespace Cont.Ref

namespace Spec

variable {α : Type}

/-- A container of values: its calls, where the members that return references point, and where a call takes the element
at a position (`none`: the call removes it). -/
structure Class (C α : Type) where
  call : List α → C → Out (Option α × List α)
  pos : List α → Access → Out Nat
  move : List α → C → Nat → Option Nat

/-- What a program has to print, and the values that have to be in the container at the end: a reference always stands for
its element, wherever that is, and only the use of a reference to a removed element is undefined. -/
def run {C : Type} (K : Class C α) : List α → List (Option Nat) → List (Stmt C α) → Out (List α × List α)
  | vs, _, [] => .ok ([], vs)
  | vs, ps, .call c :: p => do
    let (x, vs') ← K.call vs c
    let (out, fin) ← run K vs' (ps.map fun q => q.bind (K.move vs c)) p
    .ok (x.toList ++ out, fin)
  | vs, ps, .bind a :: p => do
    let q ← K.pos vs a
    run K vs (ps ++ [some q]) p
  | vs, ps, .read k :: p =>
    match ps[k]? with
    | some (some q) =>
      match vs[q]? with
      | some x => do
        let (out, fin) ← run K vs ps p
        .ok (x :: out, fin)
      | none => .ub
    | some none => .ub
    | none => run K vs ps p
  | vs, ps, .write k x :: p =>
    match ps[k]? with
    | some (some q) => run K (vs.set q x) ps p
    | some none => .ub
    | none => run K vs ps p

/-- the position of the first and of the last element, of an index in range -/
def position (vs : List α) : Access → Out Nat
  | .at i => if 0 ≤ i ∧ i < vs.length then .ok i.toNat else .exit
  | .first => if vs = [] then .exit else .ok 0
  | .last => if vs = [] then .exit else .ok (vs.length - 1)

/-- Where the calls of a List take the element at position `p`; `sort` puts it behind the smaller ones and those equal ones
which were in front of it. -/
def listMove [LinearOrder α] (vs : List α) (c : Lst.Call α) (p : Nat) : Option Nat :=
  match c with
  | .pushFront _ => some (p + 1)
  | .insert i _ => if i ≤ p then some (p + 1) else some p
  | .erase i => if i < p then some (p - 1) else if i = p then none else some p
  | .pop => if p + 1 = vs.length then none else some p
  | .popFront => if p = 0 then none else some (p - 1)
  | .clear => none
  | .reverse => some (vs.length - 1 - p)
  | .sort => vs[p]?.map fun x => (vs.take p).countP (fun y => decide (y ≤ x)) + (vs.drop p).countP (fun y => decide (y < x))
  | _ => some p

/-- List, with the values of C52 -/
def list [LinearOrder α] : Class (Lst.Call α) α := ⟨Cont.Lst.call, position, listMove⟩

/-- Stack, with the values of C53: every access is `top()`. -/
def stack : Class (Stack.Call α) α where
  call := Cont.Stack.call
  pos := fun vs _ => position vs .last
  move := fun vs c p =>
    match c with
    | .pop => if p + 1 = vs.length then none else some p
    | .clear => none
    | _ => some p

/-- Queue, with the values of C54: `first` and `last` of an empty queue are undefined. -/
def queue : Class (Queue.Call α) α where
  call := fun vs c =>
    match c, vs with
    | .enqueue x, vs => .ok (none, vs ++ [x])
    | .dequeue, [] => .exit
    | .dequeue, x :: vs => .ok (some x, vs)
  pos := fun vs a => if vs = [] then .ub else match a with
    | .first => .ok 0
    | _ => .ok (vs.length - 1)
  move := fun _ c p =>
    match c with
    | .dequeue => if p = 0 then none else some (p - 1)
    | _ => some p

/-- Vector, with the values of C51 -/
def vector : Class (Vector.Call α) α where
  call := Cont.Vector.call
  pos := position
  move := fun vs c p =>
    match c with
    | .insert i _ => if i ≤ p then some (p + 1) else some p
    | .erase i => if i < p then some (p - 1) else if i = p then none else some p
    | .pop => if p + 1 = vs.length then none else some p
    | .clear => none
    | _ => some p

end Spec

/-- the number of calls of `push` in a program -/
def pushes {α : Type} (p : List (Stmt (Vector.Call α) α)) : Nat :=
  p.countP fun s => match s with
    | .call (.push _) => true
    | _ => false

/-- no call of `insert` or `erase` -/
def NoShift {α : Type} (p : List (Stmt (Vector.Call α) α)) : Prop :=
  ∀ s ∈ p, match s with
    | .call (.insert _ _) => False
    | .call (.erase _) => False
    | _ => True

namespace Spec

variable {κ ν : Type} [LinearOrder κ]

/-- What a program with a Map has to print, and the pairs that have to be in the Map at the end: a reference is the key of
its element, or nothing once that has been erased; the pairs are those of C55. -/
def mapRun (dflt : ν) : List (κ × ν) → List (Option κ) → List (Map.MStmt κ ν) → Out (List ν × List (κ × ν))
  | m, _, [] => .ok ([], m)
  | m, ks, .set k v :: p => mapRun dflt (Cont.Map.set m k v) ks p
  | m, ks, .erase k :: p => mapRun dflt (Cont.Map.erase m k) (ks.map fun q => if q = some k then none else q) p
  | _, ks, .clear :: p => mapRun dflt [] (ks.map fun _ => none) p
  | m, ks, .get k :: p => do
    let x ← Cont.Map.get m k
    let (out, fin) ← mapRun dflt m ks p
    .ok (x :: out, fin)
  | m, ks, .bindIndex k :: p => mapRun dflt (Cont.Map.index dflt m k).2 (ks ++ [some k]) p
  | m, ks, .bindGet k :: p => if Cont.Map.contains m k then mapRun dflt m (ks ++ [some k]) p else .exit
  | m, ks, .read i :: p =>
    match ks[i]? with
    | some (some k) => do
      let x ← Cont.Map.get m k
      let (out, fin) ← mapRun dflt m ks p
      .ok (x :: out, fin)
    | some none => .ub
    | none => mapRun dflt m ks p
  | m, ks, .write i x :: p =>
    match ks[i]? with
    | some (some k) => mapRun dflt (Cont.Map.set m k x) ks p
    | some none => .ub
    | none => mapRun dflt m ks p

end Spec

end Cont.Ref
