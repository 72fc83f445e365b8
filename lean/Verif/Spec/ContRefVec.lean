import Verif.Spec.ContRef

/-! # Which references to the elements of a Vector stay valid -/

open Cpp

namespace Cont.Ref.Spec

variable {α : Type}

/-- Does a reference to the element at position `p` of a Vector with the given number of elements and capacity survive the
call?  Without room for another element no reference survives `push` and `insert`; otherwise those in front of the place of
the change do. -/
def survives (len cap : Nat) (c : Vector.Call α) (p : Nat) : Bool :=
  match c with
  | .push _ => len < cap
  | .insert i _ => len < cap ∧ p < i
  | .erase i => p < i
  | .pop => p + 1 < len
  | .clear => false
  | _ => true

/-- the capacity after the call -/
def capacity (grow : Nat → Nat) (len cap : Nat) : Vector.Call α → Nat
  | .push _ => if len < cap then cap else grow cap
  | .insert _ _ => if len < cap then cap else grow cap
  | _ => cap

/-- What a program prints, and the values that are in the Vector at the end.  A reference that has survived all calls since
it was made is the position of its element, which has not moved; the use of any other is undefined. -/
def vecRun (grow : Nat → Nat) : List α → Nat → List (Option Nat) → List (Stmt (Vector.Call α) α) → Out (List α × List α)
  | vs, _, _, [] => .ok ([], vs)
  | vs, cap, ps, .call c :: p => do
    let (x, vs') ← Cont.Vector.call vs c
    let (out, fin) ← vecRun grow vs' (capacity grow vs.length cap c) (ps.map fun q => q.filter (survives vs.length cap c)) p
    .ok (x.toList ++ out, fin)
  | vs, cap, ps, .bind a :: p => do
    let q ← position vs a
    vecRun grow vs cap (ps ++ [some q]) p
  | vs, cap, ps, .read k :: p =>
    match ps[k]? with
    | some (some q) =>
      match vs[q]? with
      | some x => do
        let (out, fin) ← vecRun grow vs cap ps p
        .ok (x :: out, fin)
      | none => .ub
    | some none => .ub
    | none => vecRun grow vs cap ps p
  | vs, cap, ps, .write k x :: p =>
    match ps[k]? with
    | some (some q) => vecRun grow (vs.set q x) cap ps p
    | some none => .ub
    | none => vecRun grow vs cap ps p

end Cont.Ref.Spec
