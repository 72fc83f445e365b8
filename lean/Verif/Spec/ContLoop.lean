import Verif.Model.ContLoop
import Verif.Spec.ContRef
import Verif.Spec.ContRefVec

/-!
# What a loop over a sequence means

Written without names of elements: the loop is at a position; the body may move the element at that position (the members and
where they take an element are those of `Spec/ContRef.lean`), and the next round is for the element behind it.
-/

open Cpp

namespace Cont.Loop.Spec
open Cont.Ref Cont.Loop

variable {α σ : Type}

/-- The body with the loop variable standing for the element at position `q` (`none`: it has been removed). -/
def exec {C : Type} (V : Ref.Spec.Class C α) : List α → Option Nat → Body C α σ → Out (σ × List α × Option Nat × Bool)
  | vs, q, .done st => .ok (st, vs, q, false)
  | vs, q, .stop st => .ok (st, vs, q, true)
  | vs, q, .call c k => do
    let (x, vs') ← V.call vs c
    exec V vs' (q.bind (V.move vs c)) (k x)
  | vs, q, .size k => exec V vs q (k vs.length)
  | vs, q, .read k =>
    match q with
    | some p =>
      match vs[p]? with
      | some x => exec V vs q (k x)
      | none => .ub
    | none => .ub
  | vs, q, .write v b =>
    match q with
    | some p => exec V (vs.set p v) q b
    | none => .ub

/-- The loop from position `p` on; it ends when there is no element at the position, and is undefined if the body removes the
element it is at (and does not break). -/
def loop {C : Type} (V : Ref.Spec.Class C α) (body : σ → Body C α σ) : Nat → σ → List α → Nat → Out (σ × List α)
  | 0, _, _, _ => .diverge
  | n + 1, st, vs, p =>
    if p < vs.length then do
      let (st, vs, q, stop) ← exec V vs (some p) (body st)
      if stop then .ok (st, vs) else
      match q with
      | some p => loop V body n st vs (p + 1)
      | none => .ub
    else .ok (st, vs)

/-- A body that neither reorders the List nor breaks. -/
def Steady : Body (Lst.Call α) α σ → Prop
  | .done _ => True
  | .stop _ => False
  | .call .sort _ => False
  | .call .reverse _ => False
  | .call _ k => ∀ x, Steady (k x)
  | .size k => ∀ n, Steady (k n)
  | .read k => ∀ x, Steady (k x)
  | .write _ b => Steady b

/-- A body that calls only members of a Vector that leave its length as it is. -/
def Quiet : Body (Vector.Call α) α σ → Prop
  | .done _ | .stop _ => True
  | .call c k => Stays c = true ∧ ∀ x, Quiet (k x)
  | .size k => ∀ n, Quiet (k n)
  | .read k => ∀ x, Quiet (k x)
  | .write _ b => Quiet b

/-- The body of a loop over a Vector with the given capacity, the loop variable standing for the element at position `q` (`none`: the
reference has not survived, see `survives`); `e` says that the length has not been changed in this round. -/
def vexec (grow : Nat → Nat) : List α → Nat → Option Nat → Bool → Body (Vector.Call α) α σ → Out (σ × List α × Nat × Option Nat × Bool × Bool)
  | vs, cap, q, e, .done st => .ok (st, vs, cap, q, e, false)
  | vs, cap, q, e, .stop st => .ok (st, vs, cap, q, e, true)
  | vs, cap, q, e, .call c k => do
    let (x, vs') ← Cont.Vector.call vs c
    vexec grow vs' (Ref.Spec.capacity grow vs.length cap c) (q.filter (Ref.Spec.survives vs.length cap c)) (e && Stays c) (k x)
  | vs, cap, q, e, .size k => vexec grow vs cap q e (k vs.length)
  | vs, cap, q, e, .read k =>
    match q with
    | some p =>
      match vs[p]? with
      | some x => vexec grow vs cap q e (k x)
      | none => .ub
    | none => .ub
  | vs, cap, q, e, .write v b =>
    match q with
    | some p => vexec grow (vs.set p v) cap q e b
    | none => .ub

/-- The loop over a Vector from position `p` on: a round in which an element was inserted or removed has to be the last one, by a
`break`. -/
def vloop (grow : Nat → Nat) (body : σ → Body (Vector.Call α) α σ) : Nat → σ → List α → Nat → Nat → Out (σ × List α)
  | 0, _, _, _, _ => .diverge
  | n + 1, st, vs, cap, p =>
    if p < vs.length then do
      let (st, vs, cap, _, e, stop) ← vexec grow vs cap (some p) true (body st)
      if stop then .ok (st, vs) else
      if e then vloop grow body n st vs cap (p + 1) else .ub
    else .ok (st, vs)

/-- A loop that only reads and assigns its variable: what becomes of the variables and of the values. -/
def sweep (f : σ → α → σ × α) : σ → List α → σ × List α
  | st, [] => (st, [])
  | st, x :: xs =>
    let (st, y) := f st x
    let (st, ys) := sweep f st xs
    (st, y :: ys)

end Cont.Loop.Spec
