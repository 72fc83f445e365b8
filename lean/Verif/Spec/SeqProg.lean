import Verif.Model.Sequence
import Mathlib.Data.List.Sort

/-! # Spec: what programs that use a Vector, a List, a Stack or a Queue compute

One step: what the call returns, if anything, and the elements afterwards; `none` where the program has to be ended by an error. -/

namespace Cont.Spec

variable {α : Type}

/-- the element number `i`, if there is one -/
def nth (l : List α) (i : Int) : Option α := if 0 ≤ i then l[i.toNat]? else none

/-- One call of a Vector. -/
def vectorStep (v : List α) : Vector.Call α → Option (Option α × List α)
  | .get i => (nth v i).map fun x => (some x, v)
  | .first => (nth v 0).map fun x => (some x, v)
  | .last => (nth v (v.length - 1)).map fun x => (some x, v)
  | .clear => some (none, [])
  | .insert i x => if 0 ≤ i ∧ i ≤ v.length then some (none, v.insertIdx i.toNat x) else none
  | .erase i => if 0 ≤ i ∧ i < v.length then some (none, v.eraseIdx i.toNat) else none
  | .set i x => if 0 ≤ i ∧ i < v.length then some (none, v.set i.toNat x) else none
  | .push x => some (none, v ++ [x])
  | .pop => (nth v (v.length - 1)).map fun x => (some x, v.eraseIdx (v.length - 1))

/-- One call of a List. -/
def listStep [LinearOrder α] (v : List α) : Lst.Call α → Option (Option α × List α)
  | .get i => (nth v i).map fun x => (some x, v)
  | .first => (nth v 0).map fun x => (some x, v)
  | .last => (nth v (v.length - 1)).map fun x => (some x, v)
  | .clear => some (none, [])
  | .insert i x => if 0 ≤ i ∧ i ≤ v.length then some (none, v.insertIdx i.toNat x) else none
  | .erase i => if 0 ≤ i ∧ i < v.length then some (none, v.eraseIdx i.toNat) else none
  | .push x => some (none, v ++ [x])
  | .pushFront x => some (none, x :: v)
  | .pop => (nth v (v.length - 1)).map fun x => (some x, v.eraseIdx (v.length - 1))
  | .popFront => (nth v 0).map fun x => (some x, v.eraseIdx 0)
  | .sort => some (none, v.insertionSort (· ≤ ·))
  | .reverse => some (none, v.reverse)

/-- One call of a Stack, the top at the end. -/
def stackStep (s : List α) : Stack.Call α → Option (Option α × List α)
  | .push x => some (none, s ++ [x])
  | .pop => (nth s (s.length - 1)).map fun x => (some x, s.eraseIdx (s.length - 1))
  | .top => (nth s (s.length - 1)).map fun x => (some x, s)
  | .clear => some (none, [])

/-- One call of a Queue. -/
def queueStep (q : List α) : Queue.Call α → Option (Option α × List α)
  | .enqueue x => some (none, q ++ [x])
  | .dequeue => (nth q 0).map fun x => (some x, q.eraseIdx 0)

/-- All steps: the values returned, and the elements afterwards. -/
def runs {C : Type} (step : List α → C → Option (Option α × List α)) (v : List α) : List C → Option (List α × List α)
  | [] => some ([], v)
  | c :: cs =>
    match step v c with
    | none => none
    | some (r, w) => (runs step w cs).map fun (rs, u) => (r.toList ++ rs, u)

end Cont.Spec
