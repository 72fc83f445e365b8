import Verif.Proof.SeqProg

/-! # C51-C54: programs that use a Vector, a List, a Stack or a Queue -/

namespace Cont.Props
open Cpp Cont.Spec

variable {α : Type}

/-- **C51.**  Every sequence of calls of a Vector returns the values, and leaves the elements, that the specification says, or is ended
by an error where the specification has no step. -/
theorem C51_program (v : List α) (cs : List (Vector.Call α)) :
    (∀ r, runs vectorStep v cs = some r → Vector.calls v cs = .ok r) ∧ (runs vectorStep v cs = none → Vector.calls v cs = .exit) := by
  have := runs_of_steps vectorStep Vector.call Vector.calls vector_step (fun _ => rfl) (fun _ _ _ => rfl) v cs
  exact ⟨fun r h => by rw [this, h]; rfl, fun h => by rw [this, h]; rfl⟩

example : runs vectorStep [(1 : Int), 2] [.push 3, .insert 1 9, .get 2, .erase 0, .set 0 5, .pop, .first, .last] =
    some ([2, 3, 5, 2], [5, 2]) := by decide
example : runs vectorStep [(1 : Int), 2] [.pop, .pop, .pop] = none := by decide

/-- **C52** (partial).  The same for a List, whose calls include sorting and reversing, other than `merge`. -/
theorem C52_program_partial [LinearOrder α] (v : List α) (cs : List (Lst.Call α)) :
    (∀ r, runs listStep v cs = some r → Lst.calls v cs = .ok r) ∧ (runs listStep v cs = none → Lst.calls v cs = .exit) := by
  have := runs_of_steps listStep Lst.call Lst.calls list_step (fun _ => rfl) (fun _ _ _ => rfl) v cs
  exact ⟨fun r h => by rw [this, h]; rfl, fun h => by rw [this, h]; rfl⟩

example : runs listStep [(4 : Int), 2] [.pushFront 3, .sort, .popFront, .reverse, .insert 2 7, .get 0, .pop] =
    some ([2, 4, 7], [4, 3]) := by decide

/-- **C53.**  The same for a Stack. -/
theorem C53_program (s : List α) (cs : List (Stack.Call α)) :
    (∀ r, runs stackStep s cs = some r → Stack.calls s cs = .ok r) ∧ (runs stackStep s cs = none → Stack.calls s cs = .exit) := by
  have := runs_of_steps stackStep Stack.call Stack.calls stack_step (fun _ => rfl) (fun _ _ _ => rfl) s cs
  exact ⟨fun r h => by rw [this, h]; rfl, fun h => by rw [this, h]; rfl⟩

example : runs stackStep [] [.push (1 : Int), .push 2, .top, .pop, .pop] = some ([2, 2, 1], []) ∧
    runs stackStep [] [.push (1 : Int), .clear, .top] = none := by decide

/-- **C54** (partial).  The same for a Queue, without `first` and `last`, which do not check. -/
theorem C54_program_partial (q : List α) (cs : List (Queue.Call α)) :
    (∀ r, runs queueStep q cs = some r → Queue.calls q cs = .ok r) ∧ (runs queueStep q cs = none → Queue.calls q cs = .exit) := by
  have : Queue.calls q cs = outcome (runs queueStep q cs) := by
    induction cs generalizing q with
    | nil => rfl
    | cons c cs ih =>
      rw [runs]
      cases c with
      | enqueue x =>
        rw [Queue.calls, ih]
        show _ = outcome ((runs queueStep (q ++ [x]) cs).map fun p => ([] ++ p.1, p.2))
        simp only [List.nil_append, Prod.mk.eta, Option.map_id']
        rfl
      | dequeue =>
        rw [Queue.calls, show Queue.dequeue q = Lst.popFront q from rfl, popFront_nth, queueStep]
        cases nth q 0 with
        | none => rfl
        | some x =>
          show (Queue.calls (q.eraseIdx 0) cs >>= fun r => Out.ok (x :: r.1, r.2)) = _
          rw [ih, ← outcome_map]; rfl
  exact ⟨fun r h => by rw [this, h]; rfl, fun h => by rw [this, h]; rfl⟩

example : runs queueStep [] [.enqueue (1 : Int), .enqueue 2, .dequeue, .enqueue 3, .dequeue] = some ([1, 2], [3]) ∧
    runs queueStep ([] : List Int) [.dequeue] = none := by decide

end Cont.Props
