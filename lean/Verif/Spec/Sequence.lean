import Verif.Model.Sequence

/-! # Histories of calls of stacks and queues -/

namespace Cont.Spec

variable {α : Type}

/-- A history in which every push is followed by its own pop. -/
inductive Balanced : List (Stack.Call α) → Prop
  | nil : Balanced []
  | nest (x : α) {h h' : List (Stack.Call α)} (hb : Balanced h) (hb' : Balanced h') :
      Balanced (.push x :: h ++ .pop :: h')

/-- The values put into a queue, in order. -/
def enqueued : List (Queue.Call α) → List α
  | [] => []
  | .enqueue x :: cs => x :: enqueued cs
  | .dequeue :: cs => enqueued cs

/-- The number of values taken out of a queue. -/
def dequeues : List (Queue.Call α) → Nat
  | [] => 0
  | .enqueue _ :: cs => dequeues cs
  | .dequeue :: cs => dequeues cs + 1

end Cont.Spec
