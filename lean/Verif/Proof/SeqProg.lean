import Verif.Proof.Sequence
import Verif.Spec.SeqProg

/-! # Helper lemmas for programs that use Vectors, Lists, Stacks and Queues -/

namespace Cont
open Cpp Cont.Spec

variable {α : Type}

/-- the outcome that corresponds to a step of the specification -/
def outcome {β : Type} : Option β → Out β
  | some b => .ok b
  | none => .exit

theorem outcome_map {β γ : Type} (o : Option β) (f : β → γ) : outcome (o.map f) = (outcome o >>= fun b => .ok (f b)) := by
  cases o <;> rfl

theorem outcome_ite {β : Type} (c : Prop) [Decidable c] (x : β) : outcome (if c then some x else none) = if c then .ok x else .exit := by
  split <;> rfl

theorem get_nth {l : List α} {i : Int} : Vector.get l i = outcome (nth l i) := by
  rw [get_eq]
  unfold nth
  by_cases h0 : 0 ≤ i
  · rw [if_pos h0]
    by_cases h : i < l.length
    · rw [dif_pos ⟨h0, h⟩, List.getElem?_eq_getElem (by omega)]; rfl
    · rw [dif_neg (fun h' => h h'.2), List.getElem?_eq_none (by omega)]; rfl
  · rw [if_neg h0, dif_neg (fun h => h0 h.1)]; rfl

theorem nth_zero {l : List α} : nth l 0 = l.head? := by
  unfold nth
  cases l <;> simp

theorem nth_last {l : List α} : nth l ((l.length : Int) - 1) = l.getLast? := by
  unfold nth
  rcases List.eq_nil_or_concat l with rfl | ⟨l', x, rfl⟩
  · simp
  · rw [if_pos (by simp)]
    simp

theorem erase_last {l : List α} : l.eraseIdx (l.length - 1) = l.dropLast := by
  rw [List.eraseIdx_eq_take_drop_succ, List.dropLast_eq_take, List.drop_of_length_le (by omega)]
  simp

theorem erase_zero {l : List α} : l.eraseIdx 0 = l.tail := by cases l <;> rfl

theorem first_nth {l : List α} : Vector.first l = outcome (nth l 0) := by
  rw [first_eq, nth_zero]; cases l <;> rfl

theorem last_nth {l : List α} : Vector.last l = outcome (nth l ((l.length : Int) - 1)) := by
  rw [last_eq, nth_last]
  by_cases h : l = []
  · subst h; rfl
  · rw [dif_pos h, List.getLast?_eq_some_getLast h]; rfl

theorem pop_nth {l : List α} : Vector.pop l =
    outcome ((nth l ((l.length : Int) - 1)).map fun x => (x, l.eraseIdx (l.length - 1))) := by
  rw [pop_eq, nth_last, erase_last]
  by_cases h : l = []
  · subst h; rfl
  · rw [dif_pos h, List.getLast?_eq_some_getLast h]; rfl

theorem popFront_nth {l : List α} : Lst.popFront l = outcome ((nth l 0).map fun x => (x, l.eraseIdx 0)) := by
  rw [popFront_eq, nth_zero, erase_zero]; cases l <;> rfl

theorem insertIdx_take (x : α) : ∀ (n : Nat) (l : List α), n ≤ l.length → l.insertIdx n x = l.take n ++ x :: l.drop n
  | 0, l, _ => by simp
  | n + 1, [], h => by simp at h
  | n + 1, y :: l, h => by simp [insertIdx_take x n l (by simpa using h)]

theorem insert_step {l : List α} {i : Int} {x : α} : Vector.insert l i x =
    if 0 ≤ i ∧ i ≤ l.length then .ok (l.insertIdx i.toNat x) else .exit := by
  rw [insert_eq]
  split
  · rw [insertIdx_take x _ l (by omega)]
  · rfl

theorem erase_step {l : List α} {i : Int} : Vector.erase l i =
    if 0 ≤ i ∧ i < l.length then .ok (l.eraseIdx i.toNat) else .exit := by
  rw [erase_eq, List.eraseIdx_eq_take_drop_succ]

theorem map_bind {β γ : Type} (o : Option β) (f : β → γ) : (outcome o >>= fun b => .ok (f b)) = outcome (o.map f) :=
  (outcome_map o f).symm

theorem vector_step (v : List α) (c : Vector.Call α) : Vector.call v c = outcome (vectorStep v c) := by
  cases c with
  | get i => rw [Vector.call, vectorStep, outcome_map, get_nth]
  | first => rw [Vector.call, vectorStep, outcome_map, first_nth]
  | last => rw [Vector.call, vectorStep, outcome_map, last_nth]
  | clear => rfl
  | insert i x => rw [Vector.call, vectorStep, insert_step]; split <;> rfl
  | erase i => rw [Vector.call, vectorStep, erase_step]; split <;> rfl
  | set i x => rw [Vector.call, vectorStep, set_eq]; split <;> rfl
  | push x => rfl
  | pop => rw [Vector.call, vectorStep, pop_nth]; cases nth v ((v.length : Int) - 1) <;> rfl

theorem list_step [LinearOrder α] (v : List α) (c : Lst.Call α) : Lst.call v c = outcome (listStep v c) := by
  cases c with
  | get i =>
    rw [Lst.call, listStep, outcome_map, ← get_nth, show Lst.get v i = Vector.get v i by rw [lget_eq, get_eq]]
  | first => rw [Lst.call, listStep, outcome_map, ← first_nth]; rfl
  | last => rw [Lst.call, listStep, outcome_map, ← last_nth]; rfl
  | clear => rfl
  | insert i x => rw [Lst.call, listStep, show Lst.insert v i x = Vector.insert v i x from rfl, insert_step]; split <;> rfl
  | erase i => rw [Lst.call, listStep, show Lst.erase v i = Vector.erase v i from rfl, erase_step]; split <;> rfl
  | push x => rfl
  | pushFront x => rfl
  | pop => rw [Lst.call, listStep, show Lst.pop v = Vector.pop v from rfl, pop_nth]; cases nth v ((v.length : Int) - 1) <;> rfl
  | popFront => rw [Lst.call, listStep, popFront_nth]; cases nth v 0 <;> rfl
  | sort =>
    rw [Lst.call, listStep, Lst.sort, Stl.sort, ← List.mergeSort_eq_insertionSort (· ≤ ·) v]; rfl
  | reverse => rfl

theorem stack_step (s : List α) (c : Stack.Call α) : Stack.call s c = outcome (stackStep s c) := by
  cases c with
  | push x => rfl
  | pop => rw [Stack.call, stackStep, show Stack.pop s = Vector.pop s from rfl, pop_nth]; cases nth s ((s.length : Int) - 1) <;> rfl
  | top => rw [Stack.call, stackStep, outcome_map, ← last_nth]; rfl
  | clear => rw [Stack.call, stackStep, sclear]; rfl

/-- A program whose calls are steps of a specification is a run of it. -/
theorem runs_of_steps {C : Type} (step : List α → C → Option (Option α × List α)) (call : List α → C → Out (Option α × List α))
    (calls : List α → List C → Out (List α × List α)) (h : ∀ v c, call v c = outcome (step v c)) (h0 : ∀ v, calls v [] = .ok ([], v))
    (h1 : ∀ v c cs, calls v (c :: cs) = (call v c >>= fun p => calls p.2 cs >>= fun q => .ok (p.1.toList ++ q.1, q.2)))
    (v : List α) (cs : List C) : calls v cs = outcome (runs step v cs) := by
  induction cs generalizing v with
  | nil => rw [h0]; rfl
  | cons c cs ih =>
    rw [h1, h, runs]
    cases step v c with
    | none => rfl
    | some p =>
      show (calls p.2 cs >>= fun q => Out.ok (p.1.toList ++ q.1, q.2)) = _
      rw [ih, outcome_map]

end Cont
