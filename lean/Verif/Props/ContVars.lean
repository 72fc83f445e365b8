import Verif.Proof.ContVars
import Mathlib.Data.Nat.Basic

/-! # Container variables: property C141 -/

namespace Cont.Props
open Cpp Vars

variable {α : Type}

/-- **C141, refuted.**  `operator=` of Stack and Queue returns a copy: in `(a = b).push(x)` the value goes to a temporary
object and is lost, whatever is in `a` and `b`. -/
theorem C141_refuted (st : Store (List α)) (b : Bool) (x : α) :
    Vars.run (Vars.stack α) b st [.call (.assign (.var 0) (.var 1)) (.push x)]
      = .ok ([none], fun j => if j = 0 then st 1 else st j) ∧
    Vars.run (Vars.queue α) b st [.call (.assign (.var 0) (.var 1)) (.enqueue x)]
      = .ok ([none], fun j => if j = 0 then st 1 else st j) ∧
    ∃ st', Vars.Spec.run Stack.call st [.call (.assign (.var 0) (.var 1)) (.push x)] = .ok ([none], st') ∧
      st' 0 = st 1 ++ [x] := by
  refine ⟨?_, ?_, ⟨_, rfl, ?_⟩⟩
  · cases b <;> rfl
  · cases b <;> rfl
  · simp [Vars.Spec.target, Vars.Spec.steps, Vars.Spec.assign, Stack.push]

/-- **C141.**  List: in every program with several Lists, each of them has its own elements, copies and assignments copy
them, and a call acts on the object designated by the expression in front of it (of an assignment: the left one). -/
theorem C141_list_partial [LinearOrder α] (p : List (Stmt (Lst.Call α))) (st : Store (List α)) :
    Vars.run (Vars.list α) true st p = Vars.Spec.run Lst.call st p := run_byRef _ rfl p st

/-- `(a = b).push(5); c = a = b; (a = c) = b; a.pop();` -/
example : ∃ st', Vars.run (Vars.list Nat) true (fun i => [i])
    [.call (.assign (.var 0) (.var 1)) (.push 5), .expr (.assign (.var 2) (.assign (.var 3) (.var 0))),
      .expr (.assign (.assign (.var 0) (.var 2)) (.var 1)), .call (.var 0) .pop] = .ok ([none, some 1], st') ∧
    [st' 0, st' 1, st' 2, st' 3] = [[], [1], [1, 5], [1, 5]] := by
  rw [C141_list_partial]
  exact ⟨_, rfl, rfl⟩

/-- **C141.**  Vector: the same. -/
theorem C141_vector_partial (p : List (Stmt (Vector.Call α))) (st : Store (List α)) :
    Vars.run (Vars.vector α) true st p = Vars.Spec.run Vector.call st p := run_byRef _ rfl p st

/-- **C141.**  Set, MultiSet and Map: the same. -/
theorem C141_assoc_partial {κ ν : Type} [LinearOrder α] [LinearOrder κ] (dflt : ν) :
    (∀ (p : List (Stmt (Set.Call α))) (st : Store (List α)),
      Vars.run (Vars.set α) true st p = Vars.Spec.run (fun s c => .ok ((), Set.call s c)) st p) ∧
    (∀ (p : List (Stmt (MultiSet.Call α))) (st : Store (List α)),
      Vars.run (Vars.multiset α) true st p = Vars.Spec.run (fun s c => do .ok ((), ← MultiSet.call s c)) st p) ∧
    (∀ (p : List (Stmt (Map.Call κ ν))) (st : Store (List (κ × ν))),
      Vars.run (Vars.map dflt) true st p = Vars.Spec.run (fun m c => .ok ((), Map.call dflt m c)) st p) :=
  ⟨run_byRef _ rfl, run_byRef _ rfl, run_byRef _ rfl⟩

/-- **C141.**  Stack and Queue: the same for programs in which the result of an assignment is not called or assigned to
(`x = y = z` is fine); the order of evaluation does not matter for them. -/
theorem C141_stack_queue_partial (b : Bool) (st : Store (List α)) :
    (∀ p : List (Stmt (Stack.Call α)), Vars.Spec.Plain p → Vars.run (Vars.stack α) b st p = Vars.Spec.run Stack.call st p) ∧
    (∀ p : List (Stmt (Queue.Call α)), Vars.Spec.Plain p →
      Vars.run (Vars.queue α) b st p = Vars.Spec.run Vars.queueCall st p) :=
  ⟨fun p hp => run_chain _ b p hp st, fun p hp => run_chain _ b p hp st⟩

/-- `a = b = c; a.push(7); T d(a); d.pop();` -/
example : Vars.Spec.Plain (C := Stack.Call Nat)
    [.expr (.assign (.var 0) (.assign (.var 1) (.var 2))), .call (.var 0) (.push 7), .copy 3 (.var 0), .call (.var 3) .pop] ∧
    ∃ st', Vars.Spec.run Stack.call (fun i => [i])
      [.expr (.assign (.var 0) (.assign (.var 1) (.var 2))), .call (.var 0) (.push 7), .copy 3 (.var 0),
        .call (.var 3) .pop] = .ok ([none, some 7], st') ∧
    [st' 0, st' 1, st' 2, st' 3] = [[2, 7], [2], [2], [2]] := by
  refine ⟨?_, _, rfl, rfl⟩
  intro s hs
  simp only [List.mem_cons, List.not_mem_nil, or_false] at hs
  rcases hs with rfl | rfl | rfl | rfl
  · exact .assign _ (.assign _ (.var _))
  · exact ⟨_, rfl⟩
  · exact .var _
  · exact ⟨_, rfl⟩

/-- **C141.**  The calls of a Queue in these programs: `enqueue` adds at the back, `dequeue` takes from the front. -/
theorem C141_queue_calls_partial (q : List α) (x : α) :
    Vars.queueCall q (.enqueue x) = .ok (none, q ++ [x]) ∧
    Vars.queueCall (x :: q) .dequeue = .ok (some x, q) ∧ Vars.queueCall ([] : List α) .dequeue = .exit :=
  ⟨rfl, rfl, rfl⟩

/-- **C141.**  A variable that no statement of a program assigns to, copies to or calls keeps its value. -/
theorem C141_frame_partial {σ C ρ : Type} (K : Vars.Class σ C ρ) (hK : K.byRef = true) (p : List (Stmt C)) (v : Nat)
    (hv : ∀ s ∈ p, match s with
      | .expr e => ∀ a ∈ Vars.Spec.steps e, a.1 ≠ v
      | .call e _ => Vars.Spec.target e ≠ v ∧ ∀ a ∈ Vars.Spec.steps e, a.1 ≠ v
      | .copy x e => x ≠ v ∧ ∀ a ∈ Vars.Spec.steps e, a.1 ≠ v)
    (st st' : Store σ) (xs : List ρ) (h : Vars.run K true st p = .ok (xs, st')) : st' v = st v := by
  rw [run_byRef K hK] at h
  have hfold : ∀ (l : List (Nat × Nat)) (st : Store σ), (∀ a ∈ l, a.1 ≠ v) → l.foldl Vars.Spec.assign st v = st v := by
    intro l
    induction l with
    | nil => exact fun _ _ => rfl
    | cons a l ih =>
      intro st ha
      rw [List.foldl_cons, ih _ fun b hb => ha b (List.mem_cons_of_mem _ hb)]
      show (if v = a.1 then st a.2 else st v) = st v
      rw [if_neg]
      exact fun e => ha a List.mem_cons_self e.symm
  induction p generalizing st xs with
  | nil => cases h; rfl
  | cons s p ih =>
    have ih := fun st xs => ih (fun s hs => hv s (List.mem_cons_of_mem _ hs)) st xs
    have hs := hv s List.mem_cons_self
    cases s with
    | expr e => exact (ih _ _ h).trans (hfold _ _ hs)
    | call e c =>
      obtain ⟨a, -, h2⟩ := Out.bind_eq_ok.1 h
      obtain ⟨b, h3, h4⟩ := Out.bind_eq_ok.1 h2
      cases h4
      refine (ih _ _ h3).trans ?_
      rw [if_neg (Ne.symm hs.1)]
      exact hfold _ _ hs.2
    | copy x e =>
      refine (ih _ _ h).trans ?_
      rw [if_neg (Ne.symm hs.1)]
      exact hfold _ _ hs.2

/-- `(a = b).push(5)` and `c = a` change neither `b` nor `d`. -/
example : ∀ v ∈ [1, 3], ∀ s ∈ ([.call (.assign (.var 0) (.var 1)) (.push (5 : Nat)), .expr (.assign (.var 2) (.var 0))] :
    List (Stmt (Lst.Call Nat))), match s with
      | .expr e => ∀ a ∈ Vars.Spec.steps e, a.1 ≠ v
      | .call e _ => Vars.Spec.target e ≠ v ∧ ∀ a ∈ Vars.Spec.steps e, a.1 ≠ v
      | .copy x e => x ≠ v ∧ ∀ a ∈ Vars.Spec.steps e, a.1 ≠ v := by
  simp [Vars.Spec.steps, Vars.Spec.target]

end Cont.Props
