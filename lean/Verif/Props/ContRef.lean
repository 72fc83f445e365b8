import Verif.Proof.ContRef5
import Verif.Proof.ContRefMap

/-! # References to the elements of containers: property C140 -/

namespace Cont.Props
open Cpp

variable {α : Type}

/-- **C140, refuted.**  Pushing to a Vector that is full, however it grows, invalidates the references to all its elements:
in `auto& r = v.first(); v.push(x); print(r);` the last statement is undefined, although the element is still there. -/
theorem C140_push_refuted (grow : Nat → Nat) (v x : α) (vs : List α) :
    Ref.run (Ref.vectorClass grow) (Ref.Vector.ofList (v :: vs) (v :: vs).length) []
      [.bind .first, .call (.push x), .read 0] = .ub ∧
    Ref.Spec.run Ref.Spec.vector (v :: vs) [] [.bind .first, .call (.push x), .read 0] = .ok ([v], v :: vs ++ [x]) := by
  constructor
  · generalize hw : Ref.Vector.ofList (v :: vs) (v :: vs).length = w
    have hn : w.nodes = List.range (v :: vs).length := by rw [← hw]; rfl
    have hx : w.next = (v :: vs).length := by rw [← hw]; rfl
    have hc : w.cap = (v :: vs).length := by rw [← hw]; rfl
    have h1 : (Ref.vectorClass grow).ref w .first = .ok 0 := by
      show Ref.first w.toObj = _
      unfold Ref.first
      rw [hn]
      simp [List.range_succ_eq_map, Stl.front]
    obtain ⟨w', h2, h3⟩ := Ref.push_full grow w x (by rw [hn, hc]; simp)
    have h4 : (Ref.vectorClass grow).call w (.push x) = .ok (none, w') := by
      show (do .ok (none, ← Ref.Vector.push grow w x) : Out (Option α × Ref.Vector.Vec α)) = _
      rw [h2]
      rfl
    have h5 : w'.mem 0 = none := h3 0 (by rw [hn]; simp) (by rw [hx]; simp)
    have h6 : ((Ref.vectorClass grow).obj w').read 0 = .ub := by
      show w'.toObj.read 0 = .ub
      simp [Ref.Obj.read, h5]
    simp [Ref.run, h1, h4, h6]
  · simp [Ref.Spec.run, Ref.Spec.vector, Ref.Spec.position, Vector.call, Vector.push]

/-- **C140, refuted.**  Erasing an element of a Vector invalidates the references to all later ones. -/
theorem C140_erase_refuted (grow : Nat → Nat) (u v : α) (vs : List α) (cap : Nat) :
    Ref.run (Ref.vectorClass grow) (Ref.Vector.ofList (u :: v :: vs) cap) []
      [.bind (.at 1), .call (.erase 0), .read 0] = .ub ∧
    Ref.Spec.run Ref.Spec.vector (u :: v :: vs) [] [.bind (.at 1), .call (.erase 0), .read 0] = .ok ([v], v :: vs) := by
  constructor
  · generalize hw : Ref.Vector.ofList (u :: v :: vs) cap = w
    have hn : w.nodes = List.range (u :: v :: vs).length := by rw [← hw]; rfl
    have hx : w.next = (u :: v :: vs).length := by rw [← hw]; rfl
    have h1 : (Ref.vectorClass grow).ref w (.at 1) = .ok 1 := by
      show Ref.at' w.toObj 1 = _
      unfold Ref.at' Ref.boundaryCheck Stl.at'
      rw [hn, if_neg (by simp; omega)]
      simp
    obtain ⟨w', h2, h3⟩ := Ref.erase_later w 0 (by rw [hn]; simp)
    have h4 : (Ref.vectorClass grow).call w (.erase 0) = .ok (none, w') := by
      show (do .ok (none, ← Ref.Vector.erase w 0) : Out (Option α × Ref.Vector.Vec α)) = _
      rw [show (0 : Int) = ((0 : Nat) : Int) from rfl, h2]
      rfl
    have h5 : w'.mem 1 = none := h3 1 (by
      rw [hn, List.mem_drop_iff_getElem]
      exact ⟨0, by simp, by simp⟩) (by rw [hx]; simp)
    have h6 : ((Ref.vectorClass grow).obj w').read 1 = .ub := by
      show w'.toObj.read 1 = .ub
      simp [Ref.Obj.read, h5]
    simp [Ref.run, h1, h4, h6]
  · simp [Ref.Spec.run, Ref.Spec.vector, Ref.Spec.position, Vector.call, Vector.erase, Vector.boundaryCheck, Stl.advance,
      Stl.eraseAt]
    rw [if_pos (by omega)]
    simp only [Out.ok_bind]
    rw [if_neg (by omega)]
    simp only [Out.ok_bind]
    rw [if_pos (by omega)]
    simp

/-- **C140.**  List: in every program with a List and references to its elements, a reference stands for its element,
wherever the calls (also `sort` and `reverse`) move it; using it is undefined only when the element has been removed. -/
theorem C140_list_partial [LinearOrder α] (p : List (Ref.Stmt (Lst.Call α) α)) :
    Ref.run Ref.listClass {} [] p = Ref.Spec.run Ref.Spec.list [] [] p :=
  Ref.list_sim.run p {} [] [] [] Ref.rel_empty .nil

/-- A program which sorts, reverses and removes elements; `r0` is the first 3. -/
example : Ref.Spec.run Ref.Spec.list [] []
    [.call (.push (3 : Nat)), .call (.push 5), .call (.push 3), .bind .first, .call (.pushFront 4), .call .sort,
      .write 0 7, .call .reverse, .call .popFront, .call .popFront, .read 0]
    = .ok ([5, 4, 7], [3, 7]) := by
  simp [Ref.Spec.run, Ref.Spec.list, Ref.Spec.position, Ref.Spec.listMove, Lst.call, Lst.push, Lst.pushFront, Lst.sort,
    Lst.reverse, Lst.popFront, Lst.emptyCheck, Stl.front, Stl.popFront, Stl.sort, List.mergeSort,
    List.MergeSort.Internal.splitInTwo]

/-- **C140.**  Stack: the same for references from `top()`. -/
theorem C140_stack_partial (p : List (Ref.Stmt (Stack.Call α) α)) :
    Ref.run Ref.stackClass {} [] p = Ref.Spec.run Ref.Spec.stack [] [] p :=
  Ref.stack_sim.run p {} [] [] [] Ref.rel_empty .nil

example : Ref.Spec.run Ref.Spec.stack [] []
    [.call (.push (3 : Nat)), .bind .last, .call (.push 5), .write 0 4, .call .pop, .call .pop, .call (.push 6), .read 0]
    = .ub := by decide +kernel

/-- **C140.**  Queue: the same for references from `first()` and `last()`. -/
theorem C140_queue_partial (p : List (Ref.Stmt (Queue.Call α) α)) :
    Ref.run Ref.queueClass {} [] p = Ref.Spec.run Ref.Spec.queue [] [] p :=
  Ref.queue_sim.run p {} [] [] [] Ref.rel_empty .nil

example : Ref.Spec.run Ref.Spec.queue [] []
    [.call (.enqueue (3 : Nat)), .call (.enqueue 5), .bind .last, .call .dequeue, .call (.enqueue 6), .write 0 4, .read 0]
    = .ok ([3, 4], [4, 6]) := by decide +kernel

/-- **C140.**  Map: the same for references from `m[key]` and `m.get(key)`, which stand for the value of the key until that
is erased. -/
theorem C140_map_partial {κ ν : Type} [LinearOrder κ] (dflt : ν) (p : List (Ref.Map.MStmt κ ν)) :
    Ref.Map.run dflt {} [] p = Ref.Spec.mapRun dflt [] [] p :=
  Ref.Map.map_run dflt p {} [] [] []
    ⟨List.Pairwise.nil, List.nodup_nil, rfl, fun _ h => absurd rfl h, fun _ h => absurd rfl h⟩ .nil

example : Ref.Spec.mapRun (0 : Nat) [] []
    [.bindIndex 7, .set 3 (30 : Nat), .bindGet 3, .set 7 70, .erase (3 : Nat), .read 0, .write 0 71, .set 3 31, .get 7]
    = .ok ([70, 71], [(3, 31), (7, 71)]) := by decide +kernel

/-- **C140.**  Vector: the same as long as the capacity suffices for all values pushed and nothing is inserted or erased in
between. -/
theorem C140_vector_partial (grow : Nat → Nat) (vs : List α) (cap : Nat) (p : List (Ref.Stmt (Vector.Call α) α))
    (hcap : vs.length + Ref.pushes p ≤ cap) (hp : Ref.NoShift p) :
    Ref.run (Ref.vectorClass grow) (Ref.Vector.ofList vs cap) [] p = Ref.Spec.run Ref.Spec.vector vs [] p :=
  (Ref.vector_sim grow).run p _ vs [] [] ⟨Ref.rel_ofList vs cap, hcap, hp⟩ .nil

example : Ref.NoShift [.bind .first, .call (.push (7 : Nat)), .write 0 5, .call (.pop), .read 0] ∧
    [1, 2].length + Ref.pushes [.bind .first, .call (.push (7 : Nat)), .write 0 5, .call (.pop), .read 0] ≤ 3 ∧
    Ref.Spec.run Ref.Spec.vector [1, 2] [] [.bind .first, .call (.push (7 : Nat)), .write 0 5, .call (.pop), .read 0]
      = .ok ([7, 5], [5, 2]) := by
  refine ⟨?_, by decide, by decide +kernel⟩
  intro s hs
  simp only [List.mem_cons, List.not_mem_nil, or_false] at hs
  rcases hs with rfl | rfl | rfl | rfl | rfl <;> trivial

/-- **C140.**  Vector: for every program, exactly which references stay valid.  Calls which only look at elements or assign to
them keep all; `pop` loses the last element, `erase` everything from its place on; `push` and `insert` lose all references when
the capacity is used up, and `insert` otherwise those from its place on.  A reference that has not been lost stands for the
element it was made for; the use of a lost one is undefined. -/
theorem C140_vector_exact_partial (grow : Nat → Nat) (vs : List α) (cap : Nat) (p : List (Ref.Stmt (Vector.Call α) α)) :
    Ref.run (Ref.vectorClass grow) (Ref.Vector.ofList vs cap) [] p = Ref.Spec.vecRun grow vs cap [] p :=
  Ref.vec_run grow p _ vs [] [] (Ref.rel_ofList vs cap) .nil

/-- With room for one more element, the insertion keeps the reference in front of it and loses the one behind it; the push to
the then full Vector loses the other one too. -/
example : Ref.Spec.vecRun (2 * · ) [1, 2, 3] 4 [] [.bind .first, .bind .last, .call (.insert 1 (9 : Nat)), .write 0 5, .read 0]
      = .ok ([5], [5, 9, 2, 3]) ∧
    Ref.Spec.vecRun (2 * · ) [1, 2, 3] 4 [] [.bind .first, .bind .last, .call (.insert 1 (9 : Nat)), .read 1] = .ub ∧
    Ref.Spec.vecRun (2 * · ) [1, 2, 3] 4 [] [.bind .first, .call (.insert 1 (9 : Nat)), .call (.push 8), .read 0] = .ub ∧
    Ref.Spec.vecRun (2 * · ) [1, 2, 3] 4 [] [.call (.insert 1 (9 : Nat)), .call (.push 8), .bind .first, .call (.push 7), .read 0]
      = .ok ([1], [1, 9, 2, 3, 8, 7]) := by decide +kernel

end Cont.Props
