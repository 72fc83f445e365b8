import Verif.Proof.ContLoop
import Mathlib.Order.Nat

/-! # Loops over containers whose body uses the container: property C176 -/

namespace Cont.Props
open Cpp Cont.Loop

variable {α σ : Type}

/-- **C176, List.**  `for (auto& x : list) body` for every body, whatever members of the List it calls: the variables and the
values in the List at the end are those of the loop over positions, and it is undefined, exits or never ends exactly if that
does. -/
theorem C176_list [LinearOrder α] (body : σ → Body (Lst.Call α) α σ) (n : Nat) (st : σ) (vs : List α) :
    (forList body n st (ofList vs) >>= fun y => Out.ok (y.1, y.2.1.contents)) = Loop.Spec.loop Ref.Spec.list body n st vs 0 := by
  have h := rounds_agree body n st (ofList vs) vs 0 (rel_ofListL vs)
  rw [forList, List.head?_eq_getElem?]
  revert h
  cases Loop.Spec.loop Ref.Spec.list body n st vs 0 <;> cases rounds body n st (ofList vs) (ofList vs).nodes[0]? <;> intro h <;>
    first | exact h.elim | rfl | skip
  next a b =>
  obtain ⟨a1, a2⟩ := a
  obtain ⟨e, h⟩ := h
  dsimp only at e h
  rw [Out.ok_bind, h.contents, e]

/-- **C176, each element once.**  If the body neither breaks nor reorders the List, then the elements that were there before
the loop and are still there after it have kept their order, and each of them was visited exactly once, in this order, whatever
else was inserted and erased meanwhile. -/
theorem C176_once [LinearOrder α] (body : σ → Body (Lst.Call α) α σ) (hb : ∀ st, Loop.Spec.Steady (body st)) (n : Nat) (st st' : σ)
    (vs : List α) (s' : Ref.Obj α) (vis : List Nat) (h : forList body n st (ofList vs) = .ok (st', s', vis)) :
    vis.filter (fun r => r ∈ (ofList vs).nodes ∧ r ∈ s'.nodes) = (ofList vs).nodes.filter (· ∈ s'.nodes) ∧
    s'.nodes.filter (· ∈ (ofList vs).nodes) = (ofList vs).nodes.filter (· ∈ s'.nodes) := by
  rw [forList, List.head?_eq_getElem?] at h
  obtain ⟨k, e⟩ := rounds_keep vs.length body hb n st (ofList vs) vs 0 st' s' vis (rel_ofListL vs) (Nat.le_refl _) h
  have hm : ∀ r, r ∈ (ofList vs).nodes ↔ r < vs.length := fun r => List.mem_range
  have h1 : s'.nodes.filter (· ∈ (ofList vs).nodes) = s'.nodes.filter (· < vs.length) := List.filter_congr fun r _ => by simp [hm]
  have h2 : (ofList vs).nodes.filter (· < vs.length) = (ofList vs).nodes :=
    List.filter_eq_self.2 fun r hr => by simpa using (hm r).1 hr
  have h3 := k.all
  rw [h2] at h3
  refine ⟨?_, by rw [h1, h3]⟩
  rw [← h3, ← e, List.take_zero, List.nil_append, List.filter_filter]
  refine List.filter_congr fun r _ => ?_
  simp [hm, Bool.and_comm]

/-- **C176, plain loops.**  A body that only reads and assigns its variable sees every value of the List once, in order, and
the values assigned are those in the List afterwards. -/
theorem C176_plain [LinearOrder α] (f : σ → α → σ × α) (n : Nat) (st : σ) (vs : List α) (hn : vs.length < n) :
    (forList (fun st => .read fun x => .write (f st x).2 (.done (f st x).1)) n st (ofList vs) >>= fun y => Out.ok (y.1, y.2.1.contents)) =
      .ok (Loop.Spec.sweep f st vs) := by
  rw [C176_list]
  exact loop_sweep Ref.Spec.list f vs [] st n hn

/-- **C176, Vector, partial.**  For bodies that leave the length of the Vector as it is (they may call `get`, `set`, `first`,
`last`, `size`, read and assign the variable, and break).  Missing: bodies that insert or remove elements, see
`C176_vector_refuted`. -/
theorem C176_vector_partial (grow : Nat → Nat) (body : σ → Body (Vector.Call α) α σ) (hb : ∀ st, Loop.Spec.Quiet (body st)) (n cap : Nat)
    (st : σ) (vs : List α) :
    (forVector grow body n st (Ref.Vector.ofList vs cap) >>= fun y => Out.ok (y.1, y.2.1.toObj.contents)) =
      Loop.Spec.loop Ref.Spec.vector body n st vs 0 := by
  have h := roundsV_agree grow body hb n st (Ref.Vector.ofList vs cap) vs 0 (Ref.rel_ofList vs cap)
  rw [forVector, List.head?_eq_getElem?]
  revert h
  cases Loop.Spec.loop Ref.Spec.vector body n st vs 0 <;>
    cases roundsV grow body n st (Ref.Vector.ofList vs cap) (Ref.Vector.ofList vs cap).nodes[0]? <;> intro h <;>
    first | exact h.elim | rfl | skip
  next a b =>
  obtain ⟨a1, a2⟩ := a
  obtain ⟨e, h⟩ := h
  dsimp only at e h
  rw [Out.ok_bind, h.contents, e]

/-- **C176, Vector, all bodies.**  What a loop over a Vector does exactly: as over positions, but a round that inserted or removed an
element must end with a `break`, and the variable may be used only as long as its reference has survived (C140). -/
theorem C176_vector (grow : Nat → Nat) (body : σ → Body (Vector.Call α) α σ) (n cap : Nat) (st : σ) (vs : List α) :
    (forVector grow body n st (Ref.Vector.ofList vs cap) >>= fun y => Out.ok (y.1, y.2.1.toObj.contents)) =
      Loop.Spec.vloop grow body n st vs cap 0 := by
  have h := vloop_agree grow body n st (Ref.Vector.ofList vs cap) vs 0 (Ref.rel_ofList vs cap)
  rw [forVector, List.head?_eq_getElem?]
  rw [show (Ref.Vector.ofList vs cap).cap = cap from rfl] at h
  revert h
  cases Loop.Spec.vloop grow body n st vs cap 0 <;>
    cases roundsV grow body n st (Ref.Vector.ofList vs cap) (Ref.Vector.ofList vs cap).nodes[0]? <;> intro h <;>
    first | exact h.elim | rfl | skip
  next a b =>
  obtain ⟨a1, a2⟩ := a
  obtain ⟨e, h⟩ := h
  dsimp only at e h
  rw [Out.ok_bind, h.contents, e]

/-- **C176, Vector, plain loops.** -/
theorem C176_vector_plain (grow : Nat → Nat) (f : σ → α → σ × α) (n cap : Nat) (st : σ) (vs : List α) (hn : vs.length < n) :
    (forVector grow (fun st => .read fun x => .write (f st x).2 (.done (f st x).1)) n st (Ref.Vector.ofList vs cap) >>=
      fun y => Out.ok (y.1, y.2.1.toObj.contents)) = .ok (Loop.Spec.sweep f st vs) := by
  rw [C176_vector_partial grow _ (by intro st; simp [Loop.Spec.Quiet])]
  exact loop_sweep Ref.Spec.vector f vs [] st n hn

/-- **C176, Vector, refuted.**  A `push` in a loop over a Vector that is not empty is undefined at the end of the round,
however much room there is: the `end()` the loop compares with is no longer one. -/
theorem C176_vector_refuted (grow : Nat → Nat) (n cap : Nat) (st : σ) (v x : α) (vs : List α) :
    forVector grow (fun st => .call (.push x) fun _ => .done st) (n + 1) st (Ref.Vector.ofList (v :: vs) cap) = .ub := by
  have hc := Ref.vec_call grow (Ref.rel_ofList (v :: vs) cap) (.push x)
  have hh : (Ref.Vector.ofList (v :: vs) cap).nodes.head? = some 0 := by
    show (List.range (vs.length + 1)).head? = _
    simp [List.range_succ_eq_map]
  rw [forVector, hh]
  revert hc
  cases h2 : Ref.Vector.call grow (Ref.Vector.ofList (v :: vs) cap) (.push x) <;> intro hc <;>
    first | exact hc.elim | skip
  simp [roundsV, execV, h2, Stays]

/-- **C176, List, refuted.**  Pushing to the List in every round never ends, for no number of rounds. -/
theorem C176_push_refuted [LinearOrder α] (x v : α) (vs : List α) (n : Nat) :
    forList (fun _ : Unit => .call (.push x) fun _ => .done ()) n () (ofList (v :: vs)) = .diverge := by
  have h : ∀ (n : Nat) (ws : List α) (p : Nat), p < ws.length →
      Loop.Spec.loop Ref.Spec.list (fun _ : Unit => .call (.push x) fun _ => .done ()) n () ws p = .diverge := by
    intro n
    induction n with
    | zero => intro ws p _; rfl
    | succ n ih =>
      intro ws p hp
      have := ih (ws ++ [x]) (p + 1) (by simp; omega)
      simp [Loop.Spec.loop, hp, Loop.Spec.exec, Ref.Spec.list, Lst.call, Lst.push, Ref.Spec.listMove] at this ⊢
      exact this
  have h1 := C176_list (fun _ : Unit => Body.call (Lst.Call.push x) fun _ => .done ()) n () (v :: vs)
  rw [h n (v :: vs) 0 (by simp)] at h1
  revert h1
  cases forList (fun _ : Unit => Body.call (Lst.Call.push x) fun _ => .done ()) n () (ofList (v :: vs)) <;> intro h1 <;>
    first | rfl | cases h1

/-- **C176, List, refuted.**  Erasing the current element in a loop is undefined, here the first one. -/
theorem C176_erase_refuted [LinearOrder α] (st : σ) (v : α) (vs : List α) (n : Nat) :
    forList (fun st : σ => .call (.erase 0) fun _ => .done st) (n + 1) st (ofList (v :: vs)) = .ub := by
  have h1 := C176_list (fun st : σ => Body.call (Lst.Call.erase 0) fun _ => .done st) (n + 1) st (v :: vs)
  have h2 : Loop.Spec.loop Ref.Spec.list (fun st : σ => Body.call (Lst.Call.erase 0) fun _ => .done st) (n + 1) st (v :: vs) 0 = .ub := by
    have e1 : ¬ (vs.length : Int) + 1 ≤ 0 := by omega
    have e2 : (0 : Int) ≤ vs.length + 1 := by omega
    simp [e1, e2, Loop.Spec.loop, Loop.Spec.exec, Ref.Spec.list, Lst.call, Lst.erase, Lst.boundaryCheck, Stl.advance, Stl.eraseAt, Ref.Spec.listMove]
  rw [h2] at h1
  revert h1
  cases forList (fun st : σ => Body.call (Lst.Call.erase 0) fun _ => .done st) (n + 1) st (ofList (v :: vs)) <;> intro h1 <;>
    first | rfl | cases h1

/-- **C176, each element once, refuted** for bodies that reorder the List: with a `reverse()` in the second round of a loop over
four elements the first one is visited twice and the last two never, although all stay in the List. -/
theorem C176_once_refuted :
    (forList (fun n : Nat => if n = 1 then .call .reverse fun _ => .done (n + 1) else .done (n + 1)) 10 0 (ofList [1, 2, 3, 4]) >>=
      fun y => Out.ok (y.1, y.2.1.nodes, y.2.2)) = .ok (3, [3, 2, 1, 0], [0, 1, 0]) := by decide +kernel

/-! ## concrete cases -/

/-- `for (auto& x : {1, 2, 3}) if (x == 2) { list.push_front(9); list.pop(); } else { x = 10 * x; sum += x; }` -/
def loopDemo : Nat → Body (Lst.Call Nat) Nat Nat := fun sum =>
  .read fun x => if x = 2 then .call (.pushFront 9) fun _ => .call .pop fun _ => .done sum
    else .write (10 * x) (.done (sum + 10 * x))

example : (forList loopDemo 10 0 (ofList [1, 2, 3]) >>= fun y => Out.ok (y.1, y.2.1.contents, y.2.2, y.2.1.nodes)) =
    .ok (10, [9, 10, 2], [0, 1], [3, 0, 1]) := by decide +kernel

example : ∀ st, Loop.Spec.Steady (loopDemo st) := by
  intro st x
  by_cases h : x = 2 <;> simp [h, Loop.Spec.Steady]

example : Loop.Spec.sweep (fun s x => (s + x, s)) 0 [1, 2, 3] = (6, [0, 1, 3]) := by decide

example : (forVector (fun c => 2 * c) (fun s : Nat => .read fun x => .call (.get 0) fun y => .write (x + y.getD 0) (.done (s + x))) 10 0
    (Ref.Vector.ofList [1, 2, 3] 3) >>= fun y => Out.ok (y.1, y.2.1.toObj.contents)) = .ok (6, [2, 4, 5]) := by decide +kernel

/-- `for (auto& x : v) if (x == 2) { v.push(7); x = 5; break; }` -/
def vectorLoopDemo : Unit → Body (Vector.Call Nat) Nat Unit := fun _ =>
  .read fun x => if x = 2 then .call (.push 7) fun _ => .write 5 (.stop ()) else .done ()

/-- with room for one more element, and without -/
example : (forVector (fun c => 2 * c) vectorLoopDemo 10 () (Ref.Vector.ofList [1, 2, 3] 4) >>= fun y => Out.ok y.2.1.toObj.contents) =
    .ok [1, 5, 3, 7] := by decide +kernel
example : (forVector (fun c => 2 * c) vectorLoopDemo 10 () (Ref.Vector.ofList [1, 2, 3] 3) >>= fun y => Out.ok y.2.1.toObj.contents) =
    .ub := by decide +kernel

end Cont.Props
