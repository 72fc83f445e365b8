import Verif.Proof.ContRef3

/-! # List, Stack, Queue and Vector follow the specification -/

open Cpp

namespace Cont.Ref

variable {α : Type}

/-- a call that changes the container and returns nothing -/
theorem agree_change {S T : Type} {P : T → S → Prop} {Q : Option α × T → Option α × S → Prop} {v : Out T} {n : Out S}
    (ha : Agree P v n) (h : ∀ t s, P t s → Q (none, t) (none, s)) :
    Agree Q (v >>= fun t => .ok (none, t)) (n >>= fun s => .ok (none, s)) := by
  revert ha
  cases v <;> cases n <;> intro ha <;>
    first
    | exact ha.elim
    | trivial
    | exact h _ _ ha

/-- a call that changes the container and returns a value -/
theorem agree_both {S T : Type} {P : α × T → α × S → Prop} {Q : Option α × T → Option α × S → Prop} {v : Out (α × T)}
    {n : Out (α × S)} (ha : Agree P v n) (h : ∀ x t y s, P (x, t) (y, s) → Q (some x, t) (some y, s)) :
    Agree Q (v >>= fun a => .ok (some a.1, a.2)) (n >>= fun a => .ok (some a.1, a.2)) := by
  revert ha
  cases v <;> cases n <;> intro ha <;>
    first
    | exact ha.elim
    | trivial
    | exact h _ _ _ _ ha

theorem list_sim [LinearOrder α] : Sim (listClass (α := α)) Spec.list (fun s vs _ => Rel s vs) where
  rel := fun _ _ _ h => h
  skip := fun _ _ _ _ _ h => h
  upd := fun _ _ _ _ _ _ h _ => ⟨h, rfl⟩
  ref := by
    intro s vs _ a h
    cases a with
    | «at» i =>
      show Agree _ (Spec.position vs (.at i)) (Lst.at' s i)
      rw [list_at_eq]
      exact agree_at h i
    | first => exact agree_first h
    | last => exact agree_last h
  call := by
    intro s vs c _ h
    cases c with
    | get i =>
      have h1 := agree_read h (agree_at h i) (position_at vs i)
      rw [← list_get_eq, ← list_at_eq] at h1
      have := agree_reader (R := Rel) id h h1 some (fun _ => rfl)
      simp only [bind_assoc, id] at this
      exact this
    | first =>
      have h1 := agree_read h (agree_first h) (position_first vs)
      have := agree_reader (R := Rel) id h h1 some (fun _ => rfl)
      simp only [bind_assoc, id] at this
      exact this
    | last =>
      have h1 := agree_read h (agree_last h) (position_last vs)
      have := agree_reader (R := Rel) id h h1 some (fun _ => rfl)
      simp only [bind_assoc, id] at this
      exact this
    | clear => exact ⟨rfl, h.clear, moved_clear _ _ fun _ => rfl⟩
    | insert i x =>
      have ha := agree_insert h i x (Spec.listMove vs (.insert i x)) fun _ => rfl
      refine agree_change (v := Cont.Lst.insert vs i x) (n := Lst.insert s i x) ha ?_
      intro t s' hp
      exact ⟨rfl, hp⟩
    | erase i =>
      have ha := agree_erase h i (Spec.listMove vs (.erase i)) fun _ => rfl
      refine agree_change (v := Cont.Lst.erase vs i) (n := Lst.erase s i) ha ?_
      intro t s' hp
      exact ⟨rfl, hp⟩
    | push x => exact ⟨rfl, rel_push h x, moved_push h x _ fun _ => rfl⟩
    | pushFront x =>
      refine ⟨rfl, Rel.insert (a := []) (na := []) h rfl rfl x, moved_insert h (na := []) rfl x _ ?_⟩
      intro p hp
      show some (p + 1) = _
      simp
    | pop =>
      have ha := agree_pop h (Spec.listMove vs .pop) fun _ => rfl
      refine agree_both (v := Cont.Lst.pop vs) (n := pop s) ha ?_
      intro _ _ _ _ hp
      exact ⟨congrArg some hp.1, hp.2⟩
    | popFront =>
      have ha := agree_popFront h (Spec.listMove vs .popFront) fun _ => rfl
      refine agree_both (v := Cont.Lst.popFront vs) (n := popFront s) ha ?_
      intro _ _ _ _ hp
      exact ⟨congrArg some hp.1, hp.2⟩
    | sort => exact ⟨rfl, agree_sort h⟩
    | reverse => exact ⟨rfl, agree_reverse h _ fun _ => rfl⟩

theorem clearGo_stack (n : Nat) (s : List α) (h : s.length = n) : Cont.Stack.clearGo n s = .ok [] := by
  induction n generalizing s with
  | zero => simp [Cont.Stack.clearGo, List.length_eq_zero_iff.1 h]
  | succ n ih =>
    have : s ≠ [] := by rintro rfl; simp at h
    simp only [Cont.Stack.clearGo, Stl.popBack, this, if_false, Out.ok_bind]
    exact ih _ (by simp [h])

theorem stack_sim : Sim (stackClass (α := α)) Spec.stack (fun s vs _ => Rel s vs) where
  rel := fun _ _ _ h => h
  skip := fun _ _ _ _ _ h => h
  upd := fun _ _ _ _ _ _ h _ => ⟨h, rfl⟩
  ref := fun _ _ _ _ h => agree_last h
  call := by
    intro s vs c _ h
    cases c with
    | push x => exact ⟨rfl, rel_push h x, moved_push h x _ fun _ => rfl⟩
    | pop =>
      have ha := agree_pop h (Spec.stack.move vs .pop) fun _ => rfl
      refine agree_both (v := Cont.Stack.pop vs) (n := pop s) ha ?_
      intro _ _ _ _ hp
      exact ⟨congrArg some hp.1, hp.2⟩
    | top =>
      have h1 := agree_read h (agree_last h) (position_last vs)
      have := agree_reader (R := Rel) id h h1 some (fun _ => rfl)
      simp only [bind_assoc, id] at this
      exact this
    | clear =>
      show Agree _ (Cont.Stack.clear vs >>= fun t => .ok (none, t)) (.ok (none, clear s))
      rw [Cont.Stack.clear, clearGo_stack _ _ rfl]
      exact ⟨rfl, h.clear, moved_clear _ _ fun _ => rfl⟩

theorem queue_sim : Sim (queueClass (α := α)) Spec.queue (fun s vs _ => Rel s vs) where
  rel := fun _ _ _ h => h
  skip := fun _ _ _ _ _ h => h
  upd := fun _ _ _ _ _ _ h _ => ⟨h, rfl⟩
  ref := by
    intro s vs _ a h
    by_cases hv : vs = []
    · have hn := (nodes_nil h).2 hv
      cases a <;> simp [Spec.queue, queueClass, Queue.first, Queue.last, Stl.front, Stl.back, hv, hn, Agree]
    · have hn : s.nodes ≠ [] := fun e => hv ((nodes_nil h).1 e)
      have h1 := agree_first h
      have h2 := agree_last h
      simp only [Spec.position, first, last, if_neg hv, if_neg hn] at h1 h2
      cases a <;> simp only [Spec.queue, queueClass, Queue.first, Queue.last, if_neg hv] <;> assumption
  call := by
    intro s vs c _ h
    cases c with
    | enqueue x => exact ⟨rfl, rel_push h x, moved_push h x _ fun _ => rfl⟩
    | dequeue =>
      have := agree_both (agree_popFront h (Spec.queue.move vs .dequeue) fun _ => rfl)
        (Q := fun a b => a.1 = b.1 ∧ Rel b.2 a.2 ∧ Moved s b.2 (Spec.queue.move vs .dequeue))
        fun _ _ _ _ hp => ⟨congrArg some hp.1, hp.2⟩
      have e : (Cont.Lst.popFront vs >>= fun a => .ok (some a.1, a.2)) = Spec.queue.call vs .dequeue := by
        cases vs <;> simp [Cont.Lst.popFront, Cont.Lst.emptyCheck, Spec.queue, Stl.front, Stl.popFront]
      rw [e] at this
      exact this

/-- what a Vector needs for the rest of the program -/
def VecRel (v : Vector.Vec α) (vs : List α) (p : List (Stmt (Vector.Call α) α)) : Prop :=
  Rel v.toObj vs ∧ vs.length + pushes p ≤ v.cap ∧ NoShift p

theorem pushes_cons (t : Stmt (Vector.Call α) α) (p : List (Stmt (Vector.Call α) α)) : pushes p ≤ pushes (t :: p) := by
  unfold pushes
  rw [List.countP_cons]
  omega

theorem noShift_cons {t : Stmt (Vector.Call α) α} {p : List (Stmt (Vector.Call α) α)} (h : NoShift (t :: p)) : NoShift p :=
  fun s hs => h s (List.mem_cons_of_mem _ hs)

theorem vector_sim (grow : Nat → Nat) : Sim (vectorClass (α := α) grow) Spec.vector VecRel where
  rel := fun _ _ _ h => h.1
  skip := fun _ _ t p _ h => ⟨h.1, by have := h.2.1; have := pushes_cons t p; omega, noShift_cons h.2.2⟩
  upd := fun _ _ _ _ _ h hr hl => ⟨⟨hr, by rw [hl]; exact h.2.1, h.2.2⟩, rfl⟩
  ref := by
    intro v vs _ a h
    cases a with
    | «at» i => exact agree_at h.1 i
    | first => exact agree_first h.1
    | last => exact agree_last h.1
  call := by
    intro v vs c p hR
    obtain ⟨h, hcap, hns⟩ := hR
    have hle := pushes_cons (.call c) p
    have hns' := noShift_cons hns
    have hkeep : VecRel v vs p := ⟨h, by omega, hns'⟩
    cases c with
    | get i =>
      have h1 := agree_read h (agree_at h i) (position_at vs i)
      have := agree_reader (R := fun v vs => VecRel v vs p) (fun v => v.toObj) hkeep h1 some (fun _ => rfl)
      simp only [bind_assoc] at this
      exact this
    | first =>
      have h1 := agree_read h (agree_first h) (position_first vs)
      have := agree_reader (R := fun v vs => VecRel v vs p) (fun v => v.toObj) hkeep h1 some (fun _ => rfl)
      simp only [bind_assoc] at this
      exact this
    | last =>
      have h1 := agree_read h (agree_last h) (position_last vs)
      have := agree_reader (R := fun v vs => VecRel v vs p) (fun v => v.toObj) hkeep h1 some (fun _ => rfl)
      simp only [bind_assoc] at this
      exact this
    | clear => exact ⟨rfl, ⟨h.clear, by simp only [List.length_nil]; omega, hns'⟩, moved_clear _ _ fun _ => rfl⟩
    | insert i x => exact absurd (hns _ List.mem_cons_self) (by simp)
    | erase i => exact absurd (hns _ List.mem_cons_self) (by simp)
    | set i x =>
      show Agree _ (Cont.Vector.set vs i x >>= fun t => .ok (none, t)) (Vector.set v i x >>= fun t => .ok (none, t))
      have ha := agree_at h i
      unfold Cont.Vector.set Vector.set Cont.Vector.boundaryCheck Stl.setAt
      unfold Spec.position at ha
      dsimp only at ha
      revert ha
      by_cases hi : 0 ≤ i ∧ i < vs.length
      · rw [if_pos hi, if_neg (by omega)]
        cases hat : at' v.toObj i <;> intro ha <;>
          first
          | exact ha.elim
          | skip
        next r =>
        have ha : v.nodes[i.toNat]? = some r := ha
        simp only [Out.ok_bind]
        rw [if_pos (by omega)]
        obtain ⟨hw, hrel⟩ := h.write ha x
        simp only [hw, Out.ok_bind]
        refine ⟨rfl, ⟨hrel, by simpa using hkeep.2.1, hns'⟩, ?_⟩
        have := moved_refl v.toObj
        exact this
      · rw [if_neg hi, if_pos (by omega)]
        cases hat : at' v.toObj i <;> intro ha <;>
          first
          | exact ha.elim
          | trivial
    | push x =>
      have hp : pushes (.call (.push x) :: p) = pushes p + 1 := by simp [pushes]
      have hlt : v.nodes.length < v.cap := by rw [h.length]; omega
      show Agree _ (.ok (none, vs ++ [x])) (Vector.push grow v x >>= fun t => .ok (none, t))
      unfold Vector.push Vector.insertAt
      simp only [List.take_length, List.drop_length, Vector.renew, ge_iff_le, Nat.not_le.2 hlt,
        if_false, Nat.le_refl, if_true, Out.ok_bind]
      refine ⟨rfl, ⟨rel_push h x, ?_, hns'⟩, moved_push h x _ fun _ => rfl⟩
      simp only [List.length_append, List.length_singleton]
      omega
    | pop =>
      have ha := agree_pop h (Spec.vector.move vs .pop) fun _ => rfl
      show Agree _ (Cont.Vector.pop vs >>= fun a => .ok (some a.1, a.2))
        (pop v.toObj >>= fun a => .ok (some a.1, { v with toObj := a.2 }))
      revert ha
      cases hp : Cont.Vector.pop vs <;> cases hq : pop v.toObj <;> intro ha <;>
        first
        | exact ha.elim
        | trivial
        | skip
      next a b =>
      obtain ⟨h1, h2, h3⟩ := ha
      refine ⟨congrArg some h1, ⟨h2, ?_, hns'⟩, h3⟩
      have : a.2.length ≤ vs.length := by
        unfold Cont.Vector.pop Cont.Vector.emptyCheck at hp
        by_cases hv : vs = []
        · rw [if_pos hv] at hp
          cases hp
        · rw [if_neg hv] at hp
          simp only [Out.ok_bind, Stl.popBack, hv, if_false] at hp
          obtain ⟨y, -, he⟩ := Out.bind_eq_ok.1 hp
          cases he
          simp
      show a.2.length + pushes p ≤ v.cap
      omega

theorem rel_empty : Rel ({} : Obj α) [] := ⟨List.nodup_nil, rfl, fun _ h => absurd rfl h, fun _ h => absurd rfl h⟩

theorem rel_ofList (vs : List α) (cap : Nat) : Rel (Vector.ofList vs cap).toObj vs := by
  refine ⟨List.nodup_range, ?_, ?_, ?_⟩
  · apply List.ext_getElem?
    intro i
    show ((List.range vs.length).map fun i => vs[i]?)[i]? = (vs.map some)[i]?
    by_cases hi : i < vs.length
    · simp [hi]
    · simp [hi]
  · intro r hr
    show r < vs.length
    by_contra hc
    exact hr (List.getElem?_eq_none (Nat.not_lt.1 hc))
  · intro r hr
    show r ∈ List.range vs.length
    rw [List.mem_range]
    by_contra hc
    exact hr (List.getElem?_eq_none (Nat.not_lt.1 hc))

/-- Names that are not in use stay so. -/
theorem renew_dead (rs : List Nat) : ∀ (s : Obj α) (r : Nat), r < s.next → s.mem r = none →
    (Vector.renew s rs).1.mem r = none ∧ r < (Vector.renew s rs).1.next := by
  induction rs with
  | nil => exact fun s r h1 h2 => ⟨h2, h1⟩
  | cons r' rs ih =>
    intro s r h1 h2
    unfold Vector.renew
    cases hm : s.mem r' with
    | none => exact ih s r h1 h2
    | some x =>
      refine ih _ r ?_ ?_
      · show r < s.next + 1
        omega
      · show (if r = s.next then some x else if r = r' then none else s.mem r) = none
        rw [if_neg (by omega)]
        split
        · rfl
        · exact h2

/-- References are invalidated. -/
theorem renew_mem (rs : List Nat) : ∀ (s : Obj α) (r : Nat), r < s.next → r ∈ rs → (Vector.renew s rs).1.mem r = none := by
  induction rs with
  | nil => exact fun _ _ _ h => absurd h List.not_mem_nil
  | cons r' rs ih =>
    intro s r h1 h2
    unfold Vector.renew
    rcases List.mem_cons.1 h2 with rfl | h2
    · cases hm : s.mem r with
      | none => exact (renew_dead rs s r h1 hm).1
      | some x =>
        refine (renew_dead rs _ r ?_ ?_).1
        · show r < s.next + 1
          omega
        · show (if r = s.next then some x else if r = r then none else s.mem r) = none
          rw [if_neg (by omega), if_pos rfl]
    · cases hm : s.mem r' with
      | none => exact ih s r h1 h2
      | some x => exact ih _ r (by show r < s.next + 1; omega) h2

/-- A full Vector gives up all its references when something is pushed. -/
theorem push_full (grow : Nat → Nat) (v : Vector.Vec α) (x : α) (hc : v.cap ≤ v.nodes.length) :
    ∃ v', Vector.push grow v x = .ok v' ∧ ∀ r ∈ v.nodes, r < v.next → v'.mem r = none := by
  unfold Vector.push Vector.insertAt
  simp only [ge_iff_le, hc, if_true, List.take_length, List.drop_length, Nat.le_refl, Vector.renew]
  refine ⟨_, rfl, ?_⟩
  intro r hr hlt
  have h1 := renew_mem v.nodes v.toObj r hlt hr
  have h2 : r < (Vector.renew v.toObj v.nodes).1.next := by
    have : ∀ (rs : List Nat) (s : Obj α), s.next ≤ (Vector.renew s rs).1.next := by
      intro rs
      induction rs with
      | nil => exact fun _ => Nat.le_refl _
      | cons r' rs ih =>
        intro s
        unfold Vector.renew
        cases hm : s.mem r' with
        | none => exact ih s
        | some y => exact Nat.le_trans (Nat.le_succ s.next) (ih ((s.free r').new y).2)
    exact Nat.lt_of_lt_of_le hlt (this _ _)
  show (if r = (Vector.renew v.toObj v.nodes).1.next then some x else (Vector.renew v.toObj v.nodes).1.mem r) = none
  rw [if_neg (by omega), h1]

/-- Erasing an element of a Vector gives up the references to the later ones. -/
theorem erase_later (v : Vector.Vec α) (i : Nat) (hi : i < v.nodes.length) :
    ∃ v', Vector.erase v i = .ok v' ∧ ∀ r ∈ v.nodes.drop (i + 1), r < v.next → v'.mem r = none := by
  unfold Vector.erase boundaryCheck Stl.advance Stl.at'
  rw [if_neg (by omega)]
  simp only [Out.ok_bind]
  rw [if_pos (by omega)]
  simp only [Out.ok_bind]
  have e : (((0 : Nat) : Int) + (i : Int)).toNat = i := by omega
  simp only [e, List.getElem?_eq_getElem hi, Out.ok_bind]
  exact ⟨_, rfl, fun r hr hlt => renew_mem _ _ r hlt hr⟩

end Cont.Ref
