import Verif.Proof.ContRef

/-! # The container classes follow the specification of references -/

open Cpp

namespace Cont.Ref

variable {α : Type}

theorem walk_eq (l : List α) (n : Nat) : Cont.Lst.walk l n = Stl.at' l n := by
  induction l generalizing n with
  | nil => simp [Cont.Lst.walk, Stl.at']
  | cons x l ih =>
    cases n with
    | zero => simp [Cont.Lst.walk, Stl.at']
    | succ n => rw [Cont.Lst.walk, ih]; simp [Stl.at']

theorem back_eq (l : List α) (_ : l ≠ []) : Stl.back l = Stl.at' l (l.length - 1) := by
  unfold Stl.back Stl.at'
  rw [List.getLast?_eq_getElem?]

theorem front_eq (l : List α) : Stl.front l = Stl.at' l 0 := by
  cases l <;> simp [Stl.front, Stl.at']

/-- how `operator[]`, `first` and `last` find the element -/
theorem agree_at {s : Obj α} {vs : List α} (h : Rel s vs) (i : Int) :
    Agree (fun q r => s.nodes[q]? = some r) (Spec.position vs (.at i)) (at' s i) := by
  unfold Spec.position at' boundaryCheck Stl.at'
  rw [h.length]
  by_cases hi : 0 ≤ i ∧ i < vs.length
  · dsimp only
    rw [if_pos hi, if_neg (by omega)]
    simp only [Out.ok_bind]
    have hlt : i.toNat < s.nodes.length := by rw [h.length]; omega
    rw [List.getElem?_eq_getElem hlt]
    exact List.getElem?_eq_getElem hlt
  · dsimp only
    rw [if_neg hi, if_pos (by omega)]
    trivial

theorem list_at_eq (s : Obj α) (i : Int) : Lst.at' s i = at' s i := by
  unfold Lst.at' at'
  simp only [walk_eq]

theorem nodes_nil {s : Obj α} {vs : List α} (h : Rel s vs) : s.nodes = [] ↔ vs = [] := by
  rw [← List.length_eq_zero_iff, ← List.length_eq_zero_iff, h.length]

theorem agree_first {s : Obj α} {vs : List α} (h : Rel s vs) :
    Agree (fun q r => s.nodes[q]? = some r) (Spec.position vs .first) (first s) := by
  unfold Spec.position first
  by_cases hv : vs = []
  · dsimp only
    rw [if_pos hv, if_pos ((nodes_nil h).2 hv)]
    trivial
  · have hn : s.nodes ≠ [] := fun e => hv ((nodes_nil h).1 e)
    dsimp only
    rw [if_neg hv, if_neg hn, front_eq]
    unfold Stl.at'
    have hlt : 0 < s.nodes.length := List.length_pos_iff.2 hn
    rw [List.getElem?_eq_getElem hlt]
    exact List.getElem?_eq_getElem hlt

theorem agree_last {s : Obj α} {vs : List α} (h : Rel s vs) :
    Agree (fun q r => s.nodes[q]? = some r) (Spec.position vs .last) (last s) := by
  unfold Spec.position last
  by_cases hv : vs = []
  · dsimp only
    rw [if_pos hv, if_pos ((nodes_nil h).2 hv)]
    trivial
  · have hn : s.nodes ≠ [] := fun e => hv ((nodes_nil h).1 e)
    dsimp only
    rw [if_neg hv, if_neg hn, back_eq _ hn]
    unfold Stl.at'
    have hlt : s.nodes.length - 1 < s.nodes.length := by have := List.length_pos_iff.2 hn; omega
    rw [← h.length, List.getElem?_eq_getElem hlt]
    exact List.getElem?_eq_getElem hlt

/-- reading the element found is the call on values -/
theorem agree_read {s : Obj α} {vs : List α} (h : Rel s vs) {o : Out Nat} {n : Out Nat} {v : Out α}
    (ha : Agree (fun q r => s.nodes[q]? = some r) o n) (hv : v = o >>= fun q => Stl.at' vs q) :
    Agree Eq v (n >>= fun r => s.read r) := by
  subst hv
  revert ha
  cases o <;> cases n <;> intro ha <;>
    first
    | exact ha.elim
    | trivial
    | skip
  next q r =>
  have ha : s.nodes[q]? = some r := ha
  obtain ⟨x, hx, hm⟩ := h.at ha
  simp only [Out.ok_bind, Stl.at', hx, Obj.read, hm]
  rfl

theorem position_at (vs : List α) (i : Int) :
    Cont.Vector.get vs i = Spec.position vs (.at i) >>= fun q => Stl.at' vs q := by
  unfold Cont.Vector.get Cont.Vector.boundaryCheck Spec.position
  by_cases hi : 0 ≤ i ∧ i < vs.length
  · dsimp only
    rw [if_pos hi, if_neg (by omega)]
    rfl
  · dsimp only
    rw [if_neg hi, if_pos (by omega)]
    rfl

theorem position_first (vs : List α) : Cont.Vector.first vs = Spec.position vs .first >>= fun q => Stl.at' vs q := by
  unfold Cont.Vector.first Cont.Vector.emptyCheck Spec.position
  by_cases hv : vs = []
  · simp [hv]
  · simp [hv, front_eq]

theorem position_last (vs : List α) : Cont.Vector.last vs = Spec.position vs .last >>= fun q => Stl.at' vs q := by
  unfold Cont.Vector.last Cont.Vector.emptyCheck Spec.position
  by_cases hv : vs = []
  · simp [hv]
  · simp [hv, back_eq _ hv]

theorem list_get_eq (vs : List α) (i : Int) : Cont.Lst.get vs i = Cont.Vector.get vs i := by
  unfold Cont.Lst.get Cont.Vector.get
  simp only [walk_eq]
  rfl

/-- a call that only reads -/
theorem agree_reader {S : Type} {R : S → List α → Prop} {s : S} {vs : List α} (obj : S → Obj α) {v : Out α} {n : Out α}
    (h : R s vs) (ha : Agree Eq v n) (mv : Nat → Option Nat) (hmv : ∀ p, mv p = some p) :
    Agree (fun (a : Option α × List α) (b : Option α × S) => a.1 = b.1 ∧ R b.2 a.2 ∧ Moved (obj s) (obj b.2) mv)
      (v >>= fun x => .ok (some x, vs)) (n >>= fun x => .ok (some x, s)) := by
  revert ha
  cases v <;> cases n <;> intro ha <;>
    first
    | exact ha.elim
    | trivial
    | skip
  next x y =>
  have ha : x = y := ha
  subst ha
  refine ⟨rfl, h, ?_⟩
  rw [show mv = some from funext hmv]
  exact moved_refl _

theorem push_eq (s : Obj α) (x : α) : push s x = { (s.new x).2 with nodes := s.nodes ++ s.next :: [] } := rfl

theorem rel_push {s : Obj α} {vs : List α} (h : Rel s vs) (x : α) : Rel (push s x) (vs ++ [x]) := by
  rw [push_eq]
  exact Rel.insert (a := vs) (b := []) (nb := []) (by simpa using h) (by simp) h.length x

theorem moved_push {s : Obj α} {vs : List α} (h : Rel s vs) (x : α) (mv : Nat → Option Nat) (hmv : ∀ p, mv p = some p) :
    Moved s (push s x) mv := by
  rw [push_eq]
  refine moved_insert h (nb := []) (by simp) x mv ?_
  intro p hp
  rw [hmv, if_neg (by rw [h.length]; omega)]

/-- The last element of a sequence that is not empty. -/
theorem snoc_of_ne {β : Type} {l : List β} (h : l ≠ []) : ∃ a x, l = a ++ [x] :=
  ⟨l.dropLast, l.getLast h, (List.dropLast_append_getLast h).symm⟩

theorem agree_pop {s : Obj α} {vs : List α} (h : Rel s vs) (mv : Nat → Option Nat)
    (hmv : ∀ p, mv p = if p + 1 = vs.length then none else some p) :
    Agree (fun (a b : α × _) => a.1 = b.1 ∧ Rel b.2 a.2 ∧ Moved s b.2 mv) (Cont.Vector.pop vs) (pop s) := by
  unfold Cont.Vector.pop Cont.Vector.emptyCheck pop
  by_cases hv : vs = []
  · rw [if_pos hv, if_pos ((nodes_nil h).2 hv)]
    trivial
  · have hn : s.nodes ≠ [] := fun e => hv ((nodes_nil h).1 e)
    rw [if_neg hv, if_neg hn]
    obtain ⟨a, x, rfl⟩ := snoc_of_ne hv
    obtain ⟨na, r, hna⟩ := snoc_of_ne hn
    have hl : na.length = a.length := by
      have := h.length
      rw [hna] at this
      simpa using this
    obtain ⟨h1, h2, -⟩ := Rel.remove (a := a) (b := []) (na := na) (nb := []) h hna hl
    rw [hna]
    simp only [Out.ok_bind, Stl.back, Stl.popBack, List.getLast?_append, List.getLast?_singleton, Option.some_or, Obj.read, h2]
    simp only [List.append_eq_nil_iff, List.cons_ne_nil, and_false, if_false, Out.ok_bind, List.dropLast_append_cons,
      List.dropLast_singleton]
    refine ⟨rfl, h1, moved_remove h hna mv ?_⟩
    intro p hp
    rw [hmv]
    simp only [List.length_append, List.length_singleton] at hp ⊢
    split_ifs <;> first | rfl | omega

theorem agree_popFront {s : Obj α} {vs : List α} (h : Rel s vs) (mv : Nat → Option Nat)
    (hmv : ∀ p, mv p = if p = 0 then none else some (p - 1)) :
    Agree (fun (a b : α × _) => a.1 = b.1 ∧ Rel b.2 a.2 ∧ Moved s b.2 mv) (Cont.Lst.popFront vs) (popFront s) := by
  unfold Cont.Lst.popFront Cont.Lst.emptyCheck popFront
  by_cases hv : vs = []
  · rw [if_pos hv, if_pos ((nodes_nil h).2 hv)]
    trivial
  · have hn : s.nodes ≠ [] := fun e => hv ((nodes_nil h).1 e)
    rw [if_neg hv, if_neg hn]
    obtain ⟨x, b, rfl⟩ := List.exists_cons_of_ne_nil hv
    obtain ⟨r, nb, hnb⟩ := List.exists_cons_of_ne_nil hn
    obtain ⟨h1, h2, -⟩ := Rel.remove (a := []) (b := b) (na := []) (nb := nb) h hnb rfl
    rw [hnb]
    simp only [Out.ok_bind, Stl.front, Stl.popFront, Obj.read, h2]
    refine ⟨rfl, h1, moved_remove h (na := []) hnb mv ?_⟩
    intro p hp
    rw [hmv]
    simp only [List.length_nil]
    split_ifs <;> first | rfl | omega

theorem rel_insert_at {s : Obj α} {vs : List α} (h : Rel s vs) {i : Nat} (hi : i ≤ vs.length) (x : α) :
    Rel { (s.new x).2 with nodes := s.nodes.take i ++ s.next :: s.nodes.drop i } (vs.take i ++ x :: vs.drop i) := by
  refine Rel.insert (by simpa using h) (by simp) ?_ x
  have := h.length
  simp only [List.length_take]
  omega

theorem agree_insert {s : Obj α} {vs : List α} (h : Rel s vs) (i : Int) (x : α) (mv : Nat → Option Nat)
    (hmv : ∀ p : Nat, mv p = if i ≤ p then some (p + 1) else some p) :
    Agree (fun (a : List α) b => Rel b a ∧ Moved s b mv) (Cont.Lst.insert vs i x) (Lst.insert s i x) := by
  unfold Cont.Lst.insert Lst.insert Stl.advance
  rw [h.length]
  by_cases hi : i < 0 ∨ i > vs.length
  · rw [if_pos hi, if_pos hi]
    trivial
  · rw [if_neg hi, if_neg hi]
    have e0 : ((0 : Nat) : Int) + i = i := by omega
    simp only [e0]
    rw [if_pos (by omega)]
    simp only [Out.ok_bind, Stl.insertAt]
    rw [if_pos (by omega), if_pos (by show _ ≤ s.nodes.length; rw [h.length]; omega)]
    simp only [Out.ok_bind]
    refine ⟨rel_insert_at h (by omega) x, moved_insert h (na := s.nodes.take i.toNat) (nb := s.nodes.drop i.toNat) (by simp) x mv ?_⟩
    intro p hp
    rw [hmv]
    have hl : (s.nodes.take i.toNat).length = i.toNat := by simp [h.length]; omega
    rw [hl]
    split_ifs <;> first | rfl | omega

theorem agree_erase {s : Obj α} {vs : List α} (h : Rel s vs) (i : Int) (mv : Nat → Option Nat)
    (hmv : ∀ p : Nat, mv p = if i < p then some (p - 1) else if i = p then none else some p) :
    Agree (fun (a : List α) b => Rel b a ∧ Moved s b mv) (Cont.Lst.erase vs i) (Lst.erase s i) := by
  unfold Cont.Lst.erase Lst.erase Stl.advance Cont.Lst.boundaryCheck boundaryCheck
  rw [h.length]
  by_cases hi : i < 0 ∨ i ≥ vs.length
  · rw [if_pos hi]
    trivial
  · rw [if_neg hi]
    have e0 : ((0 : Nat) : Int) + i = i := by omega
    simp only [e0, Out.ok_bind]
    rw [if_pos (by omega)]
    simp only [Out.ok_bind, Stl.eraseAt, Stl.at']
    have h1 : i.toNat < vs.length := by omega
    have h2 : i.toNat < s.nodes.length := by rw [h.length]; omega
    rw [if_pos h1, List.getElem?_eq_getElem h2]
    simp only [Out.ok_bind]
    rw [if_pos (by exact h2)]
    simp only [Out.ok_bind]
    have e1 : vs = vs.take i.toNat ++ vs[i.toNat] :: vs.drop (i.toNat + 1) := by simp
    have e2 : s.nodes = s.nodes.take i.toNat ++ s.nodes[i.toNat] :: s.nodes.drop (i.toNat + 1) := by simp
    have hl : (s.nodes.take i.toNat).length = i.toNat := by simp [h.length]; omega
    refine ⟨(Rel.remove (r := s.nodes[i.toNat]) (x := vs[i.toNat]) (by rw [← e1]; exact h) e2 (by simp [h.length])).1,
      moved_remove h e2 mv ?_⟩
    intro p hp
    rw [hmv, hl]
    split_ifs <;> first | rfl | omega

theorem agree_reverse {s : Obj α} {vs : List α} (h : Rel s vs) (mv : Nat → Option Nat)
    (hmv : ∀ p : Nat, mv p = some (vs.length - 1 - p)) :
    Rel (Lst.reverse s) vs.reverse ∧ Moved s (Lst.reverse s) mv := by
  refine ⟨h.perm (List.reverse_perm _) (by rw [List.map_reverse, h.vals, List.map_reverse]), ?_⟩
  refine moved_perm (List.reverse_perm _) mv ?_
  intro p r hp
  refine ⟨_, hmv p, ?_⟩
  have hlt := (List.getElem?_eq_some_iff.1 hp).1
  rw [← h.length, List.getElem?_reverse (by omega)]
  rw [show s.nodes.length - 1 - (s.nodes.length - 1 - p) = p from by omega]
  exact hp

end Cont.Ref
