import Verif.Proof.ContRef2
import Mathlib.Order.Basic

/-! # Sorting a list moves the elements as the specification says -/

open Cpp

namespace Cont.Ref

variable {α : Type}

theorem mem_of_pair_sublist {β : Type} {m r : β} : ∀ {A B : List β}, (A ++ r :: B).Nodup → [m, r].Sublist (A ++ r :: B) →
    m ∈ A
  | [], B, hn, h => by
    have hr : r ∉ B := (List.nodup_cons.1 hn).1
    cases h with
    | cons _ h => exact absurd (h.subset (by simp)) hr
    | cons_cons _ h => exact absurd (h.subset (by simp)) hr
  | a :: A, B, hn, h => by
    have hn' : (A ++ r :: B).Nodup := (List.nodup_cons.1 hn).2
    rw [List.cons_append] at h
    generalize hl : A ++ r :: B = l at h
    cases h with
    | cons _ h => exact List.mem_cons_of_mem _ (mem_of_pair_sublist hn' (by rw [hl]; exact h))
    | cons_cons _ h => exact List.mem_cons_self

theorem mem_of_pair_sublist' {β : Type} {m r : β} {A B : List β} (hn : (A ++ r :: B).Nodup)
    (h : [r, m].Sublist (A ++ r :: B)) : m ∈ B := by
  have h' := h.reverse
  rw [List.reverse_append, List.reverse_cons] at h'
  simp only [List.reverse_cons, List.reverse_nil, List.nil_append, List.append_assoc, List.singleton_append] at h'
  have hn' : (B.reverse ++ r :: A.reverse).Nodup := by
    have := List.nodup_reverse.2 hn
    rw [List.reverse_append, List.reverse_cons] at this
    simpa using this
  have := mem_of_pair_sublist hn' h'
  simpa using this

theorem pair_sublist_left {β : Type} {m r : β} {A B : List β} (h : m ∈ A) : [m, r].Sublist (A ++ r :: B) := by
  have h1 : [m].Sublist A := List.singleton_sublist.2 h
  have h2 : [r].Sublist (r :: B) := by simp
  exact h1.append h2

theorem pair_sublist_right {β : Type} {m r : β} {A B : List β} (h : m ∈ B) : [r, m].Sublist (A ++ r :: B) := by
  have h2 : [m].Sublist B := List.singleton_sublist.2 h
  exact (List.nil_sublist A).append (h2.cons_cons r)

/-- The position of an element after a stable sort. -/
theorem mergeSort_pos {β : Type} [DecidableEq β] (le : β → β → Bool) (htr : ∀ a b c, le a b → le b c → le a c)
    (htot : ∀ a b, (le a b || le b a) = true) (P Q : List β) (r : β) (hn : (P ++ r :: Q).Nodup) :
    ((P ++ r :: Q).mergeSort le)[P.countP (fun m => le m r) + Q.countP (fun m => !le r m)]? = some r := by
  have hperm := List.mergeSort_perm (P ++ r :: Q) le
  have hmem : r ∈ (P ++ r :: Q).mergeSort le := by rw [List.mem_mergeSort]; simp
  obtain ⟨A, B, hAB⟩ := List.append_of_mem hmem
  have hn' : (A ++ r :: B).Nodup := by rw [← hAB]; exact hperm.nodup_iff.2 hn
  have hsort := List.pairwise_mergeSort (le := le) htr htot (P ++ r :: Q)
  rw [hAB] at hsort
  have hpair : ∀ a b, le a b → [a, b].Sublist (P ++ r :: Q) → [a, b].Sublist (A ++ r :: B) := by
    intro a b h1 h2
    rw [← hAB]
    exact List.pair_sublist_mergeSort htr htot h1 h2
  have hndA := List.nodup_append.1 hn'
  have hndP := List.nodup_append.1 hn
  have hrP : r ∉ P := fun h => hndP.2.2 r h r (by simp) rfl
  have hrQ : r ∉ Q := (List.nodup_cons.1 hndP.2.1).1
  have hrB : r ∉ B := (List.nodup_cons.1 hndA.2.1).1
  have hrA : r ∉ A := fun h => hndA.2.2 r h r (by simp) rfl
  have hPQ : ∀ m, m ∈ P → m ∉ Q := fun m h1 h2 => hndP.2.2 m h1 m (by simp [h2]) rfl
  have hABd : ∀ m, m ∈ A → m ∉ B := fun m h1 h2 => hndA.2.2 m h1 m (by simp [h2]) rfl
  have hsA : ∀ m ∈ A, le m r := by
    intro m hm
    exact (List.pairwise_append.1 hsort).2.2 m hm r (by simp)
  have hsB : ∀ m ∈ B, le r m := by
    intro m hm
    exact (List.pairwise_cons.1 (List.pairwise_append.1 hsort).2.1).1 m hm
  let C : β → Bool := fun m => (decide (m ∈ P) && le m r) || (decide (m ∈ Q) && !le r m)
  have hCA : ∀ m ∈ A, C m = true := by
    intro m hm
    have hin : m ∈ P ++ r :: Q := by
      rw [← hperm.mem_iff, hAB]
      simp [hm]
    simp only [List.mem_append, List.mem_cons] at hin
    rcases hin with hP | rfl | hQ
    · simp [C, hP, hsA m hm]
    · exact absurd hm hrA
    · have : le r m = false := by
        by_contra hc
        have hc : le r m = true := by simpa using hc
        have := mem_of_pair_sublist' hn' (hpair r m hc (pair_sublist_right hQ))
        exact hABd m hm this
      simp [C, hQ, this]
  have hCB : ∀ m ∈ r :: B, C m = false := by
    intro m hm
    rcases List.mem_cons.1 hm with rfl | hm
    · simp [C, hrP, hrQ]
    · have h1 : ¬ (m ∈ P ∧ le m r = true) := by
        rintro ⟨hP, hl⟩
        exact hABd m (mem_of_pair_sublist hn' (hpair m r hl (pair_sublist_left hP))) hm
      have h2 := hsB m hm
      by_cases hP : m ∈ P
      · have : le m r = false := by
          by_contra hc
          exact h1 ⟨hP, by simpa using hc⟩
        simp [C, this, h2]
      · simp [C, hP, h2]
  have c1 : (A ++ r :: B).countP C = A.length := by
    rw [List.countP_append, List.countP_eq_length.2 hCA, List.countP_eq_zero.2 (fun m hm => by simp [hCB m hm])]
    rfl
  have c2 : (P ++ r :: Q).countP C = P.countP (fun m => le m r) + Q.countP (fun m => !le r m) := by
    rw [List.countP_append, List.countP_cons]
    have h0 : C r = false := by simp [C, hrP, hrQ]
    rw [h0]
    have h1 : P.countP C = P.countP (fun m => le m r) := by
      apply List.countP_congr
      intro m hm
      simp [C, hm, hPQ m hm]
    have h2 : Q.countP C = Q.countP (fun m => !le r m) := by
      apply List.countP_congr
      intro m hm
      have : m ∉ P := fun h => hPQ m h hm
      simp [C, hm, this]
    rw [h1, h2]
    simp
  have c3 : (A ++ r :: B).countP C = (P ++ r :: Q).countP C := by
    rw [← hAB]
    exact hperm.countP_eq C
  rw [hAB, ← c2, ← c3, c1]
  simp

variable [LinearOrder α]

theorem agree_sort {s : Obj α} {vs : List α} (h : Rel s vs) :
    Rel (Lst.sort s) (Cont.Lst.sort vs) ∧ Moved s (Lst.sort s) (Spec.listMove vs .sort) := by
  -- names that are not in use do not matter: compare them as some element
  have hval : (s.nodes.mergeSort (fun a b => Lst.le (s.mem a) (s.mem b))).map s.mem =
      (vs.mergeSort (fun a b => decide (a ≤ b))).map some := by
    rw [List.map_mergeSort (s := fun a b => Lst.le a b) (by intros; rfl), h.vals]
    symm
    exact List.map_mergeSort (by intros; rfl)
  refine ⟨h.perm (List.mergeSort_perm _ _) hval, moved_perm (List.mergeSort_perm _ _) _ ?_⟩
  intro p r hp
  obtain ⟨x, hx, hm⟩ := h.at hp
  have hlt := (List.getElem?_eq_some_iff.1 hp).1
  have hlv := (List.getElem?_eq_some_iff.1 hx).1
  have hr : s.nodes[p] = r := (List.getElem?_eq_some_iff.1 hp).2
  have hxx : vs[p] = x := (List.getElem?_eq_some_iff.1 hx).2
  have e2 : s.nodes = s.nodes.take p ++ r :: s.nodes.drop (p + 1) := by rw [← hr]; simp
  have e1 : vs.drop p = x :: vs.drop (p + 1) := by rw [← hxx]; simp
  refine ⟨(vs.take p).countP (fun y => decide (y ≤ x)) + (vs.drop p).countP (fun y => decide (y < x)),
    by simp only [Spec.listMove, hx, Option.map_some], ?_⟩
  -- an order that is total on all names
  let val : Nat → α := fun i => (s.mem i).getD x
  have hcongr : s.nodes.mergeSort (fun a b => Lst.le (s.mem a) (s.mem b)) =
      s.nodes.mergeSort (fun a b => decide (val a ≤ val b)) := by
    have := List.map_mergeSort (r := fun a b => Lst.le (s.mem a) (s.mem b)) (s := fun a b => decide (val a ≤ val b))
      (f := id) (l := s.nodes) (by
        intro a ha b hb
        obtain ⟨y, hy⟩ := h.mem_some ha
        obtain ⟨z, hz⟩ := h.mem_some hb
        simp [Lst.le, val, hy, hz])
    simpa using this
  show (s.nodes.mergeSort _)[_]? = some r
  rw [hcongr]
  have key := mergeSort_pos (fun a b => decide (val a ≤ val b)) (fun a b c h1 h2 => by
      simp only [decide_eq_true_eq] at *
      exact le_trans h1 h2) (fun a b => by
      simp only [Bool.or_eq_true, decide_eq_true_eq]
      exact le_total _ _) (s.nodes.take p) (s.nodes.drop (p + 1)) r (by rw [← e2]; exact h.nodup)
  rw [← e2] at key
  have hvr : val r = x := by simp [val, hm]
  have k1 : (vs.take p).countP (fun y => decide (y ≤ x)) = (s.nodes.take p).countP (fun m => decide (val m ≤ val r)) := by
    have : (s.nodes.take p).map s.mem = (vs.take p).map some := by rw [List.map_take, h.vals, List.map_take]
    have h3 : (vs.take p) = (s.nodes.take p).map val := by
      have := congrArg (List.map (fun o : Option α => o.getD x)) this
      simpa [List.map_map, Function.comp_def, val] using this.symm
    rw [h3, List.countP_map, hvr]
    rfl
  have k2 : (vs.drop p).countP (fun y => decide (y < x)) =
      (s.nodes.drop (p + 1)).countP (fun m => !decide (val r ≤ val m)) := by
    have : (s.nodes.drop (p + 1)).map s.mem = (vs.drop (p + 1)).map some := by rw [List.map_drop, h.vals, List.map_drop]
    have h3 : (vs.drop (p + 1)) = (s.nodes.drop (p + 1)).map val := by
      have := congrArg (List.map (fun o : Option α => o.getD x)) this
      simpa [List.map_map, Function.comp_def, val] using this.symm
    rw [e1, List.countP_cons, h3, List.countP_map, hvr]
    simp only [lt_self_iff_false, decide_false, Bool.false_eq_true, if_false, Nat.add_zero]
    apply List.countP_congr
    intro m _
    simp
  rw [k1, k2]
  exact key

end Cont.Ref
