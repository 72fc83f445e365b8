import Verif.Spec.MultiLoop
import Verif.Proof.ContRefMap
import Verif.Proof.ContLoop

/-! # Helper lemmas for loops over MultiSet and MultiMap -/

open Cpp

namespace Cont.MultiLoop
open Cont.Ref (Agree)
open Cont.Ref.Map (MObj MObj.read MObj.write erase_map find_map)
open Cont.Loop (agree_bind)
open Cont.MultiLoop.Spec (put without only Place)

variable {κ ν σ : Type} [LinearOrder κ]

/-! ## lists of pairs -/

theorem insert_eq (k : κ) (v : ν) (l : List (κ × ν)) : Stl.mmapInsert k v l = put k v l := by
  induction l with
  | nil => rfl
  | cons p l ih =>
    obtain ⟨k', x'⟩ := p
    rw [Stl.mmapInsert]
    by_cases h : k < k'
    · rw [if_pos h, put, List.takeWhile_cons_of_neg (by simpa using h), List.dropWhile_cons_of_neg (by simpa using h)]
      rfl
    · rw [if_neg h, ih, put, put, List.takeWhile_cons_of_pos (by simpa using h), List.dropWhile_cons_of_pos (by simpa using h)]
      rfl

theorem insert_map {β γ : Type} (f : β → γ) (k : κ) (x : β) (l : List (κ × β)) :
    (Stl.mmapInsert k x l).map (fun n => (n.1, f n.2)) = Stl.mmapInsert k (f x) (l.map fun n => (n.1, f n.2)) := by
  induction l with
  | nil => rfl
  | cons n l ih =>
    simp only [List.map_cons, Stl.mmapInsert]
    split_ifs <;> simp [ih]

theorem range_map {β γ : Type} (f : β → γ) (k : κ) (l : List (κ × β)) :
    Stl.mmapRange k (l.map fun n => (n.1, f n.2)) = (Stl.mmapRange k l).map f := by
  induction l with
  | nil => rfl
  | cons n l ih =>
    simp only [List.map_cons, Stl.mmapRange]
    split_ifs <;> simp [ih]

/-- a sorted list with an element in the middle -/
theorem insert_split (k : κ) (v : ν) (x : κ × ν) (a : List (κ × ν)) : ∀ b : List (κ × ν),
    (b ++ x :: a).Pairwise (fun p q => p.1 ≤ q.1) →
    Stl.mmapInsert k v (b ++ x :: a) =
      if k < x.1 then Stl.mmapInsert k v b ++ x :: a else b ++ x :: Stl.mmapInsert k v a
  | [], _ => by
    obtain ⟨k', x'⟩ := x
    simp only [List.nil_append, Stl.mmapInsert]
    split_ifs <;> rfl
  | p :: b, h => by
    obtain ⟨k', x'⟩ := p
    obtain ⟨h1, h2⟩ := List.pairwise_cons.1 h
    have hx : k' ≤ x.1 := h1 x (by simp)
    have ih := insert_split k v x a b h2
    simp only [List.cons_append, Stl.mmapInsert]
    by_cases c : k < k'
    · rw [if_pos c, if_pos c, if_pos (lt_of_lt_of_le c hx)]
      rfl
    · rw [if_neg c, if_neg c, ih]
      split_ifs <;> rfl

theorem find_isSome {β : Type} {l : List (κ × β)} (hs : l.Pairwise fun a b => a.1 ≤ b.1) (k : κ) :
    (Stl.mapFind k l).isSome = decide (only k l ≠ []) := by
  induction l with
  | nil => simp [Stl.mapFind, only]
  | cons p l ih =>
    obtain ⟨k', x⟩ := p
    obtain ⟨h1, h2⟩ := List.pairwise_cons.1 hs
    rw [Stl.mapFind]
    rcases lt_trichotomy k k' with c | c | c
    · rw [if_pos c]
      have : only k ((k', x) :: l) = [] := by
        unfold only
        rw [List.filter_eq_nil_iff]
        intro p hp
        have : k < p.1 := by
          rcases List.mem_cons.1 hp with rfl | hp
          · exact c
          · exact lt_of_lt_of_le c (h1 p hp)
        simpa using this.ne'
      rw [this]; simp
    · subst c
      simp [only]
    · rw [if_neg c.le.not_gt, if_pos c, ih h2]
      have : only k ((k', x) :: l) = only k l := by
        unfold only
        rw [List.filter_cons_of_neg (by simpa using c.ne)]
      rw [this]

/-! ## the object -/

/-- The object `s` holds the pairs `m`. -/
structure Rel (s : MObj κ ν) (m : List (κ × ν)) : Prop where
  sorted : s.nodes.Pairwise fun a b => a.1 ≤ b.1
  nodup : (s.nodes.map fun n => n.2).Nodup
  vals : s.nodes.map (fun n => (n.1, s.mem n.2)) = m.map fun p => (p.1, some p.2)
  fresh : ∀ r, s.mem r ≠ none → r < s.next
  live : ∀ r, s.mem r ≠ none → r ∈ s.nodes.map fun n => n.2

section
variable {s : MObj κ ν} {m : List (κ × ν)}

theorem Rel.keys (h : Rel s m) : s.nodes.map (fun n => n.1) = m.map fun p => p.1 := by
  have := congrArg (List.map fun p : κ × Option ν => p.1) h.vals
  rwa [List.map_map, List.map_map] at this

theorem Rel.length (h : Rel s m) : s.nodes.length = m.length := by
  have := congrArg List.length h.vals
  simpa using this

theorem Rel.sorted' (h : Rel s m) : m.Pairwise fun a b => a.1 ≤ b.1 := by
  have : (s.nodes.map fun n => n.1).Pairwise (· ≤ ·) := List.pairwise_map.2 h.sorted
  rw [h.keys] at this
  exact List.pairwise_map.1 this

theorem Rel.mem_some (h : Rel s m) {n : κ × Nat} (hn : n ∈ s.nodes) : ∃ x, s.mem n.2 = some x := by
  have h1 : (n.1, s.mem n.2) ∈ s.nodes.map (fun n => (n.1, s.mem n.2)) := List.mem_map.2 ⟨n, hn, rfl⟩
  rw [h.vals] at h1
  obtain ⟨p, -, e⟩ := List.mem_map.1 h1
  exact ⟨p.2, (congrArg Prod.snd e).symm⟩

theorem Rel.lt (h : Rel s m) {n : κ × Nat} (hn : n ∈ s.nodes) : n.2 < s.next := by
  obtain ⟨x, hx⟩ := h.mem_some hn
  exact h.fresh _ (by rw [hx]; simp)

theorem Rel.dead (h : Rel s m) {r : Nat} (hr : r ∉ s.nodes.map fun n => n.2) : s.mem r = none := by
  by_contra hc
  exact hr (h.live r hc)

theorem Rel.contents (h : Rel s m) : s.contents = m := by
  unfold MObj.contents
  have : ∀ l : List (κ × Nat), (l.filterMap fun n => (s.mem n.2).map fun x => (n.1, x)) =
      (l.map fun n => (n.1, s.mem n.2)).filterMap fun p => p.2.map fun x => (p.1, x) := by
    intro l; rw [List.filterMap_map]; rfl
  rw [this, h.vals, List.filterMap_map]
  exact List.filterMap_some

theorem Rel.insert (h : Rel s m) (k : κ) (v : ν) : Rel (MultiLoop.insert s k v) (put k v m) := by
  have hne : ∀ n ∈ s.nodes, n.2 ≠ s.next := fun n hn => (h.lt hn).ne
  refine ⟨mmapInsert_sorted h.sorted k _, ?_, ?_, ?_, ?_⟩
  · show ((Stl.mmapInsert k s.next s.nodes).map fun n => n.2).Nodup
    have hp : (Stl.mmapInsert k s.next s.nodes).Perm ((k, s.next) :: s.nodes) := by
      generalize s.nodes = l
      induction l with
      | nil => exact List.Perm.refl _
      | cons p l ih =>
        obtain ⟨k', r⟩ := p
        rw [Stl.mmapInsert]
        split_ifs
        · exact List.Perm.refl _
        · exact (List.Perm.cons _ ih).trans (List.Perm.swap _ _ _)
    rw [(hp.map fun n => n.2).nodup_iff, List.map_cons, List.nodup_cons]
    refine ⟨fun hc => ?_, h.nodup⟩
    obtain ⟨n, hn, e⟩ := List.mem_map.1 hc
    exact hne n hn e
  · show (Stl.mmapInsert k s.next s.nodes).map (fun n => (n.1, if n.2 = s.next then some v else s.mem n.2)) = _
    rw [insert_map (fun i => if i = s.next then some v else s.mem i), if_pos rfl]
    have e : s.nodes.map (fun n => (n.1, if n.2 = s.next then some v else s.mem n.2)) = s.nodes.map fun n => (n.1, s.mem n.2) :=
      List.map_congr_left fun n hn => by rw [if_neg (hne n hn)]
    rw [e, h.vals, ← insert_map some, insert_eq]
  · intro r hr
    show r < s.next + 1
    by_cases c : r = s.next
    · omega
    · have := h.fresh r (by simpa [MultiLoop.insert, c] using hr)
      omega
  · intro r hr
    show r ∈ (Stl.mmapInsert k s.next s.nodes).map fun n => n.2
    by_cases c : r = s.next
    · exact List.mem_map.2 ⟨(k, s.next), mem_mmapInsert.2 (.inl rfl), c.symm⟩
    · obtain ⟨n, hn, e⟩ := List.mem_map.1 (h.live r (by simpa [MultiLoop.insert, c] using hr))
      exact List.mem_map.2 ⟨n, mem_mmapInsert.2 (.inr hn), e⟩

theorem erase_nodes (h : Rel s m) (k : κ) : (MultiLoop.erase s k).nodes = without k s.nodes := mapErase_eq h.sorted k

theorem Rel.erase (h : Rel s m) (k : κ) : Rel (MultiLoop.erase s k) (without k m) := by
  have hsub : (Stl.mapErase k s.nodes).Sublist s.nodes := mapErase_sub k
  refine ⟨h.sorted.sublist hsub, h.nodup.sublist (hsub.map _), ?_, ?_, ?_⟩
  · show (Stl.mapErase k s.nodes).map (fun n => (n.1, if n.2 ∈ (Stl.mapErase k s.nodes).map (fun n => n.2) then s.mem n.2 else none)) = _
    have e : (Stl.mapErase k s.nodes).map (fun n => (n.1, if n.2 ∈ (Stl.mapErase k s.nodes).map (fun n => n.2) then s.mem n.2 else none)) =
        (Stl.mapErase k s.nodes).map fun n => (n.1, s.mem n.2) :=
      List.map_congr_left fun n hn => by rw [if_pos (List.mem_map.2 ⟨n, hn, rfl⟩)]
    rw [e, erase_map, h.vals, ← erase_map some, mapErase_eq h.sorted']
    rfl
  · intro r hr
    refine h.fresh r fun hc => hr ?_
    show (if _ then s.mem r else none) = none
    rw [hc]; split_ifs <;> rfl
  · intro r hr
    show r ∈ (Stl.mapErase k s.nodes).map fun n => n.2
    by_contra hc
    exact hr (if_neg hc)

theorem Rel.clear (s : MObj κ ν) : Rel (MultiLoop.clear s) [] :=
  ⟨List.Pairwise.nil, List.nodup_nil, rfl, fun _ h => absurd rfl h, fun _ h => absurd rfl h⟩

theorem Rel.write {b a : List (κ × ν)} {x : κ × ν} {nb na : List (κ × Nat)} {r : Nat} (h : Rel s (b ++ x :: a))
    (hn : s.nodes = nb ++ (x.1, r) :: na) (hl : nb.length = b.length) (v : ν) :
    ∃ s', s.write r v = .ok s' ∧ s'.nodes = s.nodes ∧ s'.next = s.next ∧ Rel s' (b ++ (x.1, v) :: a) := by
  obtain ⟨w, hw⟩ := h.mem_some (n := (x.1, r)) (by rw [hn]; simp)
  dsimp only at hw
  refine ⟨{ s with mem := fun i => if i = r then some v else s.mem i }, by simp only [MObj.write, hw], rfl, rfl, h.sorted, h.nodup, ?_, ?_, ?_⟩
  · show s.nodes.map (fun n => (n.1, if n.2 = r then some v else s.mem n.2)) = _
    have hv := h.vals
    have hd := h.nodup
    rw [hn] at hv hd ⊢
    simp only [List.map_append, List.map_cons] at hv hd ⊢
    obtain ⟨e1, e2⟩ := List.append_inj hv (by simpa using hl)
    rw [List.cons.injEq] at e2
    rw [List.nodup_append, List.nodup_cons] at hd
    rw [if_pos trivial, ← e1, ← e2.2]
    congr 1
    · exact List.map_congr_left fun n hn => by
        rw [if_neg fun e => hd.2.2 _ (List.mem_map.2 ⟨n, hn, e⟩) r (by simp) rfl]
    · congr 1
      exact List.map_congr_left fun n hn => by
        rw [if_neg fun e => hd.2.1.1 (List.mem_map.2 ⟨n, hn, e⟩)]
  · intro i hi
    refine h.fresh i fun hc => hi ?_
    by_cases e : i = r
    · rw [← e] at hw; rw [hw] at hc; cases hc
    · show (if i = r then some v else s.mem i) = none
      rw [if_neg e, hc]
  · intro i hi
    refine h.live i fun hc => hi ?_
    by_cases e : i = r
    · rw [← e] at hw; rw [hw] at hc; cases hc
    · show (if i = r then some v else s.mem i) = none
      rw [if_neg e, hc]

theorem Rel.read {b a : List (κ × ν)} {x : κ × ν} {nb na : List (κ × Nat)} {r : Nat} (h : Rel s (b ++ x :: a))
    (hn : s.nodes = nb ++ (x.1, r) :: na) (hl : nb.length = b.length) : s.mem r = some x.2 := by
  have hv := h.vals
  rw [hn] at hv
  simp only [List.map_append, List.map_cons] at hv
  obtain ⟨-, e2⟩ := List.append_inj hv (by simpa using hl)
  rw [List.cons.injEq] at e2
  exact congrArg Prod.snd e2.1

theorem Rel.only (h : Rel s m) (k : κ) : (Stl.mapFind k s.nodes).isSome = decide (Spec.only k m ≠ []) := by
  rw [← find_isSome h.sorted']
  have h1 := find_map s.mem k s.nodes
  have h2 := find_map (some (α := ν)) k m
  rw [h.vals, h2] at h1
  have := congrArg Option.isSome h1
  simpa using this.symm

theorem Rel.range (h : Rel s m) (k : κ) : (Stl.mmapRange k s.nodes).map s.mem = (Spec.only k m).map fun q => some q.2 := by
  rw [← range_map, h.vals, range_map, mmapRange_eq h.sorted', List.map_map]
  rfl

theorem Rel.find [LinearOrder ν] (h : Rel s m) (k : κ) :
    MultiLoop.find s k = .ok (((Spec.only k m).map fun q => q.2).foldl Set.insert []) := by
  unfold MultiLoop.find
  have key : ∀ (l : List Nat) (vs : List ν) (acc : List ν), l.map s.mem = vs.map some →
      l.foldlM (fun valueSet r => do Out.ok (Set.insert valueSet (← s.read r))) acc = Out.ok (vs.foldl Set.insert acc) := by
    intro l
    induction l with
    | nil =>
      intro vs acc e
      cases vs with
      | nil => rfl
      | cons v vs => simp at e
    | cons r l ih =>
      intro vs acc e
      cases vs with
      | nil => simp at e
      | cons v vs =>
        simp only [List.map_cons, List.cons.injEq] at e
        rw [List.foldlM_cons, List.foldl_cons]
        simp only [MObj.read, e.1, Out.ok_bind]
        exact ih vs _ e.2
  refine key _ _ _ ?_
  rw [h.range k, List.map_map]
  rfl
end

/-! ## the body -/

/-- What holds at a node `x` with the name `r` in the middle of a loop; `N`, `nb0` and `na0` are the next name and the nodes before
and behind it when the round began. -/
def Inv (N : Nat) (nb0 na0 : List (κ × Nat)) (r : Nat) (k : κ) (s : MObj κ ν) : Place κ ν → Prop
  | .at b x a => Rel s (b ++ x :: a) ∧ N ≤ s.next ∧ x.1 = k ∧ ∃ nb na, s.nodes = nb ++ (k, r) :: na ∧ nb.length = b.length ∧
      (∀ n ∈ nb, n.2 < N → n ∈ nb0) ∧ ∀ n ∈ na, n.2 < N → n ∈ na0
  | .gone l => Rel s l ∧ N ≤ s.next ∧ r < s.next ∧ (r ∉ s.nodes.map fun n => n.2) ∧ ∀ n ∈ s.nodes, n.2 < N → n ∈ nb0 ++ na0

theorem Inv.rel {N r : Nat} {nb0 na0 : List (κ × Nat)} {k : κ} {s : MObj κ ν} {p : Place κ ν} (h : Inv N nb0 na0 r k s p) :
    Rel s p.all := by
  cases p <;> exact h.1

theorem length_insert {β : Type} (k : κ) (v : β) (l : List (κ × β)) : (Stl.mmapInsert k v l).length = l.length + 1 := by
  induction l with
  | nil => rfl
  | cons p l ih =>
    obtain ⟨k', x⟩ := p
    rw [Stl.mmapInsert]
    split_ifs <;> simp [ih]

theorem length_without {β γ : Type} (k : κ) {l : List (κ × β)} {l' : List (κ × γ)} (h : l.map (fun n => n.1) = l'.map fun n => n.1) :
    (without k l).length = (without k l').length := by
  have : ∀ {δ : Type} (l : List (κ × δ)), (without k l).length = ((l.map fun n => n.1).filter fun j => decide (j ≠ k)).length := by
    intro δ l
    rw [List.filter_map, List.length_map]
    rfl
  rw [this, this, h]

theorem Inv.insert {N r : Nat} {nb0 na0 : List (κ × Nat)} {k : κ} {s : MObj κ ν} {p : Place κ ν} (h : Inv N nb0 na0 r k s p)
    (j : κ) (v : ν) : Inv N nb0 na0 r k (MultiLoop.insert s j v) (p.insert j v) := by
  cases p with
  | «at» b x a =>
    obtain ⟨h1, h2, rfl, nb, na, h4, h5, h6, h7⟩ := h
    have hR := h1.insert j v
    have hd := h1.sorted
    rw [h4] at hd
    have hn : (MultiLoop.insert s j v).nodes = if j < x.1 then Stl.mmapInsert j s.next nb ++ (x.1, r) :: na
        else nb ++ (x.1, r) :: Stl.mmapInsert j s.next na := by
      show Stl.mmapInsert j s.next s.nodes = _
      rw [h4]
      exact insert_split j s.next (x.1, r) na nb hd
    rw [← insert_eq, insert_split j v x a b h1.sorted'] at hR
    simp only [Place.insert]
    split_ifs at hR hn ⊢
    · refine ⟨by rw [← insert_eq]; exact hR, Nat.le_succ_of_le h2, rfl, _, _, hn, ?_, ?_, h7⟩
      · rw [← insert_eq, length_insert, length_insert, h5]
      · intro n hn hN
        rcases mem_mmapInsert.1 hn with rfl | hn
        · exact absurd hN (by simp; omega)
        · exact h6 n hn hN
    · refine ⟨by rw [← insert_eq]; exact hR, Nat.le_succ_of_le h2, rfl, _, _, hn, h5, h6, ?_⟩
      intro n hn hN
      rcases mem_mmapInsert.1 hn with rfl | hn
      · exact absurd hN (by simp; omega)
      · exact h7 n hn hN
  | gone l =>
    obtain ⟨h1, h2, h3, h4, h5⟩ := h
    refine ⟨h1.insert j v, Nat.le_succ_of_le h2, Nat.lt_succ_of_lt h3, ?_, ?_⟩
    · intro hc
      obtain ⟨n, hn, e⟩ := List.mem_map.1 hc
      rcases mem_mmapInsert.1 hn with rfl | hn
      · dsimp only at e; omega
      · exact h4 (List.mem_map.2 ⟨n, hn, e⟩)
    · intro n hn hN
      rcases mem_mmapInsert.1 hn with rfl | hn
      · exact absurd hN (by simp; omega)
      · exact h5 n hn hN

theorem Inv.erase {N r : Nat} {nb0 na0 : List (κ × Nat)} {k : κ} {s : MObj κ ν} {p : Place κ ν} (h : Inv N nb0 na0 r k s p)
    (j : κ) : Inv N nb0 na0 r k (MultiLoop.erase s j) (p.erase j) := by
  cases p with
  | «at» b x a =>
    obtain ⟨h1, h2, rfl, nb, na, h4, h5, h6, h7⟩ := h
    have hR := h1.erase j
    have hn := erase_nodes h1 j
    rw [h4] at hn
    have hk := h1.keys
    rw [h4] at hk
    simp only [List.map_append, List.map_cons] at hk
    obtain ⟨k1, k2⟩ := List.append_inj hk (by simpa using h5)
    simp only [Place.erase]
    by_cases c : x.1 = j
    · rw [if_pos c]
      have hn' : (MultiLoop.erase s j).nodes = without j nb ++ without j na := by
        rw [hn]; simp [without, List.filter_append, c]
      refine ⟨hR, h2, h1.lt (n := (x.1, r)) (by rw [h4]; simp), ?_, ?_⟩
      · have hd := h1.nodup
        rw [h4, List.map_append, List.map_cons, List.nodup_append, List.nodup_cons] at hd
        rw [hn']
        intro hc
        obtain ⟨n, hm, e⟩ := List.mem_map.1 hc
        rcases List.mem_append.1 hm with hm | hm
        · exact hd.2.2 _ (List.mem_map.2 ⟨n, List.mem_of_mem_filter hm, e⟩) r (by simp) rfl
        · exact hd.2.1.1 (List.mem_map.2 ⟨n, List.mem_of_mem_filter hm, e⟩)
      · rw [hn']
        intro n hm hN
        rcases List.mem_append.1 hm with hm | hm
        · exact List.mem_append_left _ (h6 n (List.mem_of_mem_filter hm) hN)
        · exact List.mem_append_right _ (h7 n (List.mem_of_mem_filter hm) hN)
    · rw [if_neg c]
      have e : ∀ {β : Type} (b a : List (κ × β)) (y : β), without j (b ++ (x.1, y) :: a) = without j b ++ (x.1, y) :: without j a := by
        intro β b a y
        simp [without, List.filter_append, c]
      have hR' : Rel (MultiLoop.erase s j) (without j b ++ x :: without j a) := by
        have := e b a x.2
        rw [← this]; exact hR
      refine ⟨hR', h2, rfl, without j nb, without j na, hn.trans (e nb na r), length_without j k1, ?_, ?_⟩
      · exact fun n hm hN => h6 n (List.mem_of_mem_filter hm) hN
      · exact fun n hm hN => h7 n (List.mem_of_mem_filter hm) hN
  | gone l =>
    obtain ⟨h1, h2, h3, h4, h5⟩ := h
    have hn := erase_nodes h1 j
    refine ⟨h1.erase j, h2, h3, ?_, ?_⟩
    · rw [hn]
      intro hc
      obtain ⟨n, hm, e⟩ := List.mem_map.1 hc
      exact h4 (List.mem_map.2 ⟨n, List.mem_of_mem_filter hm, e⟩)
    · rw [hn]
      exact fun n hm hN => h5 n (List.mem_of_mem_filter hm) hN

theorem Inv.clear {N r : Nat} {nb0 na0 : List (κ × Nat)} {k : κ} {s : MObj κ ν} {p : Place κ ν} (h : Inv N nb0 na0 r k s p) :
    Inv N nb0 na0 r k (MultiLoop.clear s) (.gone []) := by
  cases p with
  | «at» b x a =>
    obtain ⟨h1, h2, rfl, nb, na, h4, -⟩ := h
    exact ⟨Rel.clear s, h2, h1.lt (n := (x.1, r)) (by rw [h4]; simp), List.not_mem_nil, fun n hn => by cases hn⟩
  | gone l =>
    obtain ⟨h1, h2, h3, -⟩ := h
    exact ⟨Rel.clear s, h2, h3, List.not_mem_nil, fun n hn => by cases hn⟩

/-- What holds after the body. -/
def Post (N : Nat) (nb0 na0 : List (κ × Nat)) (r : Nat) (k : κ) (x : σ × Place κ ν × Bool) (y : σ × MObj κ ν × Bool) : Prop :=
  x.1 = y.1 ∧ Inv N nb0 na0 r k y.2.1 x.2.1 ∧ x.2.2 = y.2.2

theorem exec_agree [LinearOrder ν] (N : Nat) (nb0 na0 : List (κ × Nat)) (r : Nat) (k : κ) (b : Body κ ν σ) :
    ∀ (s : MObj κ ν) (p : Place κ ν), Inv N nb0 na0 r k s p →
      Agree (Post N nb0 na0 r k) (Spec.exec p b) (exec s (k, r) b) := by
  induction b with
  | done st => intro s p h; exact ⟨rfl, h, rfl⟩
  | stop st => intro s p h; exact ⟨rfl, h, rfl⟩
  | insert j v b ih => intro s p h; exact ih _ _ (h.insert j v)
  | remove j b ih =>
    intro s p h
    simp only [exec, Spec.exec]
    have e := h.rel.only j
    by_cases c : Spec.only j p.all = []
    · have : (Stl.mapFind j s.nodes).isNone = true := by simpa [c] using e
      rw [if_pos c, if_pos this]
      trivial
    · have : ¬ (Stl.mapFind j s.nodes).isNone = true := by
        intro q
        rw [decide_eq_true c] at e
        rw [Option.isNone_iff_eq_none.1 q] at e
        cases e
      rw [if_neg c, if_neg this]
      exact ih _ _ (h.erase j)
  | erase j b ih => intro s p h; exact ih _ _ (h.erase j)
  | clear b ih => intro s p h; exact ih _ _ h.clear
  | count j b ih =>
    intro s p h
    simp only [exec, Spec.exec]
    have := congrArg List.length (h.rel.range j)
    simp only [List.length_map] at this
    rw [this]
    exact ih _ _ _ h
  | contains j b ih =>
    intro s p h
    simp only [exec, Spec.exec]
    rw [h.rel.only j]
    exact ih _ _ _ h
  | find j b ih =>
    intro s p h
    simp only [exec, Spec.exec]
    rw [h.rel.find j, Out.ok_bind]
    exact ih _ _ _ h
  | size b ih =>
    intro s p h
    simp only [exec, Spec.exec]
    rw [h.rel.length]
    exact ih _ _ _ h
  | key b ih =>
    intro s p h
    cases p with
    | «at» c x a =>
      obtain ⟨h1, h2, rfl, nb, na, h4, h5, h67⟩ := h
      simp only [exec, Spec.exec]
      rw [if_neg (by rw [h1.read h4 h5]; simp)]
      exact ih _ _ _ ⟨h1, h2, rfl, nb, na, h4, h5, h67⟩
    | gone l =>
      simp only [exec, Spec.exec]
      rw [if_pos (h.1.dead h.2.2.2.1)]
      trivial
  | read b ih =>
    intro s p h
    cases p with
    | «at» c x a =>
      obtain ⟨h1, h2, rfl, nb, na, h4, h5, h67⟩ := h
      simp only [exec, Spec.exec, MObj.read, h1.read h4 h5, Out.ok_bind]
      exact ih _ _ _ ⟨h1, h2, rfl, nb, na, h4, h5, h67⟩
    | gone l =>
      simp only [exec, Spec.exec, MObj.read, h.1.dead h.2.2.2.1]
      trivial
  | write v b ih =>
    intro s p h
    cases p with
    | «at» c x a =>
      obtain ⟨h1, h2, rfl, nb, na, h4, h5, h67⟩ := h
      obtain ⟨s', e, e1, e2, h1'⟩ := h1.write h4 h5 v
      simp only [exec, Spec.exec, e, Out.ok_bind]
      exact ih _ _ ⟨h1', by rw [e2]; exact h2, rfl, nb, na, by rw [e1]; exact h4, h5, h67⟩
    | gone l =>
      simp only [exec, Spec.exec, MObj.write, h.1.dead h.2.2.2.1]
      trivial

/-! ## the loop -/

omit [LinearOrder κ] in
theorem next_none {r : Nat} : ∀ {l : List (κ × Nat)}, (r ∉ l.map fun n => n.2) → next r l = .ub
  | [], _ => rfl
  | n :: l, h => by
    simp only [List.map_cons, List.mem_cons, not_or] at h
    rw [next, if_neg (Ne.symm h.1)]
    exact next_none h.2

omit [LinearOrder κ] in
theorem next_some {k : κ} {r : Nat} {na : List (κ × Nat)} : ∀ {nb : List (κ × Nat)}, ((nb ++ (k, r) :: na).map fun n => n.2).Nodup →
    next r (nb ++ (k, r) :: na) = .ok na.head?
  | [], _ => by simp [next]
  | n :: nb, h => by
    simp only [List.cons_append, List.map_cons, List.nodup_cons] at h
    have : n.2 ≠ r := fun e => h.1 (by simp [e])
    rw [List.cons_append, next, if_neg this]
    exact next_some h.2

/-- what holds at the end of a loop that began at the nodes `nb`, `na`, with the next name `N` -/
def End (N : Nat) (nb na : List (κ × Nat)) (a : σ × List (κ × ν) × List κ) (y : σ × MObj κ ν × List (κ × Nat)) : Prop :=
  a.1 = y.1 ∧ Rel y.2.1 a.2.1 ∧ a.2.2 = y.2.2.map (fun x => x.1) ∧ N ≤ y.2.1.next ∧
    (∀ n ∈ y.2.1.nodes, n.2 < N → n ∈ nb ++ na) ∧ (∀ n ∈ y.2.2, n.2 < N → n ∈ na) ∧ (y.2.2.map fun x => x.2).Nodup ∧
    a.2.2.Pairwise (· ≤ ·) ∧ ∀ x ∈ na, ∀ j ∈ a.2.2, na.head? = some x → x.1 ≤ j

theorem rounds_agree [LinearOrder ν] (body : σ → Body κ ν σ) (n : Nat) : ∀ (st : σ) (s : MObj κ ν) (b a : List (κ × ν))
    (nb na : List (κ × Nat)), Rel s (b ++ a) → s.nodes = nb ++ na → nb.length = b.length →
    Agree (End s.next nb na) (Spec.loop body n st b a) (rounds body n st s na.head?) := by
  induction n with
  | zero => intro st s b a nb na _ _ _; trivial
  | succ n ih =>
    intro st s b a nb na h hn hl
    have hk := h.keys
    rw [hn] at hk
    simp only [List.map_append] at hk
    obtain ⟨k1, k2⟩ := List.append_inj hk (by simpa using hl)
    cases na with
    | nil =>
      have : a = [] := by simpa using k2.symm
      subst this
      simp only [List.append_nil] at h hn
      refine ⟨rfl, h, rfl, le_refl _, fun n hm _ => by rw [hn] at hm; simpa using hm, by simp, by simp, by simp, by simp⟩
    | cons y na =>
      obtain ⟨k, r⟩ := y
      cases a with
      | nil => simp at k2
      | cons x a =>
        have hxk : k = x.1 := by simpa using (List.cons.inj k2).1
        subst hxk
        have hI : Inv s.next nb na r x.1 s (.at b x a) :=
          ⟨h, le_refl _, rfl, nb, na, hn, hl, fun n hm _ => hm, fun n hm _ => hm⟩
        simp only [List.head?_cons, Spec.loop, rounds]
        have hr : r < s.next := h.lt (n := (x.1, r)) (by rw [hn]; simp)
        have hnd := h.nodup
        rw [hn] at hnd
        simp only [List.map_append, List.map_cons, List.nodup_append, List.nodup_cons] at hnd
        refine agree_bind (exec_agree _ _ _ r x.1 (body st) s _ hI) ?_
        rintro ⟨st', p, stop⟩ ⟨st'', s', stop'⟩ - - ⟨e1, h1, e2⟩
        dsimp only at e1 h1 e2
        subst e1 e2
        have hsub : ∀ n ∈ s'.nodes, n.2 < s.next → n ∈ nb ++ (x.1, r) :: na := by
          intro n hm hN
          cases p with
          | «at» b' x' a' =>
            obtain ⟨-, -, -, nb', na', e, -, h6, h7⟩ := h1
            rw [e] at hm
            simp only [List.mem_append, List.mem_cons] at hm ⊢
            rcases hm with hm | hm | hm
            · exact .inl (h6 n hm hN)
            · exact .inr (.inl hm)
            · exact .inr (.inr (h7 n hm hN))
          | gone l =>
            have := h1.2.2.2.2 n hm hN
            simp only [List.mem_append, List.mem_cons] at this ⊢
            tauto
        cases stop with
        | true =>
          have hN : s.next ≤ s'.next := by cases p <;> exact h1.2.1
          refine ⟨rfl, h1.rel, rfl, hN, hsub, ?_, ?_, ?_, ?_⟩
          · intro n hm _
            simp only [List.mem_singleton] at hm
            simp [hm]
          · simp
          · simp
          · intro z _ j hj hz
            simp only [List.head?_cons, Option.some.injEq] at hz
            simp only [List.mem_singleton] at hj
            rw [← hz, hj]
        | false =>
          cases p with
          | gone l =>
            simp [next_none h1.2.2.2.1, Agree]
          | «at» b' x' a' =>
            obtain ⟨h1, h2, hx, nb', na', e, h5, h6, h7⟩ := h1
            have hd := h1.nodup
            rw [e] at hd
            rw [e, next_some hd]
            simp only [Out.ok_bind, Bool.false_eq_true, if_false]
            have hi := ih st' s' (b' ++ [x']) a' (nb' ++ [(x.1, r)]) na' (by simpa using h1) (by simpa using e) (by simpa using h5)
            refine agree_bind hi ?_
            rintro ⟨a1, a2, a3⟩ ⟨b1, b2, b3⟩ - hrun ⟨e1, h8, e2, h9, h10, h11, h12, h13, h14⟩
            dsimp only at e1 h8 e2 h9 h10 h11 h12 h13 h14
            subst e1
            have hvis : ∀ n ∈ b3, n.2 < s.next → n ∈ na := fun n hm hN => h7 n (h11 n hm (lt_of_lt_of_le hN h2)) hN
            have hge : ∀ j ∈ a3, x.1 ≤ j := by
              intro j hj
              have hj' := hj
              rw [e2] at hj'
              obtain ⟨y, hy, -⟩ := List.mem_map.1 hj'
              cases na' with
              | nil =>
                exfalso
                have : rounds body n st' s' none = .ok (a1, b2, b3) := hrun
                cases n with
                | zero => cases this
                | succ n =>
                  rw [rounds] at this
                  injection this with this
                  rw [Prod.mk.injEq, Prod.mk.injEq] at this
                  rw [← this.2.2] at hy
                  cases hy
              | cons z na' =>
                have hz := h14 z (by simp) j hj rfl
                have hs := h1.sorted
                rw [e] at hs
                have := ((List.pairwise_cons.1 (List.pairwise_append.1 hs).2.1).1) z (by simp)
                exact le_trans this hz
            refine ⟨rfl, h8, by rw [e2, hx]; rfl, le_trans h2 h9, ?_, ?_, ?_, ?_, ?_⟩
            · intro n hm hN
              refine hsub n ?_ hN
              rw [e]
              have := h10 n hm (lt_of_lt_of_le hN h2)
              simpa using this
            · intro n hm hN
              rcases List.mem_cons.1 hm with rfl | hm
              · simp
              · exact List.mem_cons_of_mem _ (hvis n hm hN)
            · rw [List.map_cons, List.nodup_cons]
              refine ⟨fun hc => ?_, h12⟩
              obtain ⟨y, hy, ey⟩ := List.mem_map.1 hc
              dsimp only at ey
              exact hnd.2.1.1 (List.mem_map.2 ⟨y, hvis y hy (by omega), ey⟩)
            · rw [List.pairwise_cons]
              exact ⟨fun j hj => by rw [hx]; exact hge j hj, h13⟩
            · intro z _ j hj hz
              simp only [List.head?_cons, Option.some.injEq] at hz
              rcases List.mem_cons.1 hj with rfl | hj
              · rw [← hz, hx]
              · rw [← hz]; exact hge j hj

theorem rel_ofPairs {m : List (κ × ν)} (hs : m.Pairwise fun a b => a.1 ≤ b.1) : Rel (ofPairs m) m := by
  have e1 : (ofPairs m).nodes.map (fun n => n.1) = m.map fun p => p.1 := by
    show (m.zipIdx.map fun p => (p.1.1, p.2)).map _ = _
    rw [List.map_map]
    have : ((fun n : κ × Nat => n.1) ∘ fun p : (κ × ν) × Nat => (p.1.1, p.2)) = (fun p : κ × ν => p.1) ∘ Prod.fst := rfl
    rw [this, ← List.map_map, List.zipIdx_map_fst]
  have e2 : (ofPairs m).nodes.map (fun n => n.2) = List.range m.length := by
    show (m.zipIdx.map fun p => (p.1.1, p.2)).map _ = _
    rw [List.map_map]
    have : ((fun n : κ × Nat => n.2) ∘ fun p : (κ × ν) × Nat => (p.1.1, p.2)) = Prod.snd := rfl
    rw [this, List.zipIdx_map_snd, List.range_eq_range']
  refine ⟨?_, ?_, ?_, ?_, ?_⟩
  · have : ((ofPairs m).nodes.map fun n => n.1).Pairwise (· ≤ ·) := by rw [e1]; exact List.pairwise_map.2 hs
    exact List.pairwise_map.1 this
  · rw [e2]; exact List.nodup_range
  · apply List.ext_getElem?
    intro i
    show ((m.zipIdx.map fun p => (p.1.1, p.2)).map fun n => (n.1, m[n.2]?.map fun p => p.2))[i]? = _
    by_cases hi : i < m.length
    · simp [hi]
    · simp [hi]
  · intro r hr
    show r < m.length
    by_contra hc
    exact hr (by show m[r]?.map _ = none; rw [List.getElem?_eq_none (Nat.not_lt.1 hc)]; rfl)
  · intro r hr
    rw [e2, List.mem_range]
    by_contra hc
    exact hr (by show m[r]?.map _ = none; rw [List.getElem?_eq_none (Nat.not_lt.1 hc)]; rfl)

theorem forMulti_agree [LinearOrder ν] (body : σ → Body κ ν σ) (n : Nat) (st : σ) {m : List (κ × ν)}
    (hs : m.Pairwise fun a b => a.1 ≤ b.1) :
    Agree (End (ofPairs m).next [] (ofPairs m).nodes) (Spec.loop body n st [] m) (forMulti body n st (ofPairs m)) :=
  rounds_agree body n st (ofPairs m) [] m [] _ (rel_ofPairs hs) rfl rfl

/-- for equations: what the model gives when the specification gives it -/
theorem forMulti_eq [LinearOrder ν] (body : σ → Body κ ν σ) (n : Nat) (st : σ) {m : List (κ × ν)}
    (hs : m.Pairwise fun a b => a.1 ≤ b.1) :
    (forMulti body n st (ofPairs m) >>= fun y => Out.ok (y.1, y.2.1.contents, y.2.2.map fun x => x.1)) = Spec.loop body n st [] m := by
  have h := forMulti_agree body n st hs
  revert h
  cases Spec.loop body n st [] m <;> cases forMulti body n st (ofPairs m) <;> intro h <;>
    first | exact h.elim | rfl | skip
  next a b =>
  obtain ⟨a1, a2, a3⟩ := a
  obtain ⟨e1, h, e2, -⟩ := h
  dsimp only at e1 h e2
  rw [Out.ok_bind, h.contents, e1, e2]

/-! ## completeness -/

theorem exec_nostop [LinearOrder ν] (b : Body κ ν σ) : Spec.NoStop b → ∀ (s : MObj κ ν) (x : κ × Nat) (st : σ) (s' : MObj κ ν) (stop : Bool),
    exec s x b = .ok (st, s', stop) → stop = false := by
  induction b with
  | done st0 => intro _ s x st s' stop e; simp only [exec, Out.ok.injEq, Prod.mk.injEq] at e; exact e.2.2.symm
  | stop st0 => intro h; exact h.elim
  | insert j v b ih => intro h s x st s' stop e; exact ih h _ _ _ _ _ e
  | remove j b ih =>
    intro h s x st s' stop e
    rw [exec] at e
    split at e
    · cases e
    · exact ih h _ _ _ _ _ e
  | erase j b ih => intro h s x st s' stop e; exact ih h _ _ _ _ _ e
  | clear b ih => intro h s x st s' stop e; exact ih h _ _ _ _ _ e
  | count j b ih => intro h s x st s' stop e; exact ih _ (h _) _ _ _ _ _ e
  | contains j b ih => intro h s x st s' stop e; exact ih _ (h _) _ _ _ _ _ e
  | find j b ih =>
    intro h s x st s' stop e
    rw [exec] at e
    obtain ⟨v, -, e⟩ := Out.bind_eq_ok.1 e
    exact ih _ (h _) _ _ _ _ _ e
  | size b ih => intro h s x st s' stop e; exact ih _ (h _) _ _ _ _ _ e
  | key b ih =>
    intro h s x st s' stop e
    rw [exec] at e
    split at e
    · cases e
    · exact ih _ (h _) _ _ _ _ _ e
  | read b ih =>
    intro h s x st s' stop e
    rw [exec] at e
    obtain ⟨v, -, e⟩ := Out.bind_eq_ok.1 e
    exact ih _ (h _) _ _ _ _ _ e
  | write v b ih =>
    intro h s x st s' stop e
    rw [exec] at e
    obtain ⟨v, -, e⟩ := Out.bind_eq_ok.1 e
    exact ih h _ _ _ _ _ e

theorem agree_right {β γ : Type} {P : β → γ → Prop} {o : Out β} {c : γ} (h : Agree P o (.ok c)) : ∃ b, o = .ok b ∧ P b c := by
  cases o <;> first | exact h.elim | exact ⟨_, rfl, h⟩

theorem rounds_all [LinearOrder ν] (body : σ → Body κ ν σ) (hb : ∀ st, Spec.NoStop (body st)) (n : Nat) :
    ∀ (st : σ) (s : MObj κ ν) (m : List (κ × ν)) (nb na : List (κ × Nat)) (st' : σ) (s' : MObj κ ν) (vis : List (κ × Nat)),
    Rel s m → s.nodes = nb ++ na → rounds body n st s na.head? = .ok (st', s', vis) → ∀ y ∈ na, y ∈ s'.nodes → y ∈ vis := by
  induction n with
  | zero => intro st s m nb na st' s' vis _ _ e; cases e
  | succ n ih =>
    intro st s m nb na st' s' vis h hn e y hy hy'
    cases na with
    | nil => cases hy
    | cons z na =>
      obtain ⟨k, r⟩ := z
      have hk := h.keys
      rw [hn, List.map_append, List.map_cons] at hk
      obtain ⟨b, x, a, rfl, hl, hx⟩ : ∃ (b : List (κ × ν)) (x : κ × ν) (a : List (κ × ν)), m = b ++ x :: a ∧ nb.length = b.length ∧ x.1 = k := by
        obtain ⟨b, a', rfl, e1, e2⟩ := List.map_eq_append_iff.1 hk.symm
        obtain ⟨x, a, rfl, e3, e4⟩ := List.map_eq_cons_iff.1 e2
        refine ⟨b, x, a, rfl, ?_, e3⟩
        have := congrArg List.length e1
        simpa using this.symm
      subst hx
      have hI : Inv s.next nb na r x.1 s (.at b x a) :=
        ⟨h, le_refl _, rfl, nb, na, hn, hl, fun n hm _ => hm, fun n hm _ => hm⟩
      rw [List.head?_cons, rounds] at e
      obtain ⟨⟨st1, s1, stop⟩, e1, e⟩ := Out.bind_eq_ok.1 e
      have hstop := exec_nostop _ (hb st) _ _ _ _ _ e1
      subst hstop
      obtain ⟨⟨st2, p, stop⟩, -, e2, h1, -⟩ := agree_right (by have := exec_agree _ _ _ r x.1 (body st) s _ hI; rwa [e1] at this)
      dsimp only at e h1
      rw [if_neg (by simp)] at e
      obtain ⟨it, e3, e⟩ := Out.bind_eq_ok.1 e
      obtain ⟨⟨st3, s3, vis'⟩, e4, e⟩ := Out.bind_eq_ok.1 e
      simp only [Out.ok.injEq, Prod.mk.injEq] at e
      obtain ⟨rfl, rfl, rfl⟩ := e
      cases p with
      | gone l => rw [next_none h1.2.2.2.1] at e3; cases e3
      | «at» b' x' a' =>
        obtain ⟨h1, h2, hx, nb', na', e5, h5, h6, h7⟩ := h1
        have hd := h1.nodup
        rw [e5] at hd
        rw [e5, next_some hd] at e3
        injection e3 with e3
        subst e3
        rcases List.mem_cons.1 hy with rfl | hy
        · simp
        · have hyN : y.2 < s.next := h.lt (by rw [hn]; simp [hy])
          obtain ⟨_, _, hEnd⟩ := agree_right (by
            have := rounds_agree body n st1 s1 (b' ++ [x']) a' (nb' ++ [(x.1, r)]) na' (by simpa using h1) (by simpa using e5) (by simpa using h5)
            rwa [e4] at this)
          have hm := hEnd.2.2.2.2.1 y hy' (lt_of_lt_of_le hyN h2)
          simp only [List.append_assoc, List.mem_append, List.mem_singleton] at hm
          rcases hm with hm | rfl | hm
          · have hnd := h.nodup
            rw [hn, List.map_append, List.map_cons, List.nodup_append] at hnd
            exact absurd rfl (hnd.2.2 y.2 (List.mem_map.2 ⟨y, h6 y hm hyN, rfl⟩) y.2
              (List.mem_cons_of_mem _ (List.mem_map.2 ⟨y, hy, rfl⟩)))
          · simp
          · exact List.mem_cons_of_mem _ (ih st1 s1 (b' ++ x' :: a') (nb' ++ [(x.1, r)]) na' _ _ _ h1 (by simpa using e5) e4 y hm hy')

/-! ## end -/

/-- the elements to come -/
def toCome : Place κ ν → Nat
  | .at _ _ a => a.length
  | .gone _ => 0

theorem toCome_erase (p : Place κ ν) (k : κ) : toCome (p.erase k) ≤ toCome p := by
  cases p with
  | «at» b x a =>
    simp only [Place.erase]
    split_ifs
    · exact Nat.zero_le _
    · exact List.length_filter_le _ _
  | gone l => exact le_refl _

theorem exec_ends [LinearOrder ν] (b : Body κ ν σ) : Spec.NoInsert b → ∀ p : Place κ ν, Spec.exec p b ≠ .diverge ∧
    ∀ st q stop, Spec.exec p b = .ok (st, q, stop) → toCome q ≤ toCome p := by
  induction b with
  | done st => intro _ p; exact ⟨by simp [Spec.exec], fun st q stop e => by simp [Spec.exec] at e; rw [e.2.1]⟩
  | stop st => intro _ p; exact ⟨by simp [Spec.exec], fun st q stop e => by simp [Spec.exec] at e; rw [e.2.1]⟩
  | insert j v b ih => intro h; exact h.elim
  | remove j b ih =>
    intro h p
    rw [Spec.exec]
    split_ifs
    · exact ⟨by simp, fun st q stop e => by cases e⟩
    · exact ⟨(ih h _).1, fun st q stop e => le_trans ((ih h _).2 st q stop e) (toCome_erase p j)⟩
  | erase j b ih =>
    intro h p
    exact ⟨(ih h _).1, fun st q stop e => le_trans ((ih h _).2 st q stop e) (toCome_erase p j)⟩
  | clear b ih =>
    intro h p
    exact ⟨(ih h _).1, fun st q stop e => le_trans ((ih h _).2 st q stop e) (Nat.zero_le _)⟩
  | count j b ih => intro h p; exact ih _ (h _) p
  | contains j b ih => intro h p; exact ih _ (h _) p
  | find j b ih => intro h p; exact ih _ (h _) p
  | size b ih => intro h p; exact ih _ (h _) p
  | key b ih =>
    intro h p
    cases p with
    | «at» c x a => exact ih _ (h _) _
    | gone l => exact ⟨by simp [Spec.exec], fun st q stop e => by simp [Spec.exec] at e⟩
  | read b ih =>
    intro h p
    cases p with
    | «at» c x a => exact ih _ (h _) _
    | gone l => exact ⟨by simp [Spec.exec], fun st q stop e => by simp [Spec.exec] at e⟩
  | write v b ih =>
    intro h p
    cases p with
    | «at» c x a => exact ih h _
    | gone l => exact ⟨by simp [Spec.exec], fun st q stop e => by simp [Spec.exec] at e⟩

theorem loop_ends [LinearOrder ν] (body : σ → Body κ ν σ) (hb : ∀ st, Spec.NoInsert (body st)) (n : Nat) :
    ∀ (st : σ) (b a : List (κ × ν)), a.length < n → Spec.loop body n st b a ≠ .diverge := by
  induction n with
  | zero => intro st b a h; omega
  | succ n ih =>
    intro st b a h
    cases a with
    | nil => simp [Spec.loop]
    | cons x a =>
      obtain ⟨h1, h2⟩ := exec_ends (body st) (hb st) (.at b x a)
      rw [Spec.loop]
      cases he : Spec.exec (.at b x a) (body st) with
      | exit => simp
      | ub => simp
      | diverge => exact absurd he h1
      | ok y =>
        obtain ⟨st', p, stop⟩ := y
        have h3 := h2 _ _ _ he
        rw [Out.ok_bind]
        cases stop with
        | true => simp
        | false =>
          cases p with
          | gone l => simp
          | «at» b' x' a' =>
            simp only [toCome] at h3
            simp only [List.length_cons] at h
            have := ih st' (b' ++ [x']) a' (by omega)
            simp only [Bool.false_eq_true, if_false]
            cases hl : Spec.loop body n st' (b' ++ [x']) a' with
            | diverge => exact absurd hl this
            | ok y => simp
            | exit => simp
            | ub => simp

theorem loop_sweep [LinearOrder ν] (f : σ → κ → ν → σ × ν) : ∀ (a : List (κ × ν)) (b : List (κ × ν)) (st : σ) (n : Nat), a.length < n →
    Spec.loop (fun st => .key fun k => .read fun x => .write (f st k x).2 (.done (f st k x).1)) n st b a =
      .ok ((Spec.sweep f st a).1, b ++ (Spec.sweep f st a).2, a.map fun p => p.1)
  | [], b, st, n, h => by
    obtain ⟨n, rfl⟩ : ∃ k, n = k + 1 := ⟨n - 1, by omega⟩
    simp [Spec.loop, Spec.sweep]
  | (k, x) :: a, b, st, n, h => by
    obtain ⟨n, rfl⟩ : ∃ k, n = k + 1 := ⟨n - 1, by omega⟩
    simp only [List.length_cons] at h
    have ih := loop_sweep f a (b ++ [(k, (f st k x).2)]) (f st k x).1 n (by omega)
    simp [Spec.loop, Spec.exec, ih, Spec.sweep]

theorem put_ne (k : κ) (v : ν) (l : List (κ × ν)) : ∃ y l', put k v l = y :: l' := by
  unfold put
  cases l.takeWhile (fun p => decide (p.1 ≤ k)) with
  | nil => exact ⟨_, _, rfl⟩
  | cons y l' => exact ⟨_, _, rfl⟩

/-- inserting an element that is not less in every round -/
theorem loop_insert [LinearOrder ν] (g : κ → κ) (hg : ∀ k, k ≤ g k) (v : ν) (n : Nat) : ∀ (b : List (κ × ν)) (x : κ × ν) (a : List (κ × ν)),
    Spec.loop (fun st : σ => .key fun k => .insert (g k) v (.done st)) n st b (x :: a) = .diverge := by
  induction n with
  | zero => intro b x a; rfl
  | succ n ih =>
    intro b x a
    obtain ⟨y, l, e⟩ := put_ne (g x.1) v a
    simp [Spec.loop, Spec.exec, Place.insert, not_lt.2 (hg x.1), e, ih]

end Cont.MultiLoop
