import Verif.Proof.BST

/-! # BST: properties C38, C39, C40, C41, C76 -/

namespace BST.Props
open Cpp Spec

/-- Nodes `0 … 6` with ranks 50, 20, 70, 20, 90, 60, 65. -/
def demo : Heap := fun p => if p < 7 then some (mkNode ([50, 20, 70, 20, 90, 60, 65].getD p 0) p) else none

def demoRk : Nat → Int := fun p => [50, 20, 70, 20, 90, 60, 65].getD p 0

def demoVl : Nat → Int := fun p => p

theorem demo_fresh : ∀ p ∈ [0, 1, 2, 3, 4, 5, 6], demo p = some (mkNode (demoRk p) (demoVl p)) := by decide

/-- **C38.**  After inserting any sequence of new nodes (equal ranks allowed), `find(v)` ends and returns a node of
rank `v` if some inserted node has rank `v`, and null otherwise. -/
theorem C38_find (rk vl : Nat → Int) (h : Heap) (xs : List Nat) (fuel : Nat) (hn : xs.Nodup)
    (hx : ∀ p ∈ xs, h p = some (mkNode (rk p) (vl p))) (hf : xs.length + 1 < fuel) :
    ∃ s, insertAll fuel ⟨h, none⟩ xs = .ok s ∧ ∀ v, ∃ r, find fuel s v = .ok r ∧
      (∀ p, r = some p → p ∈ xs ∧ rk p = v) ∧ (r = none → ∀ p ∈ xs, rk p ≠ v) := by
  obtain ⟨s, ks, e, H, hp, -⟩ := insertAll_tree (fuel := fuel) (rk := rk) (vl := vl) (isTree_empty h) hx hn (by simp)
    (by simpa using hf)
  rw [List.append_nil] at hp
  refine ⟨s, e, fun v => ?_⟩
  obtain ⟨r, er, a1, a2⟩ := find_tree H (fuel := fuel) (by rw [hp.length_eq]; omega) v
  exact ⟨r, er, fun p h => ⟨hp.mem_iff.1 (a1 p h).1, (a1 p h).2⟩, fun h p hm => a2 h p (hp.mem_iff.2 hm)⟩

example : ∃ s, insertAll 20 ⟨demo, none⟩ [0, 1, 2, 3, 4, 5, 6] = .ok s ∧ ∀ v, ∃ r, find 20 s v = .ok r ∧
    (∀ p, r = some p → p ∈ [0, 1, 2, 3, 4, 5, 6] ∧ demoRk p = v) ∧
    (r = none → ∀ p ∈ [0, 1, 2, 3, 4, 5, 6], demoRk p ≠ v) :=
  C38_find demoRk demoVl demo _ 20 (by decide) demo_fresh (by decide)

example : (do find 20 (← insertAll 20 ⟨demo, none⟩ [0, 1, 2, 3, 4, 5, 6]) 20) = .ok (some 3) := by decide +kernel
example : (do find 20 (← insertAll 20 ⟨demo, none⟩ [0, 1, 2, 3, 4, 5, 6]) 30) = .ok none := by decide +kernel

/-- **C39.**  After inserting any sequence of new nodes the objects form a search tree: child links are those of a
binary tree, every parent link points back, every inserted node occurs in it exactly once, from left to right the
ranks do not decrease, and the node inserted last is the root. -/
theorem C39_wellformed (rk vl : Nat → Int) (h : Heap) (xs : List Nat) (fuel : Nat) (hn : xs.Nodup)
    (hx : ∀ p ∈ xs, h p = some (mkNode (rk p) (vl p))) (hf : xs.length + 1 < fuel) :
    ∃ s t, insertAll fuel ⟨h, none⟩ xs = .ok s ∧ s.root = t.ptr ∧ Holds rk vl s.heap t none ∧ t.keys.Perm xs ∧
      (t.keys.Pairwise fun a b => rk a ≤ rk b) ∧ s.root = xs.getLast? := by
  obtain ⟨s, ks, e, ⟨t, hs, hr, hks, -, ho⟩, hp, hl⟩ := insertAll_tree (fuel := fuel) (rk := rk) (vl := vl)
    (isTree_empty h) hx hn (by simp) (by simpa using hf)
  rw [List.append_nil] at hp
  subst hks
  refine ⟨s, t, e, hr, hs, hp, ho, ?_⟩
  cases hg : xs.getLast? with
  | some p => exact hl p hg
  | none =>
    rw [List.getLast?_eq_none_iff] at hg
    subst hg
    rw [hr]
    cases t with
    | nil => rfl
    | node l p r => have := hp.length_eq; simp [T.keys] at this

example : ∃ s t, insertAll 20 ⟨demo, none⟩ [0, 1, 2, 3, 4, 5, 6] = .ok s ∧ s.root = t.ptr ∧
    Holds demoRk demoVl s.heap t none ∧ t.keys.Perm [0, 1, 2, 3, 4, 5, 6] ∧
    (t.keys.Pairwise fun a b => demoRk a ≤ demoRk b) ∧ s.root = [0, 1, 2, 3, 4, 5, 6].getLast? :=
  C39_wellformed demoRk demoVl demo _ 20 (by decide) demo_fresh (by decide)

/-- Three new nodes of ranks 1, 2, 3 (and a fourth). -/
def rows : Heap := fun p => if p < 4 then some (mkNode (p + 1) 0) else none

/-- **C40 is refuted.**  Insert ranks 1, 2, 3 and erase the node of rank 3: the code follows a null pointer. -/
theorem C40_refuted : ¬ ∀ (rk vl : Nat → Int) (h : Heap) (xs : List Nat) (x fuel : Nat), xs.Nodup →
    (∀ p ∈ xs, h p = some (mkNode (rk p) (vl p))) → x ∈ xs → xs.length + 1 < fuel →
    ∃ s s', insertAll fuel ⟨h, none⟩ xs = .ok s ∧ erase fuel s x = .ok s' ∧ ∀ v, ∃ r, find fuel s' v = .ok r ∧
      (r = none → ∀ p ∈ xs, p ≠ x → rk p ≠ v) := by
  intro h
  obtain ⟨s, s', e, e', -⟩ := h (fun p => p + 1) (fun _ => 0) rows [0, 1, 2] 2 10 (by decide) (by decide) (by decide)
    (by decide)
  have : (do erase 10 (← insertAll 10 ⟨rows, none⟩ [0, 1, 2]) 2) = .ok s' := by rw [e]; exact e'
  have h2 : (match (do erase 10 (← insertAll 10 ⟨rows, none⟩ [0, 1, 2]) 2) with | .ub => true | _ => false) = true := by
    decide +kernel
  rw [this] at h2
  cases h2

/-- **C40, further use is refuted.**  Insert ranks 1, 3, 2, erase the node of rank 2 (this succeeds), insert a node
of rank 4 (this succeeds): `find(4)` returns null. -/
theorem C40_use_after_erase_refuted : ∃ s1 s2 s3, insertAll 10 ⟨rows, none⟩ [0, 2, 1] = .ok s1 ∧
    erase 10 s1 1 = .ok s2 ∧ insert 10 s2 3 = .ok s3 ∧ find 10 s3 4 = .ok none := by
  have h : (match insertAll 10 ⟨rows, none⟩ [0, 2, 1] with
    | .ok s1 => (match erase 10 s1 1 with
      | .ok s2 => (match insert 10 s2 3 with | .ok s3 => decide (find 10 s3 4 = .ok none) | _ => false)
      | _ => false)
    | _ => false) = true := by decide +kernel
  cases h1 : insertAll 10 ⟨rows, none⟩ [0, 2, 1] with
  | ok s1 =>
    rw [h1] at h
    dsimp only at h
    cases h2 : erase 10 s1 1 with
    | ok s2 =>
      rw [h2] at h
      dsimp only at h
      cases h3 : insert 10 s2 3 with
      | ok s3 => rw [h3] at h; exact ⟨s1, s2, s3, rfl, h2, h3, of_decide_eq_true h⟩
      | _ => rw [h3] at h; cases h
    | _ => rw [h2] at h; cases h
  | _ => rw [h1] at h; cases h

/-- **C40, what holds of one erasure.**  After any insertions let `ls ++ x :: rs` be the nodes in the order of the
tree.  If `x` is the last of several nodes, `erase(x)` is undefined.  Otherwise it succeeds and `find` afterwards
answers for exactly the other nodes.  (Missing: the first case, and any use of the tree after that other than
`find`, see `C40_use_after_erase_refuted`.) -/
theorem C40_partial (rk vl : Nat → Int) (h : Heap) (xs : List Nat) (x fuel : Nat) (hn : xs.Nodup)
    (hx : ∀ p ∈ xs, h p = some (mkNode (rk p) (vl p))) (hm : x ∈ xs) (hf : xs.length + 1 < fuel) :
    ∃ s ls rs, insertAll fuel ⟨h, none⟩ xs = .ok s ∧ (ls ++ x :: rs).Perm xs ∧
      ((ls ++ x :: rs).Pairwise fun a b => rk a ≤ rk b) ∧
      (rs = [] → ls ≠ [] → erase fuel s x = .ub) ∧
      (rs ≠ [] ∨ ls = [] → ∃ s', erase fuel s x = .ok s' ∧ ∀ v, ∃ r, find fuel s' v = .ok r ∧
        (∀ p, r = some p → p ∈ xs ∧ p ≠ x ∧ rk p = v) ∧ (r = none → ∀ p ∈ xs, p ≠ x → rk p ≠ v)) := by
  obtain ⟨s, ks, e, H, hp, hl⟩ := insertAll_tree (fuel := fuel) (rk := rk) (vl := vl)
    (isTree_empty h) hx hn (by simp) (by simpa using hf)
  rw [List.append_nil] at hp
  obtain ⟨ls, rs, rfl⟩ := List.append_of_mem (hp.mem_iff.2 hm)
  have ho : Ordered rk (ls ++ x :: rs) := by obtain ⟨t, -, -, -, -, ho⟩ := H; exact ho
  have hnk : (ls ++ x :: rs).Nodup := by obtain ⟨t, -, -, -, hnk, -⟩ := H; exact hnk
  have hlen := hp.length_eq
  have hmem : ∀ p, p ∈ ls ++ rs ↔ p ∈ xs ∧ p ≠ x := by
    intro p
    rw [← hp.mem_iff]
    have hx' : x ∉ ls ++ rs := by
      have := (List.nodup_middle.1 hnk); exact (List.nodup_cons.1 this).1
    constructor
    · intro hq
      exact ⟨by simp at hq ⊢; tauto, by rintro rfl; exact hx' hq⟩
    · rintro ⟨h1, h2⟩
      simp at h1 ⊢; tauto
  refine ⟨s, ls, rs, e, hp, ho, ?_, ?_⟩
  · rintro rfl hl
    exact erase_last H hl (by simp at hlen; omega)
  · intro hc
    have concl : ∀ s' t, HoldsDown rk vl s'.heap t → s'.root = t.ptr → t.keys = ls ++ rs → ∀ v,
        ∃ r, find fuel s' v = .ok r ∧ (∀ p, r = some p → p ∈ xs ∧ p ≠ x ∧ rk p = v) ∧
          (r = none → ∀ p ∈ xs, p ≠ x → rk p ≠ v) := by
      intro s' t hd hr hk v
      have hot : Ordered rk t.keys := by
        rw [hk]
        exact List.Pairwise.sublist (List.Sublist.append_left (List.sublist_cons_self x rs) ls) ho
      have hlt : t.keys.length < fuel := by rw [hk]; simp at hlen ⊢; omega
      obtain ⟨r, er, a1, a2⟩ := search_down (v := v) (fuel := fuel) hd hot hlt
      refine ⟨r, by unfold find; rw [hr]; exact er, fun p hpr => ?_, fun hpr p h1 h2 => ?_⟩
      · obtain ⟨b1, b2⟩ := a1 p hpr
        rw [hk, hmem] at b1
        exact ⟨b1.1, b1.2, b2⟩
      · exact a2 hpr p (by rw [hk, hmem]; exact ⟨h1, h2⟩)
    by_cases hl0 : ls = []
    · subst hl0
      obtain ⟨s', e', ⟨t, hs, hr, hk, -, -⟩, -⟩ := erase_first (fuel := fuel) H (by simp at hlen; omega)
      exact ⟨s', e', concl s' t hs.down hr (by simpa using hk)⟩
    · have hr0 : rs ≠ [] := by tauto
      obtain ⟨s', t, e', hd, hr, hk⟩ := erase_middle (fuel := fuel) H hl0 hr0 (by omega)
      exact ⟨s', e', concl s' t hd hr hk⟩

example : ∃ s ls rs, insertAll 20 ⟨demo, none⟩ [0, 1, 2, 3, 4, 5, 6] = .ok s ∧
    (ls ++ 2 :: rs).Perm [0, 1, 2, 3, 4, 5, 6] ∧ ((ls ++ 2 :: rs).Pairwise fun a b => demoRk a ≤ demoRk b) ∧
    (rs = [] → ls ≠ [] → erase 20 s 2 = .ub) ∧
    (rs ≠ [] ∨ ls = [] → ∃ s', erase 20 s 2 = .ok s' ∧ ∀ v, ∃ r, find 20 s' v = .ok r ∧
      (∀ p, r = some p → p ∈ [0, 1, 2, 3, 4, 5, 6] ∧ p ≠ 2 ∧ demoRk p = v) ∧
      (r = none → ∀ p ∈ [0, 1, 2, 3, 4, 5, 6], p ≠ 2 → demoRk p ≠ v)) :=
  C40_partial demoRk demoVl demo _ 2 20 (by decide) demo_fresh (by decide) (by decide)

/-- **C40, a safe discipline.**  Programs of any length that insert new nodes and erase only the node that is first
in the order (a priority queue) run without undefined behaviour; afterwards the objects form a search tree whose
nodes, from left to right, are the expected ones, and `find` answers for exactly them. -/
theorem C40_queue_partial (rk vl : Nat → Int) (h : Heap) (cs : List Cmd) (ks : List Nat) (fuel : Nat)
    (hn : (inserted cs).Nodup) (hx : ∀ p ∈ inserted cs, h p = some (mkNode (rk p) (vl p)))
    (hf : cs.length + 1 < fuel) (he : expect rk [] cs = some ks) :
    ∃ s, run fuel ⟨h, none⟩ cs = .ok s ∧ IsTree rk vl s ks ∧ ∀ v, ∃ r, find fuel s v = .ok r ∧
      (∀ p, r = some p → p ∈ ks ∧ rk p = v) ∧ (r = none → ∀ p ∈ ks, rk p ≠ v) := by
  obtain ⟨s, e, H, hl⟩ := run_tree (fuel := fuel) (isTree_empty h) hx hn (by simp) (by simpa using hf) he
  exact ⟨s, e, H, fun v => find_tree H (by simp at hl; omega) v⟩

example : ∃ s, run 20 ⟨demo, none⟩ [.insert 0, .insert 1, .insert 2, .erase 1, .insert 3, .insert 4, .erase 3, .erase 0] =
      .ok s ∧ IsTree demoRk demoVl s [2, 4] ∧ ∀ v, ∃ r, find 20 s v = .ok r ∧
      (∀ p, r = some p → p ∈ [2, 4] ∧ demoRk p = v) ∧ (r = none → ∀ p ∈ [2, 4], demoRk p ≠ v) :=
  C40_queue_partial demoRk demoVl demo _ [2, 4] 20 (by decide) (fun p hp => demo_fresh p (by
    revert p; decide)) (by decide) (by decide)

/-- **C41.**  Right after `x` was inserted, `pre(x)` returns the node before it and `suf(x)` the node after it in the
order of the tree (all nodes before `x` have at most its rank, all after it a greater one), or null. -/
theorem C41_neighbours (rk vl : Nat → Int) (h : Heap) (xs : List Nat) (x fuel : Nat) (hn : (xs ++ [x]).Nodup)
    (hx : ∀ p ∈ xs ++ [x], h p = some (mkNode (rk p) (vl p))) (hf : xs.length + 2 < fuel) :
    ∃ (s : St) (ls rs : List Nat), insertAll fuel ⟨h, none⟩ (xs ++ [x]) = .ok s ∧ (ls ++ rs).Perm xs ∧
      ((ls ++ rs).Pairwise fun a b => rk a ≤ rk b) ∧ (∀ p ∈ ls, rk p ≤ rk x) ∧ (∀ p ∈ rs, rk x < rk p) ∧
      pre fuel s.heap x = .ok ls.getLast? ∧ suf fuel s.heap x = .ok rs.head? := by
  rw [List.nodup_append] at hn
  obtain ⟨s, ks, e, H, hp, F⟩ := insertAll_frame (fuel := fuel) (rk := rk) (vl := vl) (isTree_empty h)
    (fun p hp => hx p (by simp [hp])) hn.1 (by simp) (by simp; omega)
  rw [List.append_nil] at hp
  have hxs : x ∉ xs := fun hm => hn.2.2 x hm x (by simp) rfl
  have hlen := hp.length_eq
  obtain ⟨s', ls, rs, e', hr, hks, h1, h2, H', -⟩ := insert_tree (fuel := fuel) H
    ((F x hxs (by simp)).trans (hx x (by simp))) (fun hm => hxs (hp.mem_iff.1 hm)) (by omega)
  subst hks
  have ho : Ordered rk (ls ++ rs) := by obtain ⟨t, -, -, -, -, ho⟩ := H; exact ho
  obtain ⟨hpre, hsuf⟩ := neighbours_root (fuel := fuel) H' hr (by simp at hlen ⊢; omega)
  exact ⟨s', ls, rs, by rw [insertAll_concat, e]; exact e', hp, ho, h1, h2, hpre, hsuf⟩

example : ∃ (s : St) (ls rs : List Nat), insertAll 20 ⟨demo, none⟩ ([0, 1, 2, 3, 4, 5] ++ [6]) = .ok s ∧
    (ls ++ rs).Perm [0, 1, 2, 3, 4, 5] ∧ ((ls ++ rs).Pairwise fun a b => demoRk a ≤ demoRk b) ∧
    (∀ p ∈ ls, demoRk p ≤ demoRk 6) ∧ (∀ p ∈ rs, demoRk 6 < demoRk p) ∧
    pre 20 s.heap 6 = .ok ls.getLast? ∧ suf 20 s.heap 6 = .ok rs.head? :=
  C41_neighbours demoRk demoVl demo [0, 1, 2, 3, 4, 5] 6 20 (by decide) demo_fresh (by decide)

/-- **C76 is refuted.**  With ranks 1 and 2 inserted in this order, `suf` of the node of rank 1 is null. -/
theorem C76_refuted : ¬ ∀ (rk vl : Nat → Int) (h : Heap) (xs : List Nat) (fuel : Nat), xs.Nodup →
    (∀ p ∈ xs, h p = some (mkNode (rk p) (vl p))) → xs.length + 1 < fuel →
    ∃ s, insertAll fuel ⟨h, none⟩ xs = .ok s ∧ ∀ x ∈ xs, suf fuel s.heap x = .ok none → ∀ p ∈ xs, rk p ≤ rk x := by
  intro h
  obtain ⟨s, e, hs⟩ := h (fun p => p + 1) (fun _ => 0) rows [0, 1] 10 (by decide) (by decide) (by decide)
  have h2 : (do suf 10 (← insertAll 10 ⟨rows, none⟩ [0, 1]).heap 0) = .ok none := by decide +kernel
  rw [e] at h2
  have := hs 0 (by decide) h2 1 (by decide)
  simp at this

/-- **C76, what holds.**  In any search tree, `pre` and `suf` of the node at the root are its neighbours in the
order.  (Missing: for other nodes only the node's own subtree is searched.) -/
theorem C76_partial (rk vl : Nat → Int) (s : St) (ls rs : List Nat) (x fuel : Nat)
    (H : IsTree rk vl s (ls ++ x :: rs)) (hr : s.root = some x) (hf : (ls ++ x :: rs).length ≤ fuel) :
    pre fuel s.heap x = .ok ls.getLast? ∧ suf fuel s.heap x = .ok rs.head? := neighbours_root H hr hf

example : pre 3 (fun p => [some ⟨none, none, some 1, 1, 0⟩, some ⟨some 0, none, none, 2, 0⟩].getD p none) 1 =
    .ok (some 0) :=
  (C76_partial (fun p => p + 1) (fun _ => 0) ⟨_, some 1⟩ [0] [] 1 3
    ⟨.node (.node .nil 0 .nil) 1 .nil, ⟨rfl, ⟨rfl, trivial, trivial⟩, trivial⟩, rfl, rfl, by decide,
      by simp [Ordered]⟩ rfl (by decide)).1

end BST.Props
