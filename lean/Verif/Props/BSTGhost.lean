import Verif.Proof.BSTGhost
import Verif.Props.BST

/-! # BST: property C40, every use of the tree after erasing an inner node -/

namespace BST.Props
open Cpp Spec

/-- **C40 is refuted for every tree.**  After any insertions `xs` let `ls ++ x :: rs` be the nodes in the order of the
tree, with at least one node on each side of `x`.  Erase `x` and then insert any further new nodes `ys` and, last, `y`
(if there is only one node before `x`, none of a smaller rank than that one).  Everything succeeds, and `find(v)`
succeeds for every `v`, but never returns `y`: the node inserted last is always lost. -/
theorem C40_lost_refuted (rk vl : Nat → Int) (h : Heap) (xs ys : List Nat) (x y fuel : Nat)
    (hn : (xs ++ (ys ++ [y])).Nodup) (hx : ∀ p ∈ xs ++ (ys ++ [y]), h p = some (mkNode (rk p) (vl p))) (hm : x ∈ xs)
    (hf : (xs ++ ys).length + 1 < fuel) :
    ∃ s ls rs, insertAll fuel ⟨h, none⟩ xs = .ok s ∧ (ls ++ x :: rs).Perm xs ∧
      ((ls ++ x :: rs).Pairwise fun a b => rk a ≤ rk b) ∧
      (ls ≠ [] → rs ≠ [] → (2 ≤ ls.length ∨ ∀ p ∈ ls, ∀ q ∈ ys ++ [y], rk p ≤ rk q) →
        ∃ s1 s2, erase fuel s x = .ok s1 ∧ insertAll fuel s1 (ys ++ [y]) = .ok s2 ∧
          ∀ v, ∃ r, find fuel s2 v = .ok r ∧ r ≠ some y) := by
  rw [List.nodup_append] at hn
  simp only [List.length_append] at hf
  obtain ⟨s, ks, e, H, hp, F⟩ := insertAll_frame (fuel := fuel) (rk := rk) (vl := vl) (isTree_empty h)
    (fun p hp => hx p (List.mem_append_left _ hp)) hn.1 (by simp) (by simp; omega)
  rw [List.append_nil] at hp
  obtain ⟨ls, rs, rfl⟩ := List.append_of_mem (hp.mem_iff.2 hm)
  have ho : Ordered rk (ls ++ x :: rs) := by obtain ⟨t, -, -, -, -, ho⟩ := H; exact ho
  have hlen := hp.length_eq
  refine ⟨s, ls, rs, e, hp, ho, fun hl hr hside => ?_⟩
  obtain ⟨s1, m, c0, c1, t, e1, hlast, G, hk, hc0, F1⟩ := erase_ghost (fuel := fuel) H hl hr (by omega)
  have hml : m ∈ ls := List.mem_of_getLast? hlast
  have hnew : ∀ p ∈ ys ++ [y], p ∉ xs := fun p hp' h' => hn.2.2 p h' p hp' rfl
  have hnew' : ∀ p ∈ ys ++ [y], p ∉ ls ++ x :: rs := fun p hp' h' => hnew p hp' (hp.mem_iff.1 h')
  have htl : t.keys.length + 1 = xs.length := by
    rw [← hlen, hk]
    have : 0 < ls.length := List.length_pos_iff.2 hl
    simp only [List.length_append, List.length_cons, List.length_dropLast]
    omega
  obtain ⟨s2, e2, hfind⟩ := G.insertAll (fuel := fuel) (ys := ys) (y := y) (fun p hp' => by
      rw [F1 p (hnew' p hp'), F p (hnew p hp') (by simp)]; exact hx p (List.mem_append_right _ hp')) hn.2.1
    (fun p hp' => ⟨fun h' => hnew' p hp' (by
        rw [hk] at h'
        simp only [List.mem_append, List.mem_cons] at h' ⊢
        rcases h' with h' | h'
        · exact .inl (List.dropLast_subset _ h')
        · exact .inr h'), by rintro rfl; exact hnew' p hp' (by simp [hml])⟩)
    (fun p hp' => by
      rcases hside with h2 | h2
      · exact .inl (hc0 h2)
      · exact .inr (h2 m hml p hp')) (by omega)
  exact ⟨s1, s2, e1, e2, hfind⟩

/-- Ranks 50, 20, 70, 20, 90 are inserted, the node of rank 70 is erased, ranks 60 and 65 are inserted. -/
example : ∃ s ls rs, insertAll 20 ⟨demo, none⟩ [0, 1, 2, 3, 4] = .ok s ∧ (ls ++ 2 :: rs).Perm [0, 1, 2, 3, 4] ∧
    ((ls ++ 2 :: rs).Pairwise fun a b => demoRk a ≤ demoRk b) ∧
    (ls ≠ [] → rs ≠ [] → (2 ≤ ls.length ∨ ∀ p ∈ ls, ∀ q ∈ [5] ++ [6], demoRk p ≤ demoRk q) →
      ∃ s1 s2, erase 20 s 2 = .ok s1 ∧ insertAll 20 s1 ([5] ++ [6]) = .ok s2 ∧
        ∀ v, ∃ r, find 20 s2 v = .ok r ∧ r ≠ some 6) :=
  C40_lost_refuted demoRk demoVl demo [0, 1, 2, 3, 4] [5] 2 6 20 (by decide) demo_fresh (by decide) (by decide)

example : (do find 20 (← insertAll 20 (← erase 20 (← insertAll 20 ⟨demo, none⟩ [0, 1, 2, 3, 4]) 2) [5, 6]) 65) =
    .ok none := by decide +kernel

/-- With one node before `x` and a smaller rank inserted next, the node is found. -/
example : (do find 20 (← insertAll 20 (← erase 20 (← insertAll 20 ⟨demo, none⟩ [0, 2, 4]) 2) [5, 1]) 20) =
    .ok (some 1) := by decide +kernel

end BST.Props
