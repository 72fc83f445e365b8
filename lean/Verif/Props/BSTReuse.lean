import Verif.Proof.BSTReuse
import Verif.Props.BST

/-! # BST: property C185, using a node again -/

namespace BST.Props
open Cpp Spec

/-- **C185 is refuted.**  Insert nodes of ranks 1 and 2, erase the node of rank 1 and insert it again: `insert` never
returns. -/
theorem C185_refuted : ∃ s s1, insertAll 10 ⟨rows, none⟩ [0, 1] = .ok s ∧ erase 10 s 0 = .ok s1 ∧
    ∀ fuel, insert fuel s1 0 = .diverge :=
  ⟨_, _, rfl, rfl, pair_again (k := 1) (k' := 2) (v := 0) (v' := 0) (by decide) rfl rfl rfl⟩

/-- **C185 is refuted for every tree.**  After any insertions of at least two nodes, erase any node `x` and insert it again.
Whatever the calls do, the result is not a search tree of all the nodes: `erase` fails, or `insert` does not return, or the
links do not form a tree. -/
theorem C185_never_refuted (rk vl rk' vl' : Nat → Int) (h : Heap) (xs ks : List Nat) (x fuel fuel' : Nat) (hn : xs.Nodup)
    (hx : ∀ p ∈ xs, h p = some (mkNode (rk p) (vl p))) (hm : x ∈ xs) (h2 : 2 ≤ xs.length) (hf : xs.length + 1 < fuel)
    (hp : ks.Perm xs) :
    ∃ s, insertAll fuel ⟨h, none⟩ xs = .ok s ∧
      ∀ s1 s2, erase fuel s x = .ok s1 → insert fuel' s1 x = .ok s2 → ¬ IsTree rk' vl' s2 ks := by
  obtain ⟨s, os, e, H, hp', -⟩ := insertAll_tree (fuel := fuel) (rk := rk) (vl := vl) (isTree_empty h) hx hn (by simp)
    (by simpa using hf)
  rw [List.append_nil] at hp'
  have hlen := hp'.length_eq
  obtain ⟨ls, rs, rfl⟩ := List.append_of_mem (hp'.mem_iff.2 hm)
  have hnk : (ls ++ x :: rs).Nodup := by obtain ⟨t, -, -, -, hnk, -⟩ := H; exact hnk
  refine ⟨s, e, fun s1 s2 e1 e2 => ?_⟩
  have key : Inside s1.heap (ls ++ x :: rs) ∧ (ls ++ x :: rs).length ≤ count s1.heap (ls ++ x :: rs) + 1 ∧
      ∃ r ∈ ls ++ x :: rs, s1.root = some r := by
    by_cases hl : ls = []
    · subst hl
      have hr : rs ≠ [] := by rintro rfl; simp at hlen; omega
      obtain ⟨a1, a2, r, a3, a4⟩ := erase_first_count (fuel := fuel) H hr (by simp at hlen; omega) e1
      exact ⟨a1, by rw [List.nil_append, a2]; simp, r, by simp [a3], a4⟩
    · by_cases hr : rs = []
      · subst hr
        rw [erase_last H hl (by simp at hlen; omega)] at e1
        cases e1
      · exact erase_middle_count H hl hr (by omega) e1
  obtain ⟨I, hc, r, hrm, hr⟩ := key
  have hins := insert_count hnk I (by simp) hr hrm e2
  refine not_tree (hp.trans hp'.symm) (by simp) ?_
  omega

example : ∃ s, insertAll 20 ⟨demo, none⟩ [0, 1, 2, 3, 4] = .ok s ∧
    ∀ s1 s2, erase 20 s 2 = .ok s1 → insert 50 s1 2 = .ok s2 → ¬ IsTree demoRk demoVl s2 [1, 3, 0, 2, 4] :=
  C185_never_refuted demoRk demoVl demoRk demoVl demo [0, 1, 2, 3, 4] [1, 3, 0, 2, 4] 2 20 50 (by decide)
    (fun p hp => demo_fresh p (by revert p; decide)) (by decide) (by decide) (by decide) (by decide)

/-- Four nodes of ranks 1, 2, 3, 4: `insert` returns, with the node 3 being both children of the node 1. -/
example : (do .ok ((← insert 20 (← erase 20 (← insertAll 20 ⟨rows, none⟩ [0, 1, 2, 3]) 0) 0).heap 1)) =
    .ok (some ⟨some 3, some 3, some 0, 2, 0⟩) := by decide +kernel

/-- **C185, inserting a node that is in the tree, is refuted.**  The result is never a search tree of the nodes. -/
theorem C185_twice_refuted (rk vl rk' vl' : Nat → Int) (s s2 : St) (ks ks' : List Nat) (x fuel : Nat) (H : IsTree rk vl s ks)
    (hm : x ∈ ks) (hp : ks'.Perm ks) (e : insert fuel s x = .ok s2) : ¬ IsTree rk' vl' s2 ks' := by
  obtain ⟨t, hs, hr, hk, hn, ho⟩ := H
  subst hk
  have hc := count_holds hs
  have hb : bit t.ptr ≤ 1 := by unfold bit; split <;> omega
  cases ht : t.ptr with
  | none => cases t with
    | nil => simp [T.keys] at hm
    | node _ _ _ => cases ht
  | some r =>
    have hins := insert_count hn (inside_tree hs) hm (hr.trans ht) (ptr_mem ht) e
    exact not_tree hp (List.ne_nil_of_mem hm) (by omega)

/-- Two nodes of the same rank, the first inserted twice: `insert` returns, and the node 0 has the node 1 as both children. -/
example : ∃ s2, (do insert 20 (← insertAll 20 ⟨fun p => if p < 2 then some (mkNode 5 0) else none, none⟩ [0, 1]) 0) = .ok s2 ∧
    ¬ IsTree (fun _ => 5) (fun _ => 0) s2 [0, 1] := by
  obtain ⟨s, ks, e, H, hp, -⟩ := insertAll_tree (fuel := 20) (rk := fun _ => 5) (vl := fun _ => 0)
    (isTree_empty fun p => if p < 2 then some (mkNode 5 0) else none) (xs := [0, 1]) (by decide) (by decide) (by decide) (by decide)
  rw [List.append_nil] at hp
  rw [e, Out.ok_bind]
  have h2 : (match (do insert 20 (← insertAll 20 ⟨fun p => if p < 2 then some (mkNode 5 0) else none, none⟩ [0, 1]) 0) with
    | .ok _ => true | _ => false) = true := by decide +kernel
  rw [e, Out.ok_bind] at h2
  cases h3 : insert 20 s 0 with
  | ok s2 =>
    exact ⟨s2, rfl, C185_twice_refuted _ _ _ _ s s2 ks [0, 1] 0 20 H (hp.mem_iff.2 (by decide)) hp.symm h3⟩
  | _ => rw [h3] at h2; cases h2

/-- **C185, inserting a node that is in the tree, different ranks.**  If no other node has the rank of `x`, inserting `x` again
never returns. -/
theorem C185_endless_refuted (rk vl : Nat → Int) (h : Heap) (xs : List Nat) (x fuel : Nat) (hn : xs.Nodup)
    (hx : ∀ p ∈ xs, h p = some (mkNode (rk p) (vl p))) (hm : x ∈ xs) (hd : ∀ p ∈ xs, p ≠ x → rk p ≠ rk x)
    (hf : xs.length + 1 < fuel) :
    ∃ s, insertAll fuel ⟨h, none⟩ xs = .ok s ∧ ∀ fuel', insert fuel' s x = .diverge := by
  obtain ⟨s, ks, e, H, hp, -⟩ := insertAll_tree (fuel := fuel) (rk := rk) (vl := vl) (isTree_empty h) hx hn (by simp)
    (by simpa using hf)
  rw [List.append_nil] at hp
  exact ⟨s, e, insert_again H (hp.mem_iff.2 hm) fun p hpk => hd p (hp.mem_iff.1 hpk)⟩

example : ∃ s, insertAll 20 ⟨demo, none⟩ [0, 1, 2, 3, 4, 5, 6] = .ok s ∧ ∀ fuel, insert fuel s 5 = .diverge :=
  C185_endless_refuted demoRk demoVl demo _ 5 20 (by decide) demo_fresh (by decide) (by decide) (by decide)

/-- **C185, what holds.**  Programs of any length, starting with no objects at all, that make node objects, insert them, erase
the first node, make erased objects anew with any rank and value and insert them again, any number of times.  (A node that was
alone in the tree need not be made anew.)  They run without undefined behaviour; at the end the tree has the expected nodes in
the expected order, with the ranks and values last given, and `find` answers for exactly these.  (Missing: inserting an erased
node as it is, and erasing nodes other than the first.) -/
theorem C185_partial (cs : List Re) (w : Plan) (fuel : Nat) (hf : cs.length + 1 < fuel)
    (hw : plan ⟨[], fun _ => 0, fun _ => 0, []⟩ cs = some w) :
    ∃ s, runRe fuel ⟨fun _ => none, none⟩ cs = .ok s ∧ IsTree w.rk w.vl s w.ks ∧ ∀ v, ∃ r, find fuel s v = .ok r ∧
      (∀ p, r = some p → p ∈ w.ks ∧ w.rk p = v) ∧ (r = none → ∀ p ∈ w.ks, w.rk p ≠ v) := by
  obtain ⟨s, e, K, hl⟩ := runRe_known (fuel := fuel) (cs := cs) (w := ⟨[], fun _ => 0, fun _ => 0, []⟩)
    (s := ⟨fun _ => none, none⟩) ⟨isTree_empty _, by simp⟩ (by simpa using hf) hw
  exact ⟨s, e, K.tree, fun v => find_tree K.tree (by simp at hl; omega) v⟩

/-- Two objects are used for three nodes each. -/
def demoRe : List Re :=
  [.make 0 5 10, .insert 0, .erase 0, .insert 0, .make 1 3 20, .insert 1, .erase 1, .make 1 8 30, .insert 1, .erase 0,
    .make 0 9 40, .insert 0]

example : ∃ s, runRe 20 ⟨fun _ => none, none⟩ demoRe = .ok s ∧ ∃ w, plan ⟨[], fun _ => 0, fun _ => 0, []⟩ demoRe = some w ∧
    w.ks = [1, 0] ∧ w.rk 0 = 9 ∧ w.rk 1 = 8 ∧ IsTree w.rk w.vl s w.ks := by
  obtain ⟨s, e, H, -⟩ := C185_partial demoRe _ 20 (by decide) rfl
  exact ⟨s, e, _, rfl, by decide, by decide, by decide, H⟩

example : (do find 20 (← runRe 20 ⟨fun _ => none, none⟩ demoRe) 8) = .ok (some 1) := by decide +kernel

end BST.Props
