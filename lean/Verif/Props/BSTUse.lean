import Verif.Proof.BSTUse
import Verif.Props.BST

/-! # BST as a dictionary: property C145, and more on C76 -/

namespace BST.Props
open Cpp Spec

/-- **C145.**  Any program that inserts new nodes (each at most once), erases the first node of the order, and reads and changes
values, directly or through `find`, at any time: it ends without undefined behaviour, and what it prints is what a list of the
inserted nodes would give.  In particular a value is the one set last, also after the tree was restructured any number of times
and for erased nodes, and `find` finds a node of the rank iff there is one. -/
theorem C145_dictionary (n : Nat) (rk vl : Nat → Int) (h : Heap) (us : List Use) (fuel : Nat)
    (hx : ∀ p < n, h p = some (mkNode (rk p) (vl p))) (hl : Legal n rk [] [] us) (hf : us.length + 1 < fuel) :
    ∃ out s, exec fuel ⟨h, none⟩ us = .ok (out, s) ∧ May rk [] vl us out :=
  exec_may us vl _ [] [] (Inv.init hx) hl (by simpa using hf)

/-- **C145, different ranks.**  If no two nodes have the same rank, only one output is possible. -/
theorem C145_unique (rk vl : Nat → Int) (us : List Use) (out out' : List (Option Int)) (hi : ∀ p q, rk p = rk q → p = q)
    (h : May rk [] vl us out) (h' : May rk [] vl us out') : out = out' := may_unique hi us _ _ _ _ h h'

example (out : List (Option Int)) (h : May (fun p => p) [] (fun _ => 0) [.insert 4, .findSet 4 7, .find 4] out) : out = [some 7] :=
  C145_unique (fun p => p) (fun _ => 0) _ _ _ (fun p q h => by simpa using h) h
    ⟨some 4, by simp [MayFind, place], some 4, [], by simp [MayFind, place], by simp [upd], rfl⟩

def demoUse : List Use :=
  [.insert 0, .insert 1, .insert 2, .getVal 1, .setVal 1 40, .insert 3, .find 50, .findSet 70 5, .insert 4, .find 70, .erase 1,
    .getVal 3, .find 20, .erase 3, .find 20, .getRank 1, .getVal 1]

theorem demoUse_legal : Legal 7 demoRk [] [] demoUse := by
  simp [Legal, demoUse, demoRk, place]

example : ∃ out s, exec 30 ⟨demo, none⟩ demoUse = .ok (out, s) ∧ May demoRk [] demoVl demoUse out :=
  C145_dictionary 7 demoRk demoVl demo demoUse 30 (by decide) demoUse_legal (by decide)

example : (do .ok (← exec 30 ⟨demo, none⟩ demoUse).1) =
    .ok [some 1, some 0, some 5, some 3, some 3, none, some 20, some 40] := by decide +kernel

/-- **C76, nodes other than the root.**  `pre` and `suf` of any node of a search tree are its neighbours in the order, or null:
an answer that is not null is right. -/
theorem C76_null_partial (rk vl : Nat → Int) (s : St) (ls rs : List Nat) (x fuel : Nat) (H : IsTree rk vl s (ls ++ x :: rs))
    (hf : (ls ++ x :: rs).length ≤ fuel) :
    (pre fuel s.heap x = .ok none ∨ pre fuel s.heap x = .ok ls.getLast?) ∧
      (suf fuel s.heap x = .ok none ∨ suf fuel s.heap x = .ok rs.head?) := by
  obtain ⟨t, hs, -, hk, hn, -⟩ := H
  exact neighbours_any t none ls rs hs hk (by rw [hk]; exact hn) (by rw [hk]; exact hf)

example : (pre 3 (fun p => [some ⟨none, none, some 1, 1, 0⟩, some ⟨some 0, none, none, 2, 0⟩].getD p none) 0 = .ok none ∨
    pre 3 (fun p => [some ⟨none, none, some 1, 1, 0⟩, some ⟨some 0, none, none, 2, 0⟩].getD p none) 0 =
      .ok ([] : List Nat).getLast?) ∧
    (suf 3 (fun p => [some ⟨none, none, some 1, 1, 0⟩, some ⟨some 0, none, none, 2, 0⟩].getD p none) 0 = .ok none ∨
    suf 3 (fun p => [some ⟨none, none, some 1, 1, 0⟩, some ⟨some 0, none, none, 2, 0⟩].getD p none) 0 =
      .ok [1].head?) :=
  C76_null_partial (fun p => p + 1) (fun _ => 0) ⟨_, some 1⟩ [] [1] 0 3
    ⟨.node (.node .nil 0 .nil) 1 .nil, ⟨rfl, ⟨rfl, trivial, trivial⟩, trivial⟩, rfl, rfl, by decide,
      by simp [Ordered]⟩ (by decide)

/-- **C76, how many answers are right.**  In a search tree with `n` nodes, whatever its shape, exactly `n - 1` of the `2n`
answers of `pre` and `suf` are not null.  By `C76_null_partial` these are right; of the other `n + 1` only the predecessor of
the first node and the successor of the last one are. -/
theorem C76_count_partial (rk vl : Nat → Int) (s : St) (ks : List Nat) (fuel : Nat) (H : IsTree rk vl s ks)
    (hf : ks.length ≤ fuel) :
    ks.countP (fun x => decide (pre fuel s.heap x ≠ .ok none)) + ks.countP (fun x => decide (suf fuel s.heap x ≠ .ok none)) =
      ks.length - 1 := by
  obtain ⟨t, hs, -, rfl, -, -⟩ := H
  exact neighbours_count t none hs hf

example (h : Heap) (hx : ∀ p ∈ [3, 1, 2, 4], h p = some (mkNode p 0)) : ∃ s, insertAll 9 ⟨h, none⟩ [3, 1, 2, 4] = .ok s ∧
    ∃ ks : List Nat, ks.Perm [3, 1, 2, 4] ∧ ks.countP (fun x => decide (pre 9 s.heap x ≠ .ok none)) +
      ks.countP (fun x => decide (suf 9 s.heap x ≠ .ok none)) = 3 := by
  obtain ⟨s, ks, e, H, hp, -⟩ := insertAll_tree (fuel := 9) (rk := fun p => (p : Int)) (vl := fun _ => 0)
    (isTree_empty h) hx (by decide) (by simp) (by decide)
  rw [List.append_nil] at hp
  have hl := hp.length_eq
  have := C76_count_partial _ _ s ks 9 H (by rw [hl]; decide)
  rw [hl] at this
  exact ⟨s, e, ks, hp, this⟩

end BST.Props
