import Verif.Proof.BSTCost
import Verif.Props.BST

/-! # BST: property C120, the number of iterations

The fuel of the models bounds the number of iterations of each loop of an operation: an operation that needs more of them
is reported as `diverge`.  So the least fuel with which an operation returns is its cost. -/

namespace BST.Props
open Cpp Spec

/-- **C120.**  A program of `m` commands (insert new nodes, erase the node that is first in the order) needs altogether at
most `m · (8 · ⌊log2 m⌋ + 4)` iterations: there are bounds, one for each command, with that sum, such that no loop of a
command exceeds its bound; the objects then form the expected search tree, and larger bounds change nothing. -/
theorem C120_amortized_partial (rk vl : Nat → Int) (h : Heap) (cs : List Cmd) (ks : List Nat)
    (hn : (inserted cs).Nodup) (hx : ∀ p ∈ inserted cs, h p = some (mkNode (rk p) (vl p)))
    (he : expect rk [] cs = some ks) :
    ∃ (bounds : List Nat) (s : St), bounds.length = cs.length ∧ bounds.sum ≤ cs.length * (8 * Nat.log 2 cs.length + 4) ∧
      runEach ⟨h, none⟩ (cs.zip bounds) = .ok s ∧ IsTree rk vl s ks ∧
      ∀ n, (∀ b ∈ bounds, b ≤ n) → run n ⟨h, none⟩ cs = .ok s := by
  obtain ⟨fs, s, t, hl, e, ⟨h1, h2, h3, h4⟩, hk, hs⟩ := runCost_tree (rk := rk) (vl := vl) (s := ⟨h, none⟩) cs.length (cs := cs)
    (t := .nil) ⟨trivial, rfl, by simp [T.keys], by simp [T.keys, Ordered]⟩ hx hn (by simp [T.keys]) (by simp [T.sz]) he
  refine ⟨fs, s, hl, ?_, e, ⟨t, h1, h2, hk, by rw [← hk]; exact h3, by rw [← hk]; exact h4⟩,
    fun n hf => runEach_le cs fs _ s n hl hf e⟩
  have : pot .nil = 0 := rfl
  omega

example : ∃ (bounds : List Nat) (s : St), bounds.length = 7 ∧ bounds.sum ≤ 7 * (8 * Nat.log 2 7 + 4) ∧
    runEach ⟨demo, none⟩ ([Cmd.insert 0, .insert 1, .insert 2, .erase 1, .insert 3, .insert 4, .erase 3].zip bounds) = .ok s ∧
    IsTree demoRk demoVl s [0, 2, 4] ∧ ∀ n, (∀ b ∈ bounds, b ≤ n) →
      run n ⟨demo, none⟩ [.insert 0, .insert 1, .insert 2, .erase 1, .insert 3, .insert 4, .erase 3] = .ok s :=
  C120_amortized_partial demoRk demoVl demo [.insert 0, .insert 1, .insert 2, .erase 1, .insert 3, .insert 4, .erase 3] [0, 2, 4]
    (by decide) (fun p hp => demo_fresh p (by revert p; decide)) (by decide)

/-- **C120 fails for `find`**, which does not splay: for every `n` there are `n` nodes whose insertion takes at most two
iterations per loop each, after which every `find` of the first of them takes `n` iterations. -/
theorem C120_find_refuted (n : Nat) (h : Heap) (hx : ∀ p < n + 1, h p = some (mkNode p 0)) :
    ∃ s, insertAll 2 ⟨h, none⟩ (List.range (n + 1)) = .ok s ∧ find (n + 1) s 0 = .ok (some 0) ∧
      ∀ fuel, fuel < n + 1 → find fuel s 0 = .diverge := by
  obtain ⟨s, e, H, -⟩ := insertAll_path (rk := fun p => (p : Int)) (vl := fun _ => 0) (s := ⟨h, none⟩) (n + 1) rfl (fun _ _ => rfl) hx
    (n + 1) le_rfl
  refine ⟨s, e, ?_, fun fuel hf => ?_⟩
  · rw [find, H.2.1]; exact search_path_ok n none (fun _ _ => rfl) H.1
  · rw [find, H.2.1]; exact search_path (n + 1) none (fun _ _ => rfl) H.1 fuel hf

example : ∃ s, insertAll 2 ⟨fun p => some (mkNode p 0), none⟩ (List.range 1000) = .ok s ∧ find 1000 s 0 = .ok (some 0) ∧
    ∀ fuel, fuel < 1000 → find fuel s 0 = .diverge :=
  C120_find_refuted 999 _ (fun _ _ => rfl)

end BST.Props
