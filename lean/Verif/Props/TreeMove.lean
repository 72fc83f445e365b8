import Verif.Proof.TreeMove
import Verif.Props.TreeGet

/-! # C146: moving a node and choosing another root, for every tree -/

namespace Tree
open Cpp Spec

section
variable {r : Nat} {adds : List (Nat × Nat)} (hb : Built r adds) {fuel : Nat} {h0 : Heap}
  (hf : ∀ x ∈ nodes r adds, ∃ id val, h0 x = some (mkNode id val)) (hlen : adds.length < 2 ^ 30) (hfuel : adds.length < fuel)
include hb hf hlen hfuel

/-- **C146 is refuted for every node that is added again.**  In any tree take a node `x` with father `q`, and any node `p`.
`addNode(x, p)` returns; then the father of `x` is `p` and its height one more than that of `p`, but every ancestor that was
defined is still the old one, in particular the ancestor of `x` one level up is `q`; `x` is still among the sons of `q`; and all
other nodes, also those below `x`, keep their heights and fathers. -/
theorem C146_move_all_refuted {x p q : Nat} (hp : p ∈ nodes r adds) (hq : parentOf adds x = some q) :
    ∃ h h' dp sp, run fuel h0 r adds = .ok h ∧ addNode fuel h x p = .ok h' ∧ Depth (parentOf adds) r p dp ∧
      getFa h' x = .ok (some p) ∧ getHeight h' x = .ok ((dp : Int) + 1) ∧
      getAncestor h' x 1 = .ok q ∧
      (∀ y k z, getAncestor h y k = .ok z → getAncestor h' y k = .ok z) ∧
      getSon h' q = .ok sp ∧ x ∈ sp ∧
      ∀ y ∈ nodes r adds, y ≠ x → getHeight h' y = getHeight h y ∧ getFa h' y = getFa h y := by
  obtain ⟨h, e, H, _⟩ := run_ok hb hf (by omega) hfuel
  have hx : x ∈ nodes r adds := ((parent_mem hb).2 x q hq).1
  have hqn : q ∈ nodes r adds := ((parent_mem hb).2 x q hq).2
  obtain ⟨nx, d, x1, hdx, _⟩ := H.get hx
  obtain ⟨np, dp, p1, hdp, _⟩ := H.get hp
  have l1 := depth_le_length hb x hx d hdx
  have l2 := depth_le_length hb p hp dp hdp
  have hd : d ≠ 0 := by
    rintro rfl
    simp [Depth, up] at hdx
    subst hdx
    rw [H.root] at hq
    cases hq
  obtain ⟨h', e', L, m1, m2⟩ := move_ok H hx hp hdx hdp hd (by omega) (fuel := fuel) (by omega)
  obtain ⟨s, a, x2⟩ := m1 nx x1
  have anc : ∀ y k z, getAncestor h y k = .ok z → getAncestor h' y k = .ok z := fun y k z q => L.climb _ _ _ q
  have up1 : up (parentOf adds) 1 x = some q := by simp [up, hq]
  have old : getAncestor h x ((1 : Nat) : Int) = .ok q := by rw [getAncestor_eq H hx (by norm_num), up1]
  obtain ⟨idq, vq, q0⟩ := hf q hqn
  obtain ⟨nq, q1, _, _, q2⟩ := (run_same e q).2 _ q0
  obtain ⟨nq', q3, _, _, q4⟩ := (addNode_same e' q).2 _ q1
  have hmem : x ∈ nq'.son := by
    rw [q4, q2]
    simp only [List.mem_append, List.mem_map, List.mem_filter, mkNode]
    left; right
    unfold parentOf at hq
    obtain ⟨b, hb1, hb2⟩ := Option.map_eq_some_iff.1 hq
    have hb3 := List.find?_some hb1
    have hb4 := List.mem_of_find?_eq_some hb1
    exact ⟨b, ⟨hb4, by simpa using hb2⟩, by simpa using hb3⟩
  refine ⟨h, h', dp, nq'.son, e, e', hdp, ?_, ?_, anc x _ q old, anc, ?_, hmem, fun y hy hne => ?_⟩
  · rw [getFa, deref_ok x2, Out.ok_bind]
  · rw [getHeight, deref_ok x2, Out.ok_bind]
  · rw [getSon, deref_ok q3, Out.ok_bind]
  · obtain ⟨ny, dy, y1, _⟩ := H.get hy
    obtain ⟨s', y2⟩ := m2 y hne ny y1
    rw [getHeight, getHeight, getFa, getFa, deref_ok y1, deref_ok y2, Out.ok_bind, Out.ok_bind, Out.ok_bind, Out.ok_bind]
    exact ⟨rfl, rfl⟩

/-- **C146 is refuted for every second root.**  In any tree choose as new root a node `x` with father `q`: it then has height 0
and no father, but its ancestor one level up is still `q` and all its other ancestors are as before, it is still among the sons of
`q`, and every other node is as before, also the heights of the nodes below `x`. -/
theorem C146_second_root_all_refuted {x q : Nat} (hq : parentOf adds x = some q) :
    ∃ h h' sp, run fuel h0 r adds = .ok h ∧ setRoot h x = .ok h' ∧
      getFa h' x = .ok none ∧ getHeight h' x = .ok 0 ∧ getAncestor h' x 1 = .ok q ∧ getAncestor h' x = getAncestor h x ∧
      getSon h' q = .ok sp ∧ x ∈ sp ∧ ∀ y ≠ x, view h' y = view h y := by
  obtain ⟨h, e, H, _⟩ := run_ok hb hf (by omega) hfuel
  have hx : x ∈ nodes r adds := ((parent_mem hb).2 x q hq).1
  have hqn : q ∈ nodes r adds := ((parent_mem hb).2 x q hq).2
  obtain ⟨nx, d, x1, hdx, _⟩ := H.get hx
  obtain ⟨h1, e1, o1, v1⟩ := (C146_setters_partial h x (by rw [x1]; simp) none 0 0).1
  have x2 : h1 x ≠ none := by
    rw [setFa, deref_ok x1, Out.ok_bind] at e1
    injection e1 with e1
    rw [← e1, store_self]; simp
  obtain ⟨h2, e2, o2, v2⟩ := (C146_setters_partial h1 x x2 none 0 0).2.2
  have es : setRoot h x = .ok h2 := by
    rw [setFa, deref_ok x1, Out.ok_bind] at e1
    injection e1 with e1
    rw [setHeight, ← e1, deref_ok (store_self _ _ _), Out.ok_bind] at e2
    injection e2 with e2
    rw [setRoot, deref_ok x1, Out.ok_bind, ← e2]
    congr 1
    funext q
    by_cases c : q = x
    · rw [c, store_self, store_self]
    · rw [store_ne _ _ c, store_ne _ _ c, store_ne _ _ c]
  simp only [view, Prod.mk.injEq] at v1 v2
  obtain ⟨a1, a2, a3, a4, a5, a6, a7⟩ := v1
  obtain ⟨b1, b2, b3, b4, b5, b6, b7⟩ := v2
  have up1 : up (parentOf adds) 1 x = some q := by simp [up, hq]
  have old : getAncestor h x ((1 : Nat) : Int) = .ok q := by rw [getAncestor_eq H hx (by norm_num), up1]
  obtain ⟨idq, vq, q0⟩ := hf q hqn
  obtain ⟨nq, q1, _, _, q2⟩ := (run_same e q).2 _ q0
  obtain ⟨nq', q3, _, _, q4⟩ := (setRoot_same es q).2 _ q1
  have hmem : x ∈ nq'.son := by
    rw [q4, q2]
    simp only [List.mem_append, List.mem_map, List.mem_filter, mkNode]
    left; right
    unfold parentOf at hq
    obtain ⟨b, hb1, hb2⟩ := Option.map_eq_some_iff.1 hq
    have hb3 := List.find?_some hb1
    have hb4 := List.mem_of_find?_eq_some hb1
    exact ⟨b, ⟨hb4, by simpa using hb2⟩, by simpa using hb3⟩
  refine ⟨h, h2, nq'.son, e, es, b1.trans a1, b4, ?_, b7.trans a7, ?_, hmem, fun y hy => (o2 y hy).trans (o1 y hy)⟩
  · rw [b7, a7]; exact old
  · rw [getSon, deref_ok q3, Out.ok_bind]

end

/-- The family of C146: node 3 has the father 1 and is moved below 2. -/
example : Built 0 family ∧ (∀ x ∈ nodes 0 family, ∃ id val, blank.heap x = some (mkNode id val)) ∧ 2 ∈ nodes 0 family ∧
    parentOf family 3 = some 1 := ⟨family_built, fun x _ => ⟨x, 10 * x, rfl⟩, by decide, by decide⟩

end Tree
