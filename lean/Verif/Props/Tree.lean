import Verif.Proof.Tree

/-! # C35 – C37: trees, ancestors, lowest common ancestors -/

namespace Tree
open Cpp Spec

/-- C35: after choosing a root and adding nodes (each one new, below a node already there) every node has a
depth, `getHeight` returns it, and `getAncestor(k)` is the node `k` parent steps up for `k` up to the depth
and undefined beyond (the stored table ends). -/
theorem C35_ancestors {r : Nat} {adds : List (Nat × Nat)} (hb : Built r adds) {fuel : Nat} {h0 : Heap}
    (hf : ∀ x ∈ nodes r adds, ∃ id val, h0 x = some (mkNode id val)) (hlen : adds.length < 2 ^ 30)
    (hfuel : adds.length < fuel) :
    ∃ h, run fuel h0 r adds = .ok h ∧ ∀ x ∈ nodes r adds, ∃ d : Nat, Depth (parentOf adds) r x d ∧
      getHeight h x = .ok (d : Int) ∧
      (∀ k ≤ d, ∃ z, up (parentOf adds) k x = some z ∧ getAncestor h x k = .ok z) ∧
      (∀ k : Nat, d < k → k < 2 ^ 30 → getAncestor h x k = .ub) := by
  obtain ⟨h, e, H, _⟩ := run_ok hb hf (by omega) hfuel
  refine ⟨h, e, fun x hx => ?_⟩
  obtain ⟨nd, d, h1, h2, h3, _⟩ := H.get hx
  have hd := depth_le_length hb x hx d h2
  refine ⟨d, h2, getHeight_ok H hx h2, fun k hk => ?_, fun k hk hk' => ?_⟩
  · obtain ⟨z, hz, _⟩ := up_some h2 hk
    exact ⟨z, hz, by rw [getAncestor_eq H hx (by omega), hz]⟩
  · rw [getAncestor_eq H hx hk', up_none H.root h2 hk]

/-- A path 0 - 1 - … - 5 and a path 0 - 6 - … - 10. -/
def twoPaths : List (Nat × Nat) :=
  [(1, 0), (2, 1), (3, 2), (4, 3), (5, 4), (6, 0), (7, 6), (8, 7), (9, 8), (10, 9)]

theorem twoPaths_built : Built 0 twoPaths := by
  have h0 : Built 0 [] := .root
  have h1 := Built.add (x := 1) (p := 0) h0 (by decide) (by decide)
  have h2 := Built.add (x := 2) (p := 1) h1 (by decide) (by decide)
  have h3 := Built.add (x := 3) (p := 2) h2 (by decide) (by decide)
  have h4 := Built.add (x := 4) (p := 3) h3 (by decide) (by decide)
  have h5 := Built.add (x := 5) (p := 4) h4 (by decide) (by decide)
  have h6 := Built.add (x := 6) (p := 0) h5 (by decide) (by decide)
  have h7 := Built.add (x := 7) (p := 6) h6 (by decide) (by decide)
  have h8 := Built.add (x := 8) (p := 7) h7 (by decide) (by decide)
  have h9 := Built.add (x := 9) (p := 8) h8 (by decide) (by decide)
  exact Built.add (x := 10) (p := 9) h9 (by decide) (by decide)

example : Built 0 twoPaths ∧ (∀ x ∈ nodes 0 twoPaths, ∃ id val, (fun n => some (mkNode n 0) : Heap) x = some (mkNode id val)) ∧
    twoPaths.length < 2 ^ 30 := ⟨twoPaths_built, fun x _ => ⟨x, 0, rfl⟩, by decide⟩

example : (do
    let h ← run 11 (fun n => some (mkNode n 0)) 0 twoPaths
    Out.ok (← getHeight h 9, ← getAncestor h 9 3)) = .ok (4, 6) := by decide +kernel

/-- The property C36: `LCA` returns the lowest common ancestor of any two nodes. -/
def C36 : Prop := ∀ (r : Nat) (adds : List (Nat × Nat)) (fuel : Nat) (h0 h : Heap) (x y : Nat), Built r adds →
    (∀ x ∈ nodes r adds, ∃ id val, h0 x = some (mkNode id val)) → adds.length < 2 ^ 30 →
    run fuel h0 r adds = .ok h → x ∈ nodes r adds → y ∈ nodes r adds →
    ∃ a, lca h x y = .ok (some a) ∧ IsLCA (parentOf adds) a x y

/-- C36 is false: for two nodes at depth 5 that meet only at the root the loop of `LCA` climbs to depth 1 and
then reads `ancestor[1]` of nodes with one entry. -/
theorem C36_refuted : ¬ C36 := by
  intro hC
  have w : (do
      let h ← run 11 (fun n => some (mkNode n 0)) 0 twoPaths
      lca h 5 10) = .ub := by decide +kernel
  obtain ⟨h, e, _⟩ := C35_ancestors twoPaths_built (fuel := 11) (h0 := fun n => some (mkNode n 0))
    (fun x _ => ⟨x, 0, rfl⟩) (by decide) (by decide)
  obtain ⟨a, ha, _⟩ := hC 0 twoPaths 11 _ h 5 10 twoPaths_built (fun x _ => ⟨x, 0, rfl⟩) (by decide) e
    (by decide) (by decide)
  rw [e, Out.ok_bind, ha] at w
  cases w

/-- C36, exactly: let `d` be the smaller depth and `L` the depth of the lowest common ancestor `a`. `LCA` returns
`a` if `L = d` or if `2^i ≤ L + 1 + (d - L - 1) mod 2^(i+1)` for all `i` with `2^i ≤ d`; otherwise it is
undefined. In particular it never returns a wrong node. Missing for C36: the second case. -/
theorem C36_partial {r : Nat} {adds : List (Nat × Nat)} (hb : Built r adds) {fuel : Nat} {h0 : Heap}
    (hf : ∀ x ∈ nodes r adds, ∃ id val, h0 x = some (mkNode id val)) (hlen : adds.length < 2 ^ 30)
    (hfuel : adds.length < fuel) :
    ∃ h, run fuel h0 r adds = .ok h ∧ ∀ x ∈ nodes r adds, ∀ y ∈ nodes r adds, ∃ a dx dy L d : Nat,
      IsLCA (parentOf adds) a x y ∧ Depth (parentOf adds) r x dx ∧ Depth (parentOf adds) r y dy ∧
      Depth (parentOf adds) r a L ∧ d = min dx dy ∧
      ((L = d ∨ ∀ i, 2 ^ i ≤ d → 2 ^ i ≤ L + 1 + (d - L - 1) % 2 ^ (i + 1)) → lca h x y = .ok (some a)) ∧
      (¬ (L = d ∨ ∀ i, 2 ^ i ≤ d → 2 ^ i ≤ L + 1 + (d - L - 1) % 2 ^ (i + 1)) → lca h x y = .ub) := by
  obtain ⟨h, e, H, _⟩ := run_ok hb hf (by omega) hfuel
  refine ⟨h, e, fun x hx y hy => ?_⟩
  obtain ⟨_, dx, _, hdx, _⟩ := H.get hx
  obtain ⟨_, dy, _, hdy, _⟩ := H.get hy
  have := depth_le_length hb x hx dx hdx
  have := depth_le_length hb y hy dy hdy
  obtain ⟨a, L, a1, a2, _, a4, a5⟩ := lca_ok H hx hy hdx hdy (by omega) (by omega)
  exact ⟨a, dx, dy, L, _, a1, hdx, hdy, a2, rfl, a4, a5⟩

example : (do
    let h ← run 11 (fun n => some (mkNode n 0)) 0 twoPaths
    Out.ok (← lca h 4 9, ← lca h 3 8, ← lca h 5 2)) = .ok (some 0, some 0, some 2) := by decide +kernel

/-- C36: simple sufficient conditions. `LCA` is right whenever the smaller depth is at most 4, and whenever the
shallower node is at most two edges farther from the lowest common ancestor than the root is. -/
theorem C36_simple {r : Nat} {adds : List (Nat × Nat)} (hb : Built r adds) {fuel : Nat} {h0 : Heap}
    (hf : ∀ x ∈ nodes r adds, ∃ id val, h0 x = some (mkNode id val)) (hlen : adds.length < 2 ^ 30)
    (hfuel : adds.length < fuel) :
    ∃ h, run fuel h0 r adds = .ok h ∧ ∀ x ∈ nodes r adds, ∀ y ∈ nodes r adds, ∀ dx dy L a : Nat,
      Depth (parentOf adds) r x dx → Depth (parentOf adds) r y dy →
      IsLCA (parentOf adds) a x y → Depth (parentOf adds) r a L →
      min dx dy ≤ 4 ∨ min dx dy ≤ 2 * L + 2 → lca h x y = .ok (some a) := by
  obtain ⟨h, e, H, _⟩ := run_ok hb hf (by omega) hfuel
  refine ⟨h, e, fun x hx y hy dx dy L a hdx hdy ha hL hc => ?_⟩
  have := depth_le_length hb x hx dx hdx
  have := depth_le_length hb y hy dy hdy
  obtain ⟨a', L', a1, a2, a3, a4, _⟩ := lca_ok H hx hy hdx hdy (by omega) (by omega)
  have haa : a' = a := by
    obtain ⟨i, hi⟩ := ha.2.2 a' a1.1 a1.2.1
    obtain ⟨j, hj⟩ := a1.2.2 a ha.1 ha.2.1
    obtain ⟨i1, i2⟩ := up_le H.root hL hi
    obtain ⟨j1, j2⟩ := up_le H.root a2 hj
    have := depth_unique H.root i2 a2
    have := depth_unique H.root j2 hL
    have : i = 0 := by omega
    subst this
    simp [up] at hi
    exact hi.symm
  subst haa
  have := depth_unique H.root a2 hL
  subst this
  apply a4
  by_cases hd : L' = min dx dy
  · exact .inl hd
  right
  intro i hi
  generalize min dx dy = d at *
  by_cases hm : d - L' - 1 < 2 ^ (i + 1)
  · rw [Nat.mod_eq_of_lt hm]; omega
  · rw [pow_succ] at hm
    rcases hc with hc | hc
    · have : 2 ^ i < 2 := by omega
      omega
    · omega

/-- C37: `getDistance` is the number of edges of a shortest walk, whenever `LCA` is defined (see C36). -/
theorem C37_distance {r : Nat} {adds : List (Nat × Nat)} (hb : Built r adds) {fuel : Nat} {h0 : Heap}
    (hf : ∀ x ∈ nodes r adds, ∃ id val, h0 x = some (mkNode id val)) (hlen : adds.length < 2 ^ 30)
    (hfuel : adds.length < fuel) :
    ∃ h, run fuel h0 r adds = .ok h ∧ ∀ x ∈ nodes r adds, ∀ y ∈ nodes r adds,
      ∃ n : Nat, IsDist (parentOf adds) x y n ∧ (lca h x y ≠ .ub → getDistance h x y = .ok (n : Int)) := by
  obtain ⟨h, e, H, _⟩ := run_ok hb hf (by omega) hfuel
  refine ⟨h, e, fun x hx y hy => ?_⟩
  obtain ⟨_, dx, _, hdx, _⟩ := H.get hx
  obtain ⟨_, dy, _, hdy, _⟩ := H.get hy
  have := depth_le_length hb x hx dx hdx
  have := depth_le_length hb y hy dy hdy
  obtain ⟨a, L, a1, a2, a3, a4, a5⟩ := lca_ok H hx hy hdx hdy (by omega) (by omega)
  refine ⟨_, (isDist_lca H.root hdx hdy a1 a2).1, fun hne => ?_⟩
  refine distance_ok H hx hy hdx hdy (by omega) (by omega) a1 a2 ?_
  by_contra hc
  exact hne (a5 fun q => hc (a4 q))

example : (do
    let h ← run 11 (fun n => some (mkNode n 0)) 0 twoPaths
    Out.ok (← getDistance h 4 9, ← getDistance h 3 3)) = .ok (8, 0) := by decide +kernel

end Tree
