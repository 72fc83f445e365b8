import Verif.Proof.TreeForest

/-! # C187: nodes of different trees -/

namespace Tree
open Cpp Spec

/-- The property C187: two trees without a common node; `LCA` of a node of the one and a node of the other is
`nullptr`. -/
def C187 : Prop := ∀ (r r' : Nat) (adds adds' : List (Nat × Nat)) (fuel : Nat) (h0 h1 h2 : Heap) (x y : Nat),
    Built r adds → Built r' adds' → (∀ x ∈ nodes r adds, x ∉ nodes r' adds') →
    (∀ x, x ∈ nodes r adds ∨ x ∈ nodes r' adds' → ∃ id val, h0 x = some (mkNode id val)) →
    adds.length < 2 ^ 30 → adds'.length < 2 ^ 30 →
    run fuel h0 r adds = .ok h1 → run fuel h1 r' adds' = .ok h2 → x ∈ nodes r adds → y ∈ nodes r' adds' →
    lca h2 x y = .ok none

section
variable {r r' : Nat} {adds adds' : List (Nat × Nat)} (hb : Built r adds) (hb' : Built r' adds')
  (hN : ∀ x ∈ nodes r adds, x ∉ nodes r' adds') {fuel : Nat} {h0 : Heap}
  (hf : ∀ x, x ∈ nodes r adds ∨ x ∈ nodes r' adds' → ∃ id val, h0 x = some (mkNode id val))
  (hlen : adds.length < 2 ^ 30) (hlen' : adds'.length < 2 ^ 30) (hfuel : adds.length < fuel)
  (hfuel' : adds'.length < fuel)
include hb hb' hN hf hlen hlen' hfuel hfuel'

/-- C187, exactly: for nodes of different trees, in either order, `LCA` returns `nullptr` if one more than the smaller
of the two depths is a power of two, and is undefined otherwise. Missing for C187: the second case. -/
theorem C187_partial : ∃ h1 h2, run fuel h0 r adds = .ok h1 ∧ run fuel h1 r' adds' = .ok h2 ∧
    ∀ x ∈ nodes r adds, ∀ y ∈ nodes r' adds', ∃ dx dy, Depth (parentOf adds) r x dx ∧
      Depth (parentOf adds') r' y dy ∧
      ((∃ k, min dx dy + 1 = 2 ^ k) → lca h2 x y = .ok none ∧ lca h2 y x = .ok none) ∧
      (¬ (∃ k, min dx dy + 1 = 2 ^ k) → lca h2 x y = .ub ∧ lca h2 y x = .ub) := by
  obtain ⟨h1, h2, e1, e2, H, H'⟩ := run_two hb hb' hN (h := h0) (fuel := fuel) (fun x hx => hf x (.inl hx))
    (fun x hx => hf x (.inr hx)) (by omega) (by omega) hfuel hfuel'
  refine ⟨h1, h2, e1, e2, fun x hx y hy => ?_⟩
  obtain ⟨_, dx, _, hdx, _⟩ := H.get hx
  obtain ⟨_, dy, _, hdy, _⟩ := H'.get hy
  have := depth_le_length hb x hx dx hdx
  have := depth_le_length hb' y hy dy hdy
  have k := cross_lca H H' hN hx hy hdx hdy (by omega) (by omega)
  have k' := cross_lca H' H (fun z hz q => hN z q hz) hy hx hdy hdx (by omega) (by omega)
  rw [min_comm] at k'
  exact ⟨dx, dy, hdx, hdy, fun c => ⟨k.1 c, k'.1 c⟩, fun c => ⟨k.2 c, k'.2 c⟩⟩

/-- C187, distances: `getDistance` between nodes of different trees is undefined, for every pair. -/
theorem C187_distance_refuted : ∃ h1 h2, run fuel h0 r adds = .ok h1 ∧ run fuel h1 r' adds' = .ok h2 ∧
    ∀ x ∈ nodes r adds, ∀ y ∈ nodes r' adds', getDistance h2 x y = .ub ∧ getDistance h2 y x = .ub := by
  obtain ⟨h1, h2, e1, e2, H, H'⟩ := run_two hb hb' hN (h := h0) (fuel := fuel) (fun x hx => hf x (.inl hx))
    (fun x hx => hf x (.inr hx)) (by omega) (by omega) hfuel hfuel'
  refine ⟨h1, h2, e1, e2, fun x hx y hy => ?_⟩
  obtain ⟨_, dx, _, hdx, _⟩ := H.get hx
  obtain ⟨_, dy, _, hdy, _⟩ := H'.get hy
  have := depth_le_length hb x hx dx hdx
  have := depth_le_length hb' y hy dy hdy
  exact ⟨cross_distance H H' hN hx hy hdx hdy (by omega) (by omega),
    cross_distance H' H (fun z hz q => hN z q hz) hy hx hdy hdx (by omega) (by omega)⟩

/-- C187, what a second tree leaves alone: building it changes no answer about the nodes of the first. -/
theorem C187_frame_partial : ∃ h1 h2, run fuel h0 r adds = .ok h1 ∧ run fuel h1 r' adds' = .ok h2 ∧
    ∀ x ∈ nodes r adds, getHeight h2 x = getHeight h1 x ∧
      (∀ k : Nat, k < 2 ^ 30 → getAncestor h2 x k = getAncestor h1 x k) ∧
      ∀ y ∈ nodes r adds, lca h2 x y = lca h1 x y := by
  obtain ⟨h1, e1, H1, o1⟩ := run_ok hb (h := h0) (fun x hx => hf x (.inl hx)) (by omega) hfuel
  obtain ⟨h1', h2, e1', e2, H, H'⟩ := run_two hb hb' hN (h := h0) (fuel := fuel) (fun x hx => hf x (.inl hx))
    (fun x hx => hf x (.inr hx)) (by omega) (by omega) hfuel hfuel'
  rw [e1] at e1'
  injection e1' with e1'
  subst e1'
  refine ⟨h1, h2, e1, e2, fun x hx => ?_⟩
  obtain ⟨_, dx, _, hdx, _⟩ := H.get hx
  have := depth_le_length hb x hx dx hdx
  refine ⟨by rw [getHeight_ok H hx hdx, getHeight_ok H1 hx hdx], fun k hk => ?_, fun y hy => ?_⟩
  · rw [getAncestor_eq H hx hk, getAncestor_eq H1 hx hk]
  · obtain ⟨_, dy, _, hdy, _⟩ := H.get hy
    have := depth_le_length hb y hy dy hdy
    exact lca_congr H H1 hx hy hdx hdy (by omega) (by omega)

end

/-- The paths 0 - 1 - 2 and 10 - 11 - 12 - 13. -/
def pathA : List (Nat × Nat) := [(1, 0), (2, 1)]
/-- the second path -/
def pathB : List (Nat × Nat) := [(11, 10), (12, 11), (13, 12)]

theorem pathA_built : Built 0 pathA := by
  have h1 := Built.add (x := 1) (p := 0) (Built.root (r := 0)) (by decide) (by decide)
  exact Built.add (x := 2) (p := 1) h1 (by decide) (by decide)

theorem pathB_built : Built 10 pathB := by
  have h1 := Built.add (x := 11) (p := 10) (Built.root (r := 10)) (by decide) (by decide)
  have h2 := Built.add (x := 12) (p := 11) h1 (by decide) (by decide)
  exact Built.add (x := 13) (p := 12) h2 (by decide) (by decide)

/-- C187 is false: two nodes of depth 2 in different trees. -/
theorem C187_refuted : ¬ C187 := by
  intro hC
  obtain ⟨h1, h2, e1, e2, k⟩ := C187_partial pathA_built pathB_built (by decide) (fuel := 5)
    (h0 := fun n => some (mkNode n 0)) (fun x _ => ⟨x, 0, rfl⟩) (by decide) (by decide) (by decide) (by decide)
  have a := hC 0 10 pathA pathB 5 _ h1 h2 2 12 pathA_built pathB_built (by decide) (fun x _ => ⟨x, 0, rfl⟩) (by decide)
    (by decide) e1 e2 (by decide) (by decide)
  have w : (do
      let h ← run 5 (fun n => some (mkNode n 0)) 0 pathA
      let h ← run 5 h 10 pathB
      lca h 2 12) = .ub := by decide +kernel
  rw [e1, Out.ok_bind, e2, Out.ok_bind, a] at w
  cases w

/-- The hypotheses hold for the two paths. -/
example : Built 0 pathA ∧ Built 10 pathB ∧ (∀ x ∈ nodes 0 pathA, x ∉ nodes 10 pathB) ∧
    (∀ x, x ∈ nodes 0 pathA ∨ x ∈ nodes 10 pathB → ∃ id val, (fun n => some (mkNode n 0) : Heap) x = some (mkNode id val)) :=
  ⟨pathA_built, pathB_built, by decide, fun x _ => ⟨x, 0, rfl⟩⟩

/-- Depths 1 and 3: `nullptr`; depths 2 and 3: undefined. -/
example : (do
    let h ← run 5 (fun n => some (mkNode n 0)) 0 pathA
    let h ← run 5 h 10 pathB
    lca h 1 13) = .ok none ∧ (do
    let h ← run 5 (fun n => some (mkNode n 0)) 0 pathA
    let h ← run 5 h 10 pathB
    lca h 13 2) = .ub := by decide +kernel

end Tree
