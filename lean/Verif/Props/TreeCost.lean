import Verif.Proof.TreeCost
import Verif.Props.Tree
import Mathlib.Data.Nat.Size

/-! # C159: trees are fast

`Nat.size d` is the number of binary digits of `d`, that is `⌊log2 d⌋ + 1` for `d > 0`. -/

namespace Tree
open Cpp Spec

/-- **C159, the counter.**  The functions with a counter compute what the functions of the library compute. -/
theorem C159_same (h : Heap) (x y : Nat) (level : Int) :
    lca h x y = (do let (a, _) ← lcaC h x y; .ok a) ∧ getAncestor h x level = (do let (a, _) ← getAncestorC h x level; .ok a) :=
  ⟨(lcaC_drop h x y).symm, (climbC_drop h level 31 x 0).symm⟩

example : (do
    let h ← run 11 (fun n => some (mkNode n 0)) 0 twoPaths
    Out.ok (← lcaC h 4 9, ← lcaC h 5 2)) = .ok ((some 0, 3), (some 2, 2)) := by decide +kernel

/-- **C159, building and memory.**  Building the tree gives the same with every bound on the rounds of `addNode` that is at least
the number of binary digits of all depths; the table of a node of depth `d` has as many entries as `d` has binary digits. -/
theorem C159_build {r : Nat} {adds : List (Nat × Nat)} (hb : Built r adds) {h0 : Heap}
    (hf : ∀ x ∈ nodes r adds, ∃ id val, h0 x = some (mkNode id val)) (hlen : adds.length < 2 ^ 30) :
    ∃ h, (∀ f, (∀ x ∈ nodes r adds, ∀ d, Depth (parentOf adds) r x d → Nat.size d ≤ f) → run f h0 r adds = .ok h) ∧
      ∀ x ∈ nodes r adds, ∃ d nd, Depth (parentOf adds) r x d ∧ h x = some nd ∧ nd.ancestor.length = Nat.size d := by
  obtain ⟨h, H, -, e⟩ := run_fuel hb hf (by omega)
  refine ⟨h, fun f hD => e f fun x hx d hd => Nat.size_le.1 (hD x hx d hd), fun x hx => ?_⟩
  obtain ⟨nd, d, h1, h2, -⟩ := H.get hx
  exact ⟨d, nd, h2, h1, anc_length_eq H hx h2 h1⟩

/-- The two paths have depth 5, with three binary digits; two rounds are too few. -/
example : (∃ h, run 3 (fun n => some (mkNode n 0)) 0 twoPaths = .ok h) ∧
    (do let _ ← run 2 (fun n => some (mkNode n 0)) 0 twoPaths; Out.ok ()) = .diverge := by
  refine ⟨?_, by decide +kernel⟩
  obtain ⟨h, e, -⟩ := C159_build twoPaths_built (h0 := fun n => some (mkNode n 0)) (fun x _ => ⟨x, 0, rfl⟩) (by decide)
  refine ⟨h, e 3 fun x hx d hd => ?_⟩
  have : ∀ x ∈ nodes 0 twoPaths, ∃ d < 6, Depth (parentOf twoPaths) 0 x d := by unfold Depth; decide +kernel
  obtain ⟨d', h1, h2⟩ := this x hx
  rw [depth_unique (by decide +kernel) hd h2]
  exact Nat.size_le.2 (by omega)

/-- **C159, queries.**  In a tree built by `addNode`, `getAncestor(level)` takes at most as many rounds as `level` has binary
digits; `LCA` takes at most twice as many as the larger depth has. -/
theorem C159_query {r : Nat} {adds : List (Nat × Nat)} (hb : Built r adds) {fuel : Nat} {h0 : Heap}
    (hf : ∀ x ∈ nodes r adds, ∃ id val, h0 x = some (mkNode id val)) (hlen : adds.length < 2 ^ 30)
    (hfuel : adds.length < fuel) :
    ∃ h, run fuel h0 r adds = .ok h ∧
      (∀ x (level z k : Nat), getAncestorC h x level = .ok (z, k) → k ≤ Nat.size level) ∧
      ∀ x ∈ nodes r adds, ∀ y ∈ nodes r adds, ∀ dx dy k o, Depth (parentOf adds) r x dx → Depth (parentOf adds) r y dy →
        lcaC h x y = .ok (o, k) → k ≤ 2 * Nat.size (max dx dy) := by
  obtain ⟨h, e, H, _⟩ := run_ok hb hf (by omega) hfuel
  refine ⟨h, e, fun x level z k hk => ?_, fun x hx y hy dx dy k o hdx hdy hk => ?_⟩
  · have := climbC_le (f := Nat.size level) (by exact_mod_cast Nat.lt_size_self level) (le_refl 31) hk
    omega
  · have := depth_le_length hb x hx dx hdx
    have := depth_le_length hb y hy dy hdy
    have := Nat.lt_size_self (max dx dy)
    exact lcaC_le H hx hy hdx hdy (by omega) (by omega) (by omega) (by omega) hk

/-- Meeting at the root from depth 4 takes 3 of at most 6 rounds. -/
example : ∃ h, run 11 (fun n => some (mkNode n 0)) 0 twoPaths = .ok h ∧ lcaC h 4 9 = .ok (some 0, 3) ∧ 3 ≤ 2 * Nat.size (max 4 4) := by
  obtain ⟨h, e, -, H⟩ := C159_query twoPaths_built (fuel := 11) (h0 := fun n => some (mkNode n 0)) (fun x _ => ⟨x, 0, rfl⟩)
    (by decide) (by decide)
  have w : (do let h ← run 11 (fun n => some (mkNode n 0)) 0 twoPaths; lcaC h 4 9) = .ok (some 0, 3) := by decide +kernel
  rw [e, Out.ok_bind] at w
  exact ⟨h, e, w, H 4 (by decide) 9 (by decide) 4 4 3 _ (by unfold Depth; decide +kernel) (by unfold Depth; decide +kernel) w⟩

/-- **C159, the exact number of rounds.**  `getAncestor(level)` takes as many rounds as `level` has binary digits.  `LCA` takes as
many as the difference of the depths has, and, unless one node is above the other, as many more as the smaller depth has. -/
theorem C159_exact {r : Nat} {adds : List (Nat × Nat)} (hb : Built r adds) {fuel : Nat} {h0 : Heap}
    (hf : ∀ x ∈ nodes r adds, ∃ id val, h0 x = some (mkNode id val)) (hlen : adds.length < 2 ^ 30)
    (hfuel : adds.length < fuel) :
    ∃ h, run fuel h0 r adds = .ok h ∧
      (∀ x (level z k : Nat), getAncestorC h x level = .ok (z, k) → k = Nat.size level) ∧
      ∀ x ∈ nodes r adds, ∀ y ∈ nodes r adds, ∀ dx dy k o, Depth (parentOf adds) r x dx → Depth (parentOf adds) r y dy →
        lcaC h x y = .ok (o, k) →
        (IsAnc (parentOf adds) x y ∨ IsAnc (parentOf adds) y x → k = Nat.size (max dx dy - min dx dy)) ∧
        (¬ (IsAnc (parentOf adds) x y ∨ IsAnc (parentOf adds) y x) → k = Nat.size (max dx dy - min dx dy) + Nat.size (min dx dy)) := by
  obtain ⟨h, e, H, _⟩ := run_ok hb hf (by omega) hfuel
  refine ⟨h, e, fun x level z k hk => ?_, fun x hx y hy dx dy k o hdx hdy hk => ?_⟩
  · have := climbC_eq (le_refl 31) hk
    omega
  · have := depth_le_length hb x hx dx hdx
    have := depth_le_length hb y hy dy hdy
    exact lcaC_eq H hx hy hdx hdy (by omega) (by omega) hk

/-- 5 and 2 lie on one path, 3 apart: two rounds.  4 and 8 lie on different paths, at depths 4 and 3: one round and two more. -/
example : ∃ h, run 11 (fun n => some (mkNode n 0)) 0 twoPaths = .ok h ∧ lcaC h 5 2 = .ok (some 2, 2) ∧
    2 = Nat.size (max 5 2 - min 5 2) ∧ lcaC h 4 8 = .ok (some 0, 3) ∧ 3 = Nat.size (max 4 3 - min 4 3) + Nat.size (min 4 3) := by
  obtain ⟨h, e, -⟩ := C159_exact twoPaths_built (fuel := 11) (h0 := fun n => some (mkNode n 0)) (fun x _ => ⟨x, 0, rfl⟩)
    (by decide) (by decide)
  have w : (do let h ← run 11 (fun n => some (mkNode n 0)) 0 twoPaths; lcaC h 5 2) = .ok (some 2, 2) := by decide +kernel
  have w' : (do let h ← run 11 (fun n => some (mkNode n 0)) 0 twoPaths; lcaC h 4 8) = .ok (some 0, 3) := by decide +kernel
  rw [e, Out.ok_bind] at w w'
  exact ⟨h, e, w, by decide +kernel, w', by decide +kernel⟩

end Tree
