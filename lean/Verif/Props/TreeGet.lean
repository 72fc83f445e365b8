import Verif.Proof.TreeGet
import Verif.Props.Tree

/-! # What the getters of a tree return: property C146 -/

namespace Tree
open Cpp Spec

/-- **C146.**  Choose a root and add nodes, each one new, below a node already there.  Then `getRoot` is the root, `getFa` of
every node the node it was added below (null for the root), `getSon` the nodes added below it in the order in which they were
added, `getDegree` their number, and `getID` and `getVal` are as constructed. -/
theorem C146_getters_partial {r : Nat} {adds : List (Nat × Nat)} (hb : Built r adds) {fuel : Nat} {t : Obj} {i v : Nat → Int}
    (hf : ∀ x ∈ nodes r adds, t.heap x = some (mkNode (i x) (v x))) (hlen : adds.length < 2 ^ 30) (hfuel : adds.length < fuel) :
    ∃ t' : Obj, (do (← t.setRoot r).addAll fuel adds) = .ok t' ∧ t'.getRoot = .ok r ∧ ∀ x ∈ nodes r adds,
      getFa t'.heap x = .ok (parentOf adds x) ∧
      getSon t'.heap x = .ok ((adds.filter fun a => a.2 = x).map (·.1)) ∧
      getDegree t'.heap x = .ok ((adds.filter fun a => a.2 = x).length : Int) ∧
      getID t'.heap x = .ok (i x) ∧ getVal t'.heap x = .ok (v x) := by
  obtain ⟨h, e, H, _⟩ := run_ok hb (h := t.heap) (fun x hx => ⟨_, _, hf x hx⟩) (by omega) hfuel
  refine ⟨⟨h, some r⟩, build_eq t e, rfl, fun x hx => ?_⟩
  obtain ⟨nd, d, e1, -, -, hfa, -⟩ := H.get hx
  obtain ⟨nd', e2, a, b, c⟩ := (run_same e x).2 _ (hf x hx)
  rw [e1] at e2
  injection e2 with e2
  subst e2
  simp only [mkNode, List.nil_append] at a b c
  simp only [getFa, getSon, getDegree, getID, getVal, deref_ok e1, Out.ok_bind, hfa, a, b, c, and_self, and_true, true_and]
  have : (adds.filter fun a => a.2 = x).length ≤ adds.length := List.length_filter_le _ _
  rw [List.length_map, toInt_small (by omega)]

/-- nodes 1, 2 below 0; 3, 4 below 1 -/
def family : List (Nat × Nat) := [(1, 0), (2, 0), (3, 1), (4, 1)]

theorem family_built : Built 0 family := by
  have := (((Built.root (r := 0)).add (x := 1) (p := 0) (by decide) (by decide)).add (x := 2) (p := 0) (by decide) (by decide)).add
    (x := 3) (p := 1) (by decide) (by decide)
  exact this.add (x := 4) (p := 1) (by decide) (by decide)

/-- objects with identity `n` and value `10 n`, and a new tree -/
def blank : Obj := ⟨fun n => some (mkNode n (10 * n)), none⟩

example : ∃ t', (do (← blank.setRoot 0).addAll 5 family) = .ok t' ∧ t'.getRoot = .ok 0 ∧ getFa t'.heap 3 = .ok (some 1) ∧
    getSon t'.heap 1 = .ok [3, 4] ∧ getDegree t'.heap 0 = .ok 2 ∧ getID t'.heap 4 = .ok 4 ∧ getVal t'.heap 4 = .ok 40 := by
  obtain ⟨t', e, hr, H⟩ := C146_getters_partial family_built (fuel := 5) (t := blank) (i := fun n => n) (v := fun n => 10 * n)
    (fun x _ => rfl) (by decide) (by decide)
  exact ⟨t', e, hr, (H 3 (by decide)).1, (H 1 (by decide)).2.1, (H 0 (by decide)).2.2.1, (H 4 (by decide)).2.2.2.1,
    (H 4 (by decide)).2.2.2.2⟩

/-- what the getters of the node `p` return: father, sons, degree, height, identity, value, ancestors -/
def view (h : Heap) (p : Nat) :
    Out (Option Nat) × Out (List Nat) × Out Int × Out Int × Out Int × Out Int × (Int → Out Nat) :=
  (getFa h p, getSon h p, getDegree h p, getHeight h p, getID h p, getVal h p, getAncestor h p)

/-- **C146.**  `setFa`, `addSon` and `setHeight` called directly on an existing node change what `getFa`, `getSon` with
`getDegree`, and `getHeight` of that node return, and nothing else: no other getter and no other node. -/
theorem C146_setters_partial (h : Heap) (p : Nat) (hp : h p ≠ none) (f : Option Nat) (x : Nat) (k : Int) :
    (∃ h', setFa h p f = .ok h' ∧ (∀ q ≠ p, view h' q = view h q) ∧
      view h' p = (.ok f, getSon h p, getDegree h p, getHeight h p, getID h p, getVal h p, getAncestor h p)) ∧
    (∃ h' l, addSon h p x = .ok h' ∧ getSon h p = .ok l ∧ (∀ q ≠ p, view h' q = view h q) ∧
      view h' p = (getFa h p, .ok (l ++ [x]), .ok (toInt (l.length + 1)), getHeight h p, getID h p, getVal h p,
        getAncestor h p)) ∧
    (∃ h', setHeight h p k = .ok h' ∧ (∀ q ≠ p, view h' q = view h q) ∧
      view h' p = (getFa h p, getSon h p, getDegree h p, .ok k, getID h p, getVal h p, getAncestor h p)) := by
  obtain ⟨nd, e⟩ := Option.ne_none_iff_exists'.1 hp
  have same : ∀ n : Nd, deref (store h p n) p = .ok n := by intro n; simp [deref, store]
  have anc : ∀ (n : Nd), n.ancestor = nd.ancestor → ∀ q, getAncestor (store h p n) q = getAncestor h q :=
    fun n hn q => funext fun l => climb_store e hn l 31 q
  have other : ∀ (n : Nd), n.ancestor = nd.ancestor → ∀ q ≠ p, view (store h p n) q = view h q := by
    intro n hn q hq
    have : (store h p n) q = h q := by simp [store, hq]
    simp only [view, getFa, getSon, getDegree, getHeight, getID, getVal, deref, this, anc n hn]
  refine ⟨⟨store h p { nd with fa := f }, by rw [setFa, deref_ok e, Out.ok_bind], other _ rfl, ?_⟩,
    ⟨store h p { nd with son := nd.son ++ [x] }, nd.son, by rw [addSon, deref_ok e, Out.ok_bind], ?_, other _ rfl, ?_⟩,
    ⟨store h p { nd with height := some k }, by rw [setHeight, deref_ok e, Out.ok_bind], other _ rfl, ?_⟩⟩
  · rw [view, anc { nd with fa := f } rfl]
    simp only [getFa, getSon, getDegree, getHeight, getID, getVal, same, deref_ok e, Out.ok_bind]
  · rw [getSon, deref_ok e, Out.ok_bind]
  · rw [view, anc { nd with son := nd.son ++ [x] } rfl]
    simp only [getFa, getSon, getDegree, getHeight, getID, getVal, same, deref_ok e, Out.ok_bind, List.length_append,
      List.length_singleton]
  · rw [view, anc { nd with height := some k } rfl]
    simp only [getFa, getSon, getDegree, getHeight, getID, getVal, same, deref_ok e, Out.ok_bind]

example : blank.heap 3 ≠ none := by simp [blank]

/-- **C146 is refuted for a node that is added again.**  Nodes 1 and 2 are added below 0, and then 1 below 2: now the father of 1
is 2 and its height is 2, but its ancestor one level up is still 0, and 1 is still among the sons of 0. -/
theorem C146_move_refuted : (do
    let t ← (← blank.setRoot 0).addAll 9 [(1, 0), (2, 0), (1, 2)]
    Out.ok (← getFa t.heap 1, ← getHeight t.heap 1, ← getAncestor t.heap 1 1, ← getSon t.heap 0, ← getSon t.heap 2)) =
    .ok (some 2, 2, 0, [1, 2], [1]) := by decide +kernel

/-- **C146 is refuted for `setFa` and `addSon` called directly.**  The same move with them: height and ancestors of 1 stay those
of the old place. -/
theorem C146_setFa_refuted : (do
    let t ← (← blank.setRoot 0).addAll 9 [(1, 0), (2, 0)]
    let h ← addSon (← setFa t.heap 1 (some 2)) 2 1
    Out.ok (← getFa h 1, ← getHeight h 1, ← getAncestor h 1 1, ← getSon h 0, ← getSon h 2)) =
    .ok (some 2, 1, 0, [1, 2], [1]) := by decide +kernel

/-- **C146 is refuted for a second root.**  `setRoot(1)` on the tree with 1 below 0 and 3 below 1: `getRoot` is 1 with height 0
and without father, but 1 still has the ancestor 0, is still a son of 0, and 3 keeps height 2. -/
theorem C146_second_root_refuted : (do
    let t ← (← blank.setRoot 0).addAll 9 [(1, 0), (3, 1)]
    let t ← t.setRoot 1
    Out.ok ((← t.getRoot, ← getFa t.heap 1, ← getHeight t.heap 1), ← getAncestor t.heap 1 1, ← getSon t.heap 0, ← getHeight t.heap 3)) =
    .ok ((1, none, 0), 0, [1], 2) := by decide +kernel

/-- **C146 is refuted before the root is set.**  The pointer returned by `getRoot` of a new tree, and the height of a node which
is not yet in a tree, are indeterminate. -/
theorem C146_new_refuted (h : Heap) (x : Nat) (i v : Int) (hx : h x = some (mkNode i v)) :
    (⟨h, none⟩ : Obj).getRoot = .ub ∧ getHeight h x = .ub := by
  refine ⟨rfl, ?_⟩
  rw [getHeight, deref_ok hx, Out.ok_bind]; rfl

example : blank.getRoot = .ub ∧ getHeight blank.heap 7 = .ub := C146_new_refuted _ 7 7 70 rfl

end Tree
