import Verif.Proof.Tree
import Verif.Model.TreeGet

/-! # What adding nodes does to the members that getters return -/

namespace Tree
open Cpp Spec

/-- `h'` differs from `h` at most in fathers, heights and ancestors; `S q` are the sons added to `q`. -/
def Same (h h' : Heap) (S : Nat → List Nat) : Prop :=
  ∀ q, (h q = none → h' q = none) ∧ ∀ nd, h q = some nd → ∃ nd', h' q = some nd' ∧ nd'.id = nd.id ∧ nd'.val = nd.val ∧
    nd'.son = nd.son ++ S q

theorem Same.trans {h h' h'' : Heap} {S S' : Nat → List Nat} (H : Same h h' S) (H' : Same h' h'' S') :
    Same h h'' (fun q => S q ++ S' q) := by
  intro q
  refine ⟨fun e => (H' q).1 ((H q).1 e), fun nd e => ?_⟩
  obtain ⟨n1, e1, a1, b1, c1⟩ := (H q).2 nd e
  obtain ⟨n2, e2, a2, b2, c2⟩ := (H' q).2 n1 e1
  exact ⟨n2, e2, a2.trans a1, b2.trans b1, by rw [c2, c1, List.append_assoc]⟩

theorem Same.refl (h : Heap) : Same h h (fun _ => []) :=
  fun q => ⟨id, fun nd e => ⟨nd, e, rfl, rfl, by simp⟩⟩

theorem Same.store {h : Heap} {p : Nat} {nd nd' : Nd} {l : List Nat} (e : h p = some nd) (h1 : nd'.id = nd.id)
    (h2 : nd'.val = nd.val) (h3 : nd'.son = nd.son ++ l) : Same h (store h p nd') (fun q => if q = p then l else []) := by
  intro q
  by_cases hq : q = p
  · subst hq
    refine ⟨fun e' => absurd (e.symm.trans e') (by simp), fun n e' => ?_⟩
    rw [e] at e'
    injection e' with e'
    subst e'
    exact ⟨nd', store_self _ _ _, h1, h2, by simp [h3]⟩
  · exact ⟨fun e' => by rw [store_ne _ _ hq]; exact e', fun n e' => ⟨n, by rw [store_ne _ _ hq]; exact e', rfl, rfl, by simp [hq]⟩⟩

theorem Same.store' {h : Heap} {p : Nat} {nd nd' : Nd} (e : h p = some nd) (h1 : nd'.id = nd.id)
    (h2 : nd'.val = nd.val) (h3 : nd'.son = nd.son) : Same h (Tree.store h p nd') (fun _ => []) := by
  have := Same.store (l := []) e h1 h2 (by simp [h3])
  simpa using this

theorem deref_eq_ok {h : Heap} {p : Nat} {nd : Nd} : deref h p = .ok nd ↔ h p = some nd := by
  unfold deref
  cases h p <;> simp

theorem fill_same {node : Nat} : ∀ (fuel i : Nat) (h h' : Heap), fillAncestors h node fuel i = .ok h' → Same h h' (fun _ => []) := by
  intro fuel
  induction fuel with
  | zero => intro i h h' e; cases e
  | succ fuel ih =>
    intro i h h' e
    rw [fillAncestors] at e
    obtain ⟨nd, e1, e⟩ := Out.bind_eq_ok.1 e
    obtain ⟨a, e2, e⟩ := Out.bind_eq_ok.1 e
    obtain ⟨nx, e3, e⟩ := Out.bind_eq_ok.1 e
    split at e
    · injection e with e
      rw [← e]
      exact Same.refl h
    · obtain ⟨b, e4, e⟩ := Out.bind_eq_ok.1 e
      have := (Same.store' (nd' := { nd with ancestor := nd.ancestor ++ [b] }) (deref_eq_ok.1 e1) rfl rfl rfl).trans (ih _ _ _ e)
      simpa using this

theorem addNode_same {fuel x p : Nat} {h h' : Heap} (e : addNode fuel h x p = .ok h') :
    Same h h' (fun q => if q = p then [x] else []) := by
  rw [addNode] at e
  obtain ⟨f, e1, e⟩ := Out.bind_eq_ok.1 e
  obtain ⟨n1, e2, e⟩ := Out.bind_eq_ok.1 e
  obtain ⟨d0, e3, e⟩ := Out.bind_eq_ok.1 e
  obtain ⟨d, e4, e⟩ := Out.bind_eq_ok.1 e
  obtain ⟨n2, e5, e⟩ := Out.bind_eq_ok.1 e
  obtain ⟨n3, e6, e⟩ := Out.bind_eq_ok.1 e
  have s1 := Same.store (nd' := { f with son := f.son ++ [x] }) (l := [x]) (deref_eq_ok.1 e1) rfl rfl rfl
  have s2 := Same.store' (nd' := { n1 with fa := some p }) (deref_eq_ok.1 e2) rfl rfl rfl
  have s3 := Same.store' (nd' := { n2 with height := some d }) (deref_eq_ok.1 e5) rfl rfl rfl
  have s4 := Same.store' (nd' := { n3 with ancestor := n3.ancestor ++ [p] }) (deref_eq_ok.1 e6) rfl rfl rfl
  have := (((s1.trans s2).trans s3).trans s4).trans (fill_same _ _ _ _ e)
  simpa using this

theorem setRoot_same {r : Nat} {h h' : Heap} (e : setRoot h r = .ok h') : Same h h' (fun _ => []) := by
  rw [setRoot] at e
  obtain ⟨f, e1, e⟩ := Out.bind_eq_ok.1 e
  injection e with e
  rw [← e]
  exact Same.store' (deref_eq_ok.1 e1) rfl rfl rfl

theorem adds_same {fuel : Nat} : ∀ (adds : List (Nat × Nat)) (h h' : Heap),
    adds.foldlM (fun h a => addNode fuel h a.1 a.2) h = .ok h' →
    Same h h' (fun q => (adds.filter fun a => a.2 = q).map (·.1)) := by
  intro adds
  induction adds with
  | nil => intro h h' e; injection e with e; rw [← e]; simpa using Same.refl h
  | cons a adds ih =>
    intro h h' e
    rw [List.foldlM_cons] at e
    obtain ⟨h1, e1, e⟩ := Out.bind_eq_ok.1 e
    have := (addNode_same e1).trans (ih _ _ e)
    refine cast (congrArg _ (funext fun q => ?_)) this
    by_cases hq : q = a.2
    · simp [hq]
    · have : ¬ a.2 = q := fun h => hq h.symm
      simp [hq, this]

theorem run_same {fuel r : Nat} {h h' : Heap} {adds : List (Nat × Nat)} (e : run fuel h r adds = .ok h') :
    Same h h' (fun q => (adds.filter fun a => a.2 = q).map (·.1)) := by
  obtain ⟨h0, e0, e1⟩ := Out.bind_eq_ok.1 e
  simpa using (setRoot_same e0).trans (adds_same _ _ _ e1)

theorem addAll_eq {fuel : Nat} : ∀ (adds : List (Nat × Nat)) (t : Obj),
    t.addAll fuel adds = (do .ok ⟨← adds.foldlM (fun h (a : Nat × Nat) => addNode fuel h a.1 a.2) t.heap, t.root⟩) := by
  intro adds
  induction adds with
  | nil => intro t; rfl
  | cons a adds ih =>
    intro t
    rw [Obj.addAll, List.foldlM_cons, List.foldlM_cons, Obj.addNode]
    cases addNode fuel t.heap a.1 a.2 with
    | ok h => rw [Out.ok_bind, Out.ok_bind, Out.ok_bind]; exact ih _
    | ub => rfl
    | exit => rfl
    | diverge => rfl

theorem build_eq {fuel r : Nat} {adds : List (Nat × Nat)} (t : Obj) {h : Heap} (e : run fuel t.heap r adds = .ok h) :
    (do (← t.setRoot r).addAll fuel adds) = .ok ⟨h, some r⟩ := by
  obtain ⟨h0, e0, e1⟩ := Out.bind_eq_ok.1 e
  rw [Obj.setRoot, e0, Out.ok_bind, Out.ok_bind, addAll_eq]
  show (do Out.ok (⟨← adds.foldlM (fun h (a : Nat × Nat) => addNode fuel h a.1 a.2) h0, some r⟩ : Obj)) = _
  rw [e1, Out.ok_bind]

/-- changing a node but not its ancestors does not change what is reached by climbing -/
theorem climb_store {h : Heap} {p : Nat} {nd n : Nd} (e : h p = some nd) (hn : n.ancestor = nd.ancestor) (l : Int) :
    ∀ k q, climb (store h p n) l k q = climb h l k q := by
  intro k
  induction k with
  | zero => intro q; rfl
  | succ k ih =>
    intro q
    have ha : (do ancAt (← deref (store h p n) q) (30 - k)) = (do ancAt (← deref h q) (30 - k)) := by
      by_cases hq : q = p
      · subst hq
        simp [deref, store, e, Out.ok_bind, ancAt, hn]
      · simp [deref, store, hq]
    unfold climb
    rw [ha, funext ih]

end Tree
