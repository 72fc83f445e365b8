import Verif.Proof.SegmentTreeNode

/-! # C171: `init` and the overloads with a node

`init(v, 0, getSize() - 1, 1)` is public, and so are the overloads of queries and updates that take a node `o` and its positions
`l..r`.  A client expects `init` to give the tree new contents, and a call at a node to act as the short call restricted to the
positions of the node. -/

namespace SegmentTree
open Cpp Spec

variable {α : Type} [CommRing α] [LinearOrder α] [IsStrictOrderedRing α]

/-- The property C171: after any program of such calls, on a tree of a size of C34, a query for one position returns the current
element there. -/
def C171 (α : Type) [CommRing α] [LinearOrder α] (ok : Call α → Prop) : Prop :=
  ∀ (fuel : Nat) (v : List α) (cs : List (Call α)) (a : Int), v ≠ [] → v.length ≤ fuel →
    (∃ k : Nat, v.length + 1 = 2 ^ (k + 1) ∨ v.length = 2 ^ k ∨ v.length = 2 ^ k + 1) →
    (∀ c ∈ cs, ok c ∧ Call.Valid v.length c) → 0 ≤ a → a < v.length →
    ∃ t t' x, runCalls fuel v cs = .ok t ∧ querySum fuel t a a = .ok (t', x) ∧ (valuesOf v cs)[a.toNat]? = some x

/-- C171 is false for `init`: it resets the flags of the leaves only, so what is pending at inner nodes is applied to the new
contents.  Elements 1, 2; add 5 to both; `init` with 3, 4; the element at position 0 is 3 but the query returns 8. -/
theorem C171_init_refuted : ¬ C171 Int (fun c => match c with | .node .. => False | _ => True) := by
  intro h
  obtain ⟨t, t', x, e, q, hx⟩ := h 2 [1, 2] [.op (.add 0 1 5), .init [3, 4]] 0 (by simp) (by simp) ⟨1, by simp⟩
    (by simp [Call.Valid, Op.InRange, InRange]) (le_refl 0) (by simp)
  have w : (do
      let t ← runCalls 2 ([1, 2] : List Int) [.op (.add 0 1 5), .init [3, 4]]
      let (_, x) ← querySum 2 t 0 0
      Out.ok x) = .ok 8 := by decide +kernel
  rw [e, Out.ok_bind, q, Out.ok_bind] at w
  injection w with w
  subst w
  revert hx
  decide

/-- C171 is false for the overloads with a node: what is pending at the ancestors of the node is applied afterwards.  Elements
1, 2; multiply both by 3; add 1 at node 2, which stands for position 0; the element there is 4 but the query returns 6. -/
theorem C171_node_refuted : ¬ C171 Int (fun c => match c with | .init _ => False | _ => True) := by
  intro h
  have n2 : NodeOf 2 0 0 2 := .left 0 1 1 .root (by decide)
  obtain ⟨t, t', x, e, q, hx⟩ := h 2 [1, 2] [.op (.mul 0 1 3), .node 0 0 2 (.add 0 0 1)] 0 (by simp) (by simp) ⟨1, by simp⟩
    (by simp [Call.Valid, Op.InRange, InRange, clip, n2]) (le_refl 0) (by simp)
  have w : (do
      let t ← runCalls 2 ([1, 2] : List Int) [.op (.mul 0 1 3), .node 0 0 2 (.add 0 0 1)]
      let (_, x) ← querySum 2 t 0 0
      Out.ok x) = .ok 6 := by decide +kernel
  rw [e, Out.ok_bind, q, Out.ok_bind] at w
  injection w with w
  subst w
  revert hx
  decide

/-- The queries are wrong as well: elements 1, 2; add 5 to both; `querySum(0, 0, 0, 0, 2)` returns 1 instead of 6. -/
theorem C171_query_refuted : ∃ (v : List Int) (cs : List (Call Int)) (t t' : Seg Int) (x : Int), NodeOf v.length 0 0 2 ∧
    (∀ c ∈ cs, Call.Valid v.length c) ∧ runCalls v.length v cs = .ok t ∧
    query Node.sm (· + ·) 0 0 v.length 0 0 2 t = .ok (t', x) ∧ x = 1 ∧ (valuesOf v cs)[0]? = some 6 := by
  have w : (do
      let t ← runCalls 2 ([1, 2] : List Int) [.op (.add 0 1 5)]
      let (_, x) ← query Node.sm (· + ·) 0 0 2 0 0 2 t
      Out.ok x) = .ok 1 := by decide +kernel
  obtain ⟨t, e, w⟩ := Out.bind_eq_ok.1 w
  obtain ⟨⟨t', x⟩, e', w⟩ := Out.bind_eq_ok.1 w
  cases w
  refine ⟨[1, 2], [.op (.add 0 1 5)], t, t', 1, .left 0 1 1 .root (by decide), ?_, e, e', rfl, by decide⟩
  simp [Call.Valid, Op.InRange, InRange]

/-- C171, partial: it holds for programs all calls of which are right in the sense of `AllRight`: before a call with a node one of
the positions of the node has been queried (alone) since the last update that contains it, before `init` all of them have.  Then
the whole program is defined, a query for one position returns the current element; a query for an interval that every update
since the last `init` contains or avoids returns the sum, and, if no factor is negative, the maximum and the minimum.
Missing for C171: calls with a node or `init` while something is pending above. -/
theorem C171_history_partial {fuel : Nat} {v : List α} {cs : List (Call α)} (hv : v ≠ []) (hf : v.length ≤ fuel)
    (hn : ∃ k : Nat, v.length + 1 = 2 ^ (k + 1) ∨ v.length = 2 ^ k ∨ v.length = 2 ^ k + 1)
    (hr : AllRight v.length (fun _ => True) cs) :
    ∃ t, runCalls fuel v cs = .ok t ∧ t.size = v.length ∧ (valuesOf v cs).length = v.length ∧
      (∀ a : Int, 0 ≤ a → a < v.length → ∃ x, (valuesOf v cs)[a.toNat]? = some x ∧
        (∃ t', queryMax fuel t a a = .ok (t', x)) ∧ (∃ t', queryMin fuel t a a = .ok (t', x)) ∧
        (∃ t', querySum fuel t a a = .ok (t', x))) ∧
      ∀ a b, InRange v.length a b → Undisturbed a b cs →
        (∃ t' x, querySum fuel t a b = .ok (t', x) ∧ IsSum (valuesOf v cs) a b x) ∧
        ((∀ c ∈ cs, Call.NonNeg c) →
          (∃ t' x, queryMax fuel t a b = .ok (t', x) ∧ IsMax (valuesOf v cs) a b x) ∧
          (∃ t' x, queryMin fuel t a b = .ok (t', x) ∧ IsMin (valuesOf v cs) a b x)) := by
  have hF := roomy_fits hn
  obtain ⟨t, e, hl, ⟨st, -⟩, q⟩ := calls_ok hv hf hF cs hr
  have hF' := hF
  have hf' := hf
  rw [← hl] at hF' hf'
  refine ⟨_, e, rfl, hl, fun a ha ha' => ?_, fun a b hab hU => ⟨?_, fun hnn => ⟨?_, ?_⟩⟩⟩
  · have hab : InRange (valuesOf v cs).length a a := ⟨ha, le_refl a, by rw [hl]; exact ha'⟩
    have hg : Good False a a t 0 (((valuesOf v cs).length : Int) - 1) 1 := good_one t a _ _ _ (by rw [hl]; omega)
    refine ⟨_, val_some _ ha (by rw [hl]; exact ha'), ?_, ?_, ?_⟩
    · obtain ⟨t', x, e, _, _, _, r⟩ := query_st (agg_one max (sel := Node.mx) fun _ _ h => h) hab hf' (.inl hF') st
      rw [r False.elim hg rfl, hl] at e
      exact ⟨_, e⟩
    · obtain ⟨t', x, e, _, _, _, r⟩ := query_st (agg_one min (sel := Node.mn) fun _ h _ => h) hab hf' (.inl hF') st
      rw [r False.elim hg rfl, hl] at e
      exact ⟨_, e⟩
    · obtain ⟨t', x, e, _, _, _, r⟩ := query_st (agg_one (· + ·) (sel := Node.sm) fun _ _ _ => rfl) hab hf' (.inl hF') st
      rw [r False.elim hg rfl, hl] at e
      exact ⟨_, e⟩
  · rw [← hl] at hab
    obtain ⟨t', x, e, _, _, _, r⟩ := query_st agg_sum hab hf' (.inl hF') st
    rw [hl] at e r
    obtain ⟨q1, q2⟩ := q False False.elim
    exact ⟨_, x, e, isSum_of hab (r q1 (q2 a b hU))⟩
  · rw [← hl] at hab
    obtain ⟨t', x, e, _, _, _, r⟩ := query_st agg_max hab hf' (.inl hF') st
    rw [hl] at e r
    obtain ⟨q1, q2⟩ := q True (fun _ => hnn)
    exact ⟨_, x, e, isMax_of hab (r q1 (q2 a b hU))⟩
  · rw [← hl] at hab
    obtain ⟨t', x, e, _, _, _, r⟩ := query_st agg_min hab hf' (.inl hF') st
    rw [hl] at e r
    obtain ⟨q1, q2⟩ := q True (fun _ => hnn)
    exact ⟨_, x, e, isMin_of hab (r q1 (q2 a b hU))⟩

/-- C171, partial, queries with a node: after such a program, at a node `o` with a settled position, the queries return the
aggregate of the current elements at the positions of the node that lie in `lv..rv`. -/
theorem C171_node_partial {fuel : Nat} {v : List α} {cs : List (Call α)} (hv : v ≠ []) (hf : v.length ≤ fuel)
    (hn : ∃ k : Nat, v.length + 1 = 2 ^ (k + 1) ∨ v.length = 2 ^ k ∨ v.length = 2 ^ k + 1)
    (hr : AllRight v.length (fun _ => True) cs) {l r : Int} {o : Nat} (ho : NodeOf v.length l r o)
    (hp : ∃ p, settledBy (fun _ => True) cs p ∧ l ≤ p ∧ p ≤ r) {lv rv : Int}
    (hab : InRange v.length (max lv l) (min rv r)) (hU : Undisturbed (max lv l) (min rv r) cs) :
    ∃ t, runCalls fuel v cs = .ok t ∧
      (∃ t' x, query Node.sm (· + ·) lv rv fuel l r o t = .ok (t', x) ∧ IsSum (valuesOf v cs) (max lv l) (min rv r) x) ∧
      ((∀ c ∈ cs, Call.NonNeg c) →
        (∃ t' x, query Node.mx max lv rv fuel l r o t = .ok (t', x) ∧ IsMax (valuesOf v cs) (max lv l) (min rv r) x) ∧
        (∃ t' x, query Node.mn min lv rv fuel l r o t = .ok (t', x) ∧ IsMin (valuesOf v cs) (max lv l) (min rv r) x)) := by
  have hF := roomy_fits hn
  obtain ⟨t, e, hl, iv, q⟩ := calls_ok hv hf hF cs hr
  obtain ⟨p, hp, p1, p2⟩ := hp
  have hv1 : 1 ≤ v.length := by cases v with | nil => exact absurd rfl hv | cons => simp
  obtain ⟨-, l0, -, r0⟩ := NodeOf.range hv1 ho
  have hc := (clear_of (iv.free p (by omega) (by omega) hp) (by rw [hl]; exact ho) p1 p2).1
  rw [← hl] at hF hf hab
  refine ⟨_, e, ?_, fun hnn => ⟨?_, ?_⟩⟩
  · obtain ⟨t', x, e, _, _, _, r⟩ := node_query agg_sum hf hF iv.st hc hab
    rw [hl] at e r
    obtain ⟨q1, q2⟩ := q False False.elim
    exact ⟨_, x, e, isSum_of hab (r q1 (q2 _ _ hU))⟩
  · obtain ⟨t', x, e, _, _, _, r⟩ := node_query agg_max hf hF iv.st hc hab
    rw [hl] at e r
    obtain ⟨q1, q2⟩ := q True (fun _ => hnn)
    exact ⟨_, x, e, isMax_of hab (r q1 (q2 _ _ hU))⟩
  · obtain ⟨t', x, e, _, _, _, r⟩ := node_query agg_min hf hF iv.st hc hab
    rw [hl] at e r
    obtain ⟨q1, q2⟩ := q True (fun _ => hnn)
    exact ⟨_, x, e, isMin_of hab (r q1 (q2 _ _ hU))⟩

/-- C171: `init` with a vector shorter than the tree reads beyond its end, whatever has happened before. -/
theorem C171_short {fuel : Nat} {t : Seg α} {w : List α} (hw : w.length < t.size) (hf : t.size ≤ fuel) :
    Call.exec fuel t (.init w) = .ub := by
  obtain ⟨N, nd⟩ := t
  dsimp only at hw hf
  exact init_short w N 0 ((N : Int) - 1) 1 (by omega) fuel nd (by omega) (le_refl 1) (room_root (by omega)) (le_refl 0) (by omega)

example : ([7] : List Int).length < (⟨2, fun _ => ⟨0, 0, 0, 0, 0, false, false⟩⟩ : Seg Int).size := by decide

/-- a program: updates, queries that settle, updates and queries at nodes, `init`, and calls after it -/
def demo : List (Call Int) := [.op (.add 0 4 2), .op (.max 1 1), .node 0 2 2 (.mul 0 3 3), .op (.sum 0 0), .node 0 2 2 (.sum 2 2),
  .op (.sum 1 1), .op (.min 3 3), .op (.min 4 4), .init [5, 1, 4, 2, 3], .node 3 4 3 (.add 0 9 1), .op (.mul 3 4 2)]

example : AllRight 5 (fun _ => True) demo ∧ Undisturbed 3 4 demo ∧ (∀ c ∈ demo, Call.NonNeg c) ∧
    NodeOf 5 0 2 2 ∧ (∃ p, settledBy (fun _ => True) demo p ∧ 0 ≤ p ∧ p ≤ 2) := by
  have n2 : NodeOf 5 0 2 2 := .left 0 4 1 .root (by decide)
  have n3 : NodeOf 5 3 4 3 := .right 0 4 1 .root (by decide)
  refine ⟨?_, ?_, ?_, n2, ?_⟩
  · simp only [demo, AllRight, Call.Right, settles, short, clip, Op.InRange, InRange, n2, n3]
    refine ⟨by decide, by decide, ⟨trivial, by decide, 1, by simp⟩, by decide, ⟨trivial, by decide, 0, by simp⟩, by decide, by decide,
      by decide, ⟨rfl, ?_⟩, ⟨trivial, by decide, 3, by simp⟩, by decide, trivial⟩
    intro p h1 h2
    have : p = 0 ∨ p = 1 ∨ p = 2 ∨ p = 3 ∨ p = 4 := by simp at h2; omega
    rcases this with rfl | rfl | rfl | rfl | rfl <;> simp
  · simp [demo, undisturbed_cons, undisturbed_nil, Call.Respects, short, clip, Op.Respects]
  · simp [demo, Call.NonNeg, short, clip, Op.NonNeg]
  · exact ⟨0, by simp [demo, settledBy, settles, short, clip], by omega, by omega⟩

example : (do
    let t ← runCalls 5 ([9, 8, 7, 6, 5] : List Int) demo
    let (t, x) ← querySum 5 t 3 4
    let (_, y) ← query Node.mx max 0 1 5 0 2 2 t
    Out.ok (x, y, valuesOf [9, 8, 7, 6, 5] demo)) = .ok (14, 5, [5, 1, 4, 6, 8]) := by decide +kernel

end SegmentTree
