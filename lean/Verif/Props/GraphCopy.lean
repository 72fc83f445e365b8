import Verif.Proof.GraphCopy

/-!
# C68 (Vertex.cpp:26-60): what a copy and an assignment of a vertex with edges lead to, in every program

The witnesses of `Props/Graph.lean` are no special cases.
-/

namespace Graph
open Cpp

/-- After any history, if a vertex with a leaving edge is copied, then whatever calls follow — as long as none assigns
to the vertex or to its copy — the program never gets to the point where both have been destroyed: the second of the two
destructors is undefined. -/
theorem C68_copy_all_refuted (h h' : List Cmd) (w w' : World) (hr : run h = .ok w) (v : Nat) (x : Vertex)
    (hx : readV w v = .ok x) (he : x.outEdges ≠ []) (hr' : run (h ++ [.copyV v] ++ h') = .ok w')
    (hv : ∀ src, Cmd.assignV v src ∉ h') (hu : ∀ src, Cmd.assignV w.vs.length src ∉ h') :
    (∃ y, readV w' v = .ok y) ∨ ∃ y, readV w' w.vs.length = .ok y := by
  obtain ⟨e, hm⟩ := List.exists_mem_of_ne_nil _ he
  unfold run at hr'
  rw [List.foldlM_append] at hr'
  obtain ⟨w1, h1, h2⟩ := Out.bind_eq_ok.1 hr'
  rw [show List.foldlM step World.init (h ++ [.copyV v]) = run (h ++ [.copyV v]) from rfl, run_snoc hr] at h1
  obtain ⟨g1, g2⟩ := copy_shared hx hm h1
  obtain ⟨a, b, ha, hb, hor⟩ := (shared_run g2 h' g1 h2 hv hu).one
  rcases hor with h | h
  · exact .inl ⟨a, readV_eq.2 ⟨ha, h⟩⟩
  · exact .inr ⟨b, readV_eq.2 ⟨hb, h⟩⟩

/-- In particular destroying one after the other, in either order, is undefined. -/
theorem C68_both_refuted (h : List Cmd) (w : World) (hr : run h = .ok w) (v : Nat) (x : Vertex)
    (hx : readV w v = .ok x) (he : x.outEdges ≠ []) (w' : World) :
    run (h ++ [.copyV v, .destroyV v, .destroyV w.vs.length]) ≠ .ok w' ∧
    run (h ++ [.copyV v, .destroyV w.vs.length, .destroyV v]) ≠ .ok w' := by
  have key : ∀ a b, ({a, b} : Set Nat) = {v, w.vs.length} → ∀ h0 : List Cmd, h0 = [.destroyV a, .destroyV b] →
      run (h ++ [.copyV v] ++ h0) ≠ .ok w' := by
    intro a b hab h0 h0e hr'
    subst h0e
    have hv : v = a ∨ v = b := by
      have : v ∈ ({a, b} : Set Nat) := by rw [hab]; simp
      simpa using this
    have hu : w.vs.length = a ∨ w.vs.length = b := by
      have : w.vs.length ∈ ({a, b} : Set Nat) := by rw [hab]; simp
      simpa using this
    have dead : ∀ z, z = a ∨ z = b → ∀ y, readV w' z ≠ .ok y := by
      intro z hz y hy
      unfold run at hr'
      rw [List.foldlM_append] at hr'
      obtain ⟨w1, _, h2⟩ := Out.bind_eq_ok.1 hr'
      rw [List.foldlM_cons] at h2
      obtain ⟨w2, h3, h4⟩ := Out.bind_eq_ok.1 h2
      rw [List.foldlM_cons] at h4
      obtain ⟨w3, h5, h6⟩ := Out.bind_eq_ok.1 h4
      cases h6
      obtain ⟨x1, w4, k1, k2, k3, rfl⟩ := destroyV_cases h3
      obtain ⟨x2, w5, l1, l2, l3, rfl⟩ := destroyV_cases h5
      have hy' := readV_eq.1 hy
      have q1 := (deleteAll_cases _ k3).1
      have q2 := (deleteAll_cases _ l3).1
      by_cases hzb : z = b
      · subst hzb
        rw [writeV_self (by rw [q2]; exact l1)] at hy'
        have := hy'.2
        cases hy'.1
        cases this
      · have hza : z = a := hz.resolve_right hzb
        subst hza
        rw [writeV_ne hzb, q2, writeV_self (by rw [q1]; exact k1)] at hy'
        have := hy'.2
        cases hy'.1
        cases this
    rcases C68_copy_all_refuted h _ w w' hr v x hx he hr' (by simp) (by simp) with ⟨y, hy⟩ | ⟨y, hy⟩
    · exact dead v hv y hy
    · exact dead _ hu y hy
  refine ⟨?_, ?_⟩
  · have := key v w.vs.length rfl _ rfl
    rwa [List.append_assoc] at this
  · have := key w.vs.length v (Set.pair_comm _ _) _ rfl
    rwa [List.append_assoc] at this

/-- After any history in which no vertex with leaving edges has been copied or assigned, an assignment (also to itself)
to a vertex with a leaving edge loses that edge for good: unless the client deletes it through a pointer kept elsewhere,
it is there after every further history, also when all vertices have been destroyed. -/
theorem C68_leak_all_refuted (w : World) (h : Reach w) (d s e : Nat) (x : Vertex) (hx : readV w d = .ok x)
    (he : e ∈ x.outEdges) (h' : List Cmd) (w' : World) (hr : (Cmd.assignV d s :: h').foldlM step w = .ok w')
    (hc : Cmd.deleteE e ∉ h') : ∃ y, w'.es[e]? = some y ∧ y.alive = true := by
  rw [List.foldlM_cons] at hr
  obtain ⟨w1, h1, h2⟩ := Out.bind_eq_ok.1 hr
  exact (lost_run h' (assign_lost h hx he h1) h2 hc).live

/-- Two edges, one copy, other calls in between. -/
example : ∃ w x w', run [.newV 1, .newV 2, .addEdge 0 1 0, .addEdge 0 0 4] = .ok w ∧ readV w 0 = .ok x ∧ x.outEdges = [0, 1] ∧
    run ([.newV 1, .newV 2, .addEdge 0 1 0, .addEdge 0 0 4] ++ [.copyV 0] ++ [.addEdge 2 1 7, .newV 9, .destroyV 0]) = .ok w' ∧
    w'.vs.map (·.alive) = [false, true, true, true] :=
  ⟨_, _, _, rfl, rfl, by decide, rfl, by decide⟩

example : ∃ w, Reach w ∧ ∃ w' x, readV w 0 = .ok x ∧ 0 ∈ x.outEdges ∧
    ([.assignV 0 1, .destroyV 0, .destroyV 1] : List Cmd).foldlM step w = .ok w' ∧ w'.vs.map (·.alive) = [false, false] :=
  ⟨_, .step (.addEdge 0 1 5) (.step (.newV 2) (.step (.newV 1) .init trivial rfl) trivial rfl) trivial rfl,
    _, _, rfl, by decide, rfl, by decide⟩

end Graph
