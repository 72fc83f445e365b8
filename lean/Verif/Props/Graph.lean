import Verif.Spec.Graph
import Verif.Proof.Graph

/-! # C66, C67, C68, C102, C103: vertices and edges -/

namespace Graph
open Cpp

/-! ## C66: identities -/

/-- After any history of calls the ids of all vertices ever constructed are 0, 1, 2, … in the order of construction,
and `==` on two live ones holds only for the same object. -/
theorem C66_vertices (h : List Cmd) (w : World) (hr : run h = .ok w) :
    w.vs.length = h.countP Cmd.makesV ∧
    (∀ (i : Nat) (x : Vertex), w.vs[i]? = some x → x.id = i) ∧
    (∀ a b : Nat, ∀ r, eqV w a b = .ok r → (r = true ↔ a = b)) :=
  ⟨(run_count hr).1, (run_ids hr).v, fun _ _ _ hab => eqV_iff (run_ids hr) hab⟩

/-- The same for edges. -/
theorem C66_edges (h : List Cmd) (w : World) (hr : run h = .ok w) :
    w.es.length = h.countP Cmd.makesE ∧
    (∀ (i : Nat) (x : Edge), w.es[i]? = some x → x.id = i) ∧
    (∀ a b : Nat, ∀ r, eqE w a b = .ok r → (r = true ↔ a = b)) :=
  ⟨(run_count hr).2, (run_ids hr).e, fun _ _ _ hab => eqE_iff (run_ids hr) hab⟩

/-- No later call changes the id of a vertex or an edge, and none disappears from the world. -/
theorem C66_stable (h h' : List Cmd) (w w' : World) (hr : run h = .ok w) (hr' : run (h ++ h') = .ok w') :
    (∀ (i : Nat) (x : Vertex), w.vs[i]? = some x → ∃ x', w'.vs[i]? = some x' ∧ x'.id = x.id) ∧
    ∀ (i : Nat) (x : Edge), w.es[i]? = some x → ∃ x', w'.es[i]? = some x' ∧ x'.id = x.id :=
  run_stable hr hr'

/-- A vertex can be constructed exactly as long as fewer than `INT_MAX` have been: then the counter overflows. -/
theorem C66_limit (h : List Cmd) (w : World) (hr : run h = .ok w) (val : Int) :
    (h.countP Cmd.makesV < 2147483647 → ∃ w', run (h ++ [.newV val]) = .ok w') ∧
    (h.countP Cmd.makesV = 2147483647 → run (h ++ [.newV val]) = .ub) :=
  newV_limit hr val

/-- A history with every kind of call. -/
def sample : List Cmd :=
  [.newV 3, .newV 4, .addEdge 0 1 5, .addEdge 1 1 6, .newE 0 0 7, .copyE 0, .setV 0 8 false, .newV 9, .copyV 2,
    .assignV 2 3, .assignE 1 0, .deleteE 2, .destroyV 0]

example : ∃ w, run sample = .ok w ∧ w.vs.map (·.id) = [0, 1, 2, 3] ∧ w.es.map (·.id) = [0, 1, 2, 3] ∧
    w.vs.map (·.alive) = [false, true, true, true] ∧ w.es.map (·.alive) = [false, true, false, true] :=
  ⟨_, rfl, by decide, by decide, by decide, by decide⟩

example : ∃ w, run sample = .ok w ∧ eqV w 1 2 = .ok false ∧ eqV w 1 1 = .ok true := ⟨_, rfl, by decide, by decide⟩

/-! ## C67: degrees -/

/-- After any history that constructs and changes vertices and adds edges, the edges are those of the calls
`v.addEdge(u)`, in order; the degrees of a vertex count the calls in which it was `v` or `u`; and the degrees of all
vertices add up to the number of edges. -/
theorem C67_degrees (h : List Cmd) (hc : ∀ c ∈ h, c.simple = true) (w : World) (hr : run h = .ok w) :
    w.es.map (fun e => (e.from', e.to')) = pairs h ∧
    (∀ v < w.vs.length,
      getOutDegree w v = .ok ((pairs h).countP fun p => decide (p.1 = v)) ∧
      getInDegree w v = .ok ((pairs h).countP fun p => decide (p.2 = v))) ∧
    (∑ v ∈ Finset.range w.vs.length, (pairs h).countP fun p => decide (p.1 = v)) = (pairs h).length ∧
    (∑ v ∈ Finset.range w.vs.length, (pairs h).countP fun p => decide (p.2 = v)) = (pairs h).length :=
  degrees hc hr

/-- The lists of a vertex hold exactly the edges that leave and enter it. -/
theorem C67_lists (h : List Cmd) (hc : ∀ c ∈ h, c.simple = true) (w : World) (hr : run h = .ok w) (v : Nat)
    (x : Vertex) (hx : w.vs[v]? = some x) (e : Nat) :
    (e ∈ x.outEdges ↔ ∃ y, w.es[e]? = some y ∧ y.from' = v) ∧
    (e ∈ x.inEdges ↔ ∃ y, w.es[e]? = some y ∧ y.to' = v) ∧ x.outEdges.Nodup ∧ x.inEdges.Nodup :=
  lists hc hr hx e

/-- Such a history is defined if every `addEdge` and `set…` names vertices that exist by then and fewer than
`INT_MAX` vertices and edges are constructed. -/
theorem C67_defined (h : List Cmd) (hc : ∀ c ∈ h, c.simple = true) (hl : h.length ≤ 2147483647)
    (hv : ∀ h1 c h2, h = h1 ++ c :: h2 → ∀ v ∈ c.names, v < h1.countP Cmd.makesV) : ∃ w, run h = .ok w :=
  simple_defined h hc hl hv

/-- Copying is outside the claim: the copy of a vertex with edges counts them again. -/
theorem C67_copy : ∃ w, run [.newV 0, .newV 0, .addEdge 0 1 0, .copyV 0] = .ok w ∧ w.es.length = 1 ∧
    getOutDegree w 0 = .ok 1 ∧ getOutDegree w 2 = .ok 1 :=
  ⟨_, rfl, by decide, by decide, by decide⟩

example : ∃ w, run [.newV 0, .newV 0, .newV 0, .addEdge 0 1 4, .addEdge 1 1 5, .setV 0 7 false, .addEdge 0 2 6] = .ok w ∧
    getOutDegree w 0 = .ok 2 ∧ getInDegree w 1 = .ok 2 ∧ getOutDegree w 2 = .ok 0 :=
  ⟨_, rfl, by decide, by decide, by decide⟩

example : ∀ h1 c h2, ([.newV 0, .addEdge 0 0 4, .newV 0, .addEdge 1 0 5] : List Cmd) = h1 ++ c :: h2 →
    ∀ v ∈ c.names, v < h1.countP Cmd.makesV := by
  intro h1 c h2 h
  rcases h1 with _ | ⟨a, _ | ⟨b, _ | ⟨d, _ | ⟨e, h1⟩⟩⟩⟩ <;> simp at h
  · obtain ⟨rfl, _⟩ := h; decide
  · obtain ⟨rfl, rfl, _⟩ := h; decide
  · obtain ⟨rfl, rfl, rfl, _⟩ := h; decide
  · obtain ⟨rfl, rfl, rfl, rfl, _⟩ := h; decide

/-- The largest number of vertices of `C66_limit` is reached. -/
example : ∃ h w, run h = .ok w ∧ h.countP Cmd.makesV = 2147483647 := by
  obtain ⟨w, hw⟩ := C67_defined (List.replicate 2147483647 (.newV 0))
    (fun c hc => by rw [List.eq_of_mem_replicate hc]; rfl) (by rw [List.length_replicate])
    (fun h1 c h2 he v hv => by
      have : c ∈ List.replicate 2147483647 (Cmd.newV 0) := by rw [he]; simp
      rw [List.eq_of_mem_replicate this] at hv
      simp [Cmd.names] at hv)
  exact ⟨_, w, hw, by rw [List.countP_replicate]; rfl⟩

/-! ## C68: copying and destroying -/

/-- A vertex with an edge, copied; destroying both destroys the edge twice. -/
theorem C68_refuted : run [.newV 1, .newV 2, .addEdge 0 1 0, .copyV 0, .destroyV 0] ≠ .ub ∧
    run [.newV 1, .newV 2, .addEdge 0 1 0, .copyV 0, .destroyV 0, .destroyV 2] = .ub := by decide

/-- Assignment to a vertex with an edge loses the edge: when all vertices have been destroyed it is still there. -/
theorem C68_leak_refuted : ∃ w,
    run [.newV 1, .newV 2, .addEdge 0 1 0, .assignV 0 1, .destroyV 0, .destroyV 1] = .ok w ∧
    w.vs.map (·.alive) = [false, false] ∧ w.es.map (·.alive) = [true] := ⟨_, rfl, by decide, by decide⟩

/-- As long as no vertex with leaving edges is copied or takes part in an assignment, every edge that has not been
destroyed is in the list of exactly one live vertex, which holds it once. -/
theorem C68_owner_partial (w : World) (h : Reach w) (e : Nat) (y : Edge) (hy : w.es[e]? = some y)
    (ha : y.alive = true) : ∃! v : Nat, ∃ x : Vertex, w.vs[v]? = some x ∧ x.alive = true ∧ x.outEdges.count e = 1 :=
  owner_unique (reach_own h) hy ha

/-- Then destroying any live vertex is defined, destroys exactly its leaving edges and that vertex. -/
theorem C68_destroy_partial (w : World) (h : Reach w) (v : Nat) (x : Vertex) (hx : w.vs[v]? = some x)
    (ha : x.alive = true) : ∃ w', step w (.destroyV v) = .ok w' ∧ Reach w' ∧
      (∀ (u : Nat) (z : Vertex), u ≠ v → (w'.vs[u]? = some z ↔ w.vs[u]? = some z)) ∧
      (∀ z, w'.vs[v]? = some z → z.alive = false) ∧
      (∀ e ∉ x.outEdges, w'.es[e]? = w.es[e]?) ∧
      ∀ e ∈ x.outEdges, ∃ y, w'.es[e]? = some y ∧ y.alive = false :=
  destroy_effect h hx ha

/-- And when all vertices have been destroyed no edge is left. -/
theorem C68_noleak_partial (w : World) (h : Reach w)
    (hv : ∀ (v : Nat) (x : Vertex), w.vs[v]? = some x → x.alive = false) (e : Nat) (y : Edge)
    (hy : w.es[e]? = some y) : y.alive = false := by
  by_contra ha
  obtain ⟨v, x, hx, hxa, _⟩ := (reach_own h).owner e y hy (by simpa using ha)
  rw [hv v x hx] at hxa
  cases hxa

/-- A history of such calls. -/
theorem reach_example : ∃ w, Reach w ∧
    run [.newV 1, .copyV 0, .addEdge 0 1 5, .addEdge 1 0 6, .newV 7, .copyV 2, .assignV 2 3] = .ok w ∧
    w.es.map (·.alive) = [true, true] ∧ w.vs.map (·.outEdges) = [[0], [1], [], []] := by
  refine ⟨_, ?_, rfl, by decide, by decide⟩
  refine .step (.assignV 2 3) (.step (.copyV 2) (.step (.newV 7) (.step (.addEdge 1 0 6) (.step (.addEdge 0 1 5)
    (.step (.copyV 0) (.step (.newV 1) .init trivial rfl) ?_ rfl) trivial rfl) trivial rfl) trivial rfl) ?_ rfl) ?_ rfl
  · intro x hx; cases hx; rfl
  · intro x hx; cases hx; rfl
  · exact ⟨fun x hx => by cases hx; rfl, fun x hx => by cases hx; rfl⟩

/-! ## C102: assignment -/

/-- Assigning one vertex to a different one copies value, flag and lists, keeps the id and changes nothing else. -/
theorem C102_partial (w : World) (dst src : Nat) (d s : Vertex) (hne : dst ≠ src)
    (hd : readV w dst = .ok d) (hs : readV w src = .ok s) :
    assignV w dst src = .ok (writeV w dst { s with id := d.id }) :=
  assign_ne hne hd hs

/-- Assigning an edge (also to itself) copies its ends, value and flag and keeps the id. -/
theorem C102_edge (w : World) (dst src : Nat) (d s : Edge) (hd : readE w dst = .ok d) (hs : readE w src = .ok s) :
    assignE w dst src = .ok (writeE w dst { s with id := d.id }) :=
  assignE_eq hd hs

/-- Self-assignment of a vertex forgets its edges, which stay allocated. -/
theorem C102_self_refuted : ∃ w w', run [.newV 1, .newV 2, .addEdge 0 1 0] = .ok w ∧ assignV w 0 0 = .ok w' ∧
    getOutDegree w 0 = .ok 1 ∧ getOutDegree w' 0 = .ok 0 ∧ w'.es.map (·.alive) = [true] :=
  ⟨_, _, rfl, rfl, by decide, by decide, by decide⟩

/-- Self-assignment in general: both lists are emptied. -/
theorem C102_self (w : World) (v : Nat) (x : Vertex) (hx : readV w v = .ok x) :
    assignV w v v = .ok (writeV w v { x with inEdges := [], outEdges := [] }) :=
  assign_self hx

example : ∃ w d s, run [.newV 1, .newV 2, .addEdge 0 1 0] = .ok w ∧ readV w 1 = .ok d ∧ readV w 0 = .ok s ∧
    s.outEdges = [0] ∧ d.inEdges = [0] := ⟨_, _, _, rfl, rfl, rfl, by decide, by decide⟩

/-! ## C103: no dangling pointers -/

/-- Destroying a vertex leaves the pointer to its edge in the list of the other end, whose in-degree does not
change; and the vertex at the other end of an edge that enters the destroyed one keeps an edge to nothing. -/
theorem C103_refuted : ∃ w x, run [.newV 1, .newV 2, .addEdge 0 1 0, .destroyV 0] = .ok w ∧ w.vs[1]? = some x ∧
    x.alive = true ∧ x.inEdges = [0] ∧ readE w 0 = .ub ∧ getInDegree w 1 = .ok 1 :=
  ⟨_, _, rfl, rfl, by decide, by decide, by decide, by decide⟩

/-- The other direction: an edge in the list of a live vertex whose end is destroyed. -/
theorem C103_to_refuted : ∃ w x y, run [.newV 1, .newV 2, .addEdge 0 1 0, .destroyV 1] = .ok w ∧ w.vs[0]? = some x ∧
    x.alive = true ∧ x.outEdges = [0] ∧ readE w 0 = .ok y ∧ readV w y.to' = .ub :=
  ⟨_, _, _, rfl, rfl, by decide, by decide, rfl, by decide⟩

/-- Without destruction every pointer in a list leads to a live edge, and that edge to live vertices. -/
theorem C103_partial (h : List Cmd) (hc : ∀ c ∈ h, c.simple = true ∨ c.copies = true) (w : World)
    (hr : run h = .ok w) (v : Nat) (x : Vertex) (hx : w.vs[v]? = some x) (e : Nat)
    (he : e ∈ x.outEdges ∨ e ∈ x.inEdges) :
    ∃ y, readE w e = .ok y ∧ (∃ a, readV w y.from' = .ok a) ∧ ∃ b, readV w y.to' = .ok b :=
  no_dangling hc hr hx he

/-- What a destruction leaves behind, in general: the edges of the destroyed vertex stay in the lists of their other
ends. -/
theorem C103_stale (w : World) (h : Reach w) (v u : Nat) (x z : Vertex) (hx : w.vs[v]? = some x)
    (ha : x.alive = true) (hu : u ≠ v) (hz : w.vs[u]? = some z) (e : Nat) (he : e ∈ x.outEdges) (hi : e ∈ z.inEdges) :
    ∃ w' z', step w (.destroyV v) = .ok w' ∧ w'.vs[u]? = some z' ∧ e ∈ z'.inEdges ∧ readE w' e = .ub :=
  let ⟨w', g1, g2, g3⟩ := stale h hx ha hu hz he
  ⟨w', z, g1, g2, hi, g3⟩

example : ∃ w x, run [.newV 1, .newV 2, .addEdge 0 1 0, .copyV 0, .assignV 1 2] = .ok w ∧ w.vs[1]? = some x ∧
    x.outEdges = [0] := ⟨_, _, rfl, rfl, by decide⟩

/-! ## C119: comparison -/

/-- `<` of live vertices is a strict weak order, as `std::sort` requires: irreflexive, transitive, and "neither is less" is
transitive; all comparisons of live vertices are defined, and `!=` is the negation of `==`. -/
theorem C119_vertices_partial (w : World) (a b c : Nat) (x y z : Vertex) (ha : readV w a = .ok x) (hb : readV w b = .ok y)
    (hc : readV w c = .ok z) :
    ltV w a a = .ok false ∧ (ltV w a b = .ok true → ltV w b c = .ok true → ltV w a c = .ok true) ∧
    (ltV w a b = .ok false → ltV w b c = .ok false → ltV w a c = .ok false) ∧
    (ltV w a b = .ok true ∨ ltV w a b = .ok false) ∧
    ∃ r, eqV w a b = .ok r ∧ neV w a b = .ok (!r) := by
  have e1 : ∀ {p q : Nat} {u v : Vertex}, readV w p = .ok u → readV w q = .ok v → ltV w p q = .ok (decide (u.val < v.val)) := by
    intro p q u v h1 h2
    simp only [ltV, h1, h2, Out.ok_bind]
  rw [e1 ha ha, e1 ha hb, e1 hb hc, e1 ha hc]
  refine ⟨by simp, by simp; omega, by simp; omega, ?_, decide (x.id = y.id), ?_, ?_⟩
  · rcases decide (x.val < y.val) <;> simp
  · simp only [eqV, ha, hb, Out.ok_bind]
  · simp only [neV, eqV, ha, hb, Out.ok_bind]

/-- The same for edges. -/
theorem C119_edges_partial (w : World) (a b c : Nat) (x y z : Edge) (ha : readE w a = .ok x) (hb : readE w b = .ok y)
    (hc : readE w c = .ok z) :
    ltE w a a = .ok false ∧ (ltE w a b = .ok true → ltE w b c = .ok true → ltE w a c = .ok true) ∧
    (ltE w a b = .ok false → ltE w b c = .ok false → ltE w a c = .ok false) ∧
    (ltE w a b = .ok true ∨ ltE w a b = .ok false) ∧
    ∃ r, eqE w a b = .ok r ∧ neE w a b = .ok (!r) := by
  have e1 : ∀ {p q : Nat} {u v : Edge}, readE w p = .ok u → readE w q = .ok v → ltE w p q = .ok (decide (u.val < v.val)) := by
    intro p q u v h1 h2
    simp only [ltE, h1, h2, Out.ok_bind]
  rw [e1 ha ha, e1 ha hb, e1 hb hc, e1 ha hc]
  refine ⟨by simp, by simp; omega, by simp; omega, ?_, decide (x.id = y.id), ?_, ?_⟩
  · rcases decide (x.val < y.val) <;> simp
  · simp only [eqE, ha, hb, Out.ok_bind]
  · simp only [neE, eqE, ha, hb, Out.ok_bind]

/-- `<` compares the values: -/
theorem C119_values (w : World) (a b : Nat) :
    (∀ x y, readV w a = .ok x → readV w b = .ok y → (ltV w a b = .ok true ↔ x.val < y.val)) ∧
    ∀ x y, readE w a = .ok x → readE w b = .ok y → (ltE w a b = .ok true ↔ x.val < y.val) :=
  ⟨fun x y h1 h2 => by simp only [ltV, h1, h2, Out.ok_bind]; simp, fun x y h1 h2 => by
    simp only [ltE, h1, h2, Out.ok_bind]; simp⟩

/-- `<` does not agree with `==`: two edges of the same value are different although neither is less, so a `std::set` of
edges keeps only one of them.  The same holds for vertices. -/
theorem C119_order_refuted : ∃ w, run [.newV 1, .newV 1, .addEdge 0 1 5, .addEdge 1 0 5] = .ok w ∧
    ltE w 0 1 = .ok false ∧ ltE w 1 0 = .ok false ∧ neE w 0 1 = .ok true ∧
    ltV w 0 1 = .ok false ∧ ltV w 1 0 = .ok false ∧ neV w 0 1 = .ok true :=
  ⟨_, rfl, by decide, by decide, by decide, by decide, by decide, by decide⟩

/-- A copy of a vertex is never equal to its original, in every history. -/
theorem C119_copy_refuted (h : List Cmd) (w : World) (src : Nat) (hr : run (h ++ [.copyV src]) = .ok w) :
    ∃ w0, run h = .ok w0 ∧ ∀ r, eqV w src w0.vs.length = .ok r → src < w0.vs.length → r = false := by
  have h0 := hr
  unfold run at h0
  rw [List.foldlM_append] at h0
  obtain ⟨w0, h1, h2⟩ := Out.bind_eq_ok.1 h0
  refine ⟨w0, h1, fun r hq hlt => ?_⟩
  have := eqV_iff (run_ids hr) hq
  rcases r with _ | _
  · rfl
  · exact absurd (this.1 rfl) (by omega)

example : ∃ w, run [.newV 1, .copyV 0] = .ok w ∧ eqV w 0 1 = .ok false := ⟨_, rfl, by decide⟩
example : ∃ w x y, run [.newV 1, .newV 2] = .ok w ∧ readV w 0 = .ok x ∧ readV w 1 = .ok y ∧ ltV w 0 1 = .ok true :=
  ⟨_, _, _, rfl, rfl, rfl, by decide⟩
example : ∃ w x y, run [.newE 0 0 1, .newE 0 0 2] = .ok w ∧ readE w 0 = .ok x ∧ readE w 1 = .ok y ∧ ltE w 0 1 = .ok true :=
  ⟨_, _, _, rfl, rfl, rfl, by decide⟩

end Graph
