import Verif.Proof.Graph

/-! # Lemmas: what copies and assignments of vertices with edges lead to -/

namespace Graph
open Cpp

/-- An edge that has been destroyed. -/
def DeadE (w : World) (e : Nat) : Prop := ∃ y, w.es[e]? = some y ∧ y.alive = false

theorem deleteE_cases {w w' : World} {e : Nat} (h : deleteE w e = .ok w') :
    ∃ y, w.es[e]? = some y ∧ y.alive = true ∧ w' = writeE w e { y with alive := false } := by
  unfold deleteE at h
  obtain ⟨y, h1, h2⟩ := Out.bind_eq_ok.1 h
  obtain ⟨h3, h4⟩ := readE_eq.1 h1
  cases h2
  exact ⟨y, h3, h4, rfl⟩

theorem writeE_self {w : World} {e : Nat} {y z : Edge} (h : w.es[e]? = some y) : (writeE w e z).es[e]? = some z :=
  List.getElem?_set_self (lt_of_some h)

theorem writeE_ne {w : World} {e e' : Nat} {z : Edge} (h : e' ≠ e) : (writeE w e z).es[e']? = w.es[e']? :=
  List.getElem?_set_ne (Ne.symm h)

theorem writeV_self {w : World} {v : Nat} {y z : Vertex} (h : w.vs[v]? = some y) : (writeV w v z).vs[v]? = some z :=
  List.getElem?_set_self (lt_of_some h)

theorem writeV_ne {w : World} {v v' : Nat} {z : Vertex} (h : v' ≠ v) : (writeV w v z).vs[v']? = w.vs[v']? :=
  List.getElem?_set_ne (Ne.symm h)

theorem append_old {α : Type} {l : List α} {i : Nat} {a b : α} (h : l[i]? = some a) : (l ++ [b])[i]? = some a := by
  rw [List.getElem?_append_left (lt_of_some h)]
  exact h

theorem writeE_dead {w : World} {e e' : Nat} {y z : Edge} (hy : w.es[e]? = some y) (ha : z.alive = true → y.alive = true)
    (h : DeadE w e') : DeadE (writeE w e z) e' := by
  by_cases hc : e' = e
  · subst hc
    obtain ⟨y', h1, h2⟩ := h
    rw [hy] at h1
    cases h1
    refine ⟨z, writeE_self hy, ?_⟩
    by_contra hz
    rw [ha (by simpa using hz)] at h2
    cases h2
  · obtain ⟨y', h1, h2⟩ := h
    exact ⟨y', (writeE_ne hc).trans h1, h2⟩

/-- Destroying a list of edges. -/
theorem deleteAll_cases : ∀ (l : List Nat) {w w' : World}, l.foldlM deleteE w = .ok w' →
    w'.vs = w.vs ∧ w'.es.length = w.es.length ∧ (∀ e, DeadE w e → e ∉ l ∧ DeadE w' e) ∧ (∀ e ∈ l, DeadE w' e) ∧
    ∀ e ∉ l, w'.es[e]? = w.es[e]? := by
  intro l
  induction l with
  | nil =>
    intro w w' h
    cases h
    exact ⟨rfl, rfl, fun e h => ⟨by simp, h⟩, by simp, fun _ _ => rfl⟩
  | cons a l ih =>
    intro w w' h
    rw [List.foldlM_cons] at h
    obtain ⟨w1, h1, h2⟩ := Out.bind_eq_ok.1 h
    obtain ⟨y, hy, hya, rfl⟩ := deleteE_cases h1
    obtain ⟨g1, g2, g3, g4, g5⟩ := ih h2
    have hd : DeadE w' a := by
      refine (g3 a ⟨_, writeE_self hy, rfl⟩).2
    refine ⟨g1, g2.trans (by simp [writeE]), ?_, ?_, ?_⟩
    · intro e he
      have := g3 e (writeE_dead hy (by simp) he)
      refine ⟨?_, this.2⟩
      rw [List.mem_cons, not_or]
      refine ⟨?_, this.1⟩
      rintro rfl
      obtain ⟨z, hz, hza⟩ := he
      rw [hy] at hz
      cases hz
      rw [hya] at hza
      cases hza
    · intro e he
      rcases List.mem_cons.1 he with rfl | he
      · exact hd
      · exact g4 e he
    · intro e he
      rw [List.mem_cons, not_or] at he
      rw [g5 e he.2, writeE_ne he.1]

theorem destroyV_cases {w w' : World} {v : Nat} (h : destroyV w v = .ok w') : ∃ x w1, w.vs[v]? = some x ∧
    x.alive = true ∧ x.outEdges.foldlM deleteE w = .ok w1 ∧
    w' = writeV w1 v { x with inEdges := [], outEdges := [], alive := false } := by
  unfold destroyV at h
  obtain ⟨x, h1, h2⟩ := Out.bind_eq_ok.1 h
  obtain ⟨w1, h3, h4⟩ := Out.bind_eq_ok.1 h2
  obtain ⟨h5, h6⟩ := readV_eq.1 h1
  cases h4
  exact ⟨x, w1, h5, h6, h3, rfl⟩

theorem assignV_cases {w w' : World} {d s : Nat} (h : assignV w d s = .ok w') : ∃ x y z, w.vs[d]? = some x ∧
    w.vs[s]? = some y ∧ w' = writeV w d z ∧ z.alive = x.alive ∧ (z.outEdges = [] ∨ z.outEdges = y.outEdges) := by
  by_cases hc : d = s
  · subst hc
    obtain ⟨x, h1, _⟩ := Out.bind_eq_ok.1 h
    rw [assign_self h1] at h
    cases h
    exact ⟨x, x, _, (readV_eq.1 h1).1, (readV_eq.1 h1).1, rfl, rfl, .inl rfl⟩
  · obtain ⟨x, h1, h2⟩ := Out.bind_eq_ok.1 h
    obtain ⟨y, h3, _⟩ := Out.bind_eq_ok.1 h2
    rw [assign_ne hc h1 h3] at h
    cases h
    exact ⟨x, y, _, (readV_eq.1 h1).1, (readV_eq.1 h3).1, rfl, (readV_eq.1 h3).2.trans (readV_eq.1 h1).2.symm, .inr rfl⟩

theorem newE_cases {w w' : World} {a b : Nat} {val : Int} (h : newE w a b val = .ok w') :
    ∃ y n, w' = { w with es := w.es ++ [y], nextEdgeID := n } := by
  unfold newE at h
  obtain ⟨n, _, h2⟩ := Out.bind_eq_ok.1 h
  cases h2
  exact ⟨_, _, rfl⟩

theorem addEdge_cases {w w' : World} {v u : Nat} {val : Int} (h : addEdge w v u val = .ok w') :
    ∃ y n x z, w.vs[v]? = some x ∧ x.alive = true ∧
      (writeV w v { x with outEdges := x.outEdges ++ [w.es.length] }).vs[u]? = some z ∧
      w'.vs = (writeV (writeV w v { x with outEdges := x.outEdges ++ [w.es.length] }) u
        { z with inEdges := z.inEdges ++ [w.es.length] }).vs ∧
      w'.es = w.es ++ [y] ∧ w'.nextEdgeID = n := by
  unfold addEdge at h
  obtain ⟨x0, _, h⟩ := Out.bind_eq_ok.1 h
  obtain ⟨w1, h1, h⟩ := Out.bind_eq_ok.1 h
  obtain ⟨x, hx, h⟩ := Out.bind_eq_ok.1 h
  obtain ⟨z, hz, h⟩ := Out.bind_eq_ok.1 h
  obtain ⟨y, n, rfl⟩ := newE_cases h1
  cases h
  exact ⟨y, n, x, z, (readV_eq.1 hx).1, (readV_eq.1 hx).2, (readV_eq.1 hz).1, rfl, rfl, rfl⟩

/-- Every leaving edge after `addEdge` was one before or is the new one; and none is lost. -/
theorem addEdge_out {w w' : World} {v u : Nat} {val : Int} (h : addEdge w v u val = .ok w') :
    (∀ (i : Nat) (x : Vertex), w.vs[i]? = some x → ∃ x', w'.vs[i]? = some x' ∧ x'.alive = x.alive ∧
      ∀ e ∈ x.outEdges, e ∈ x'.outEdges) ∧
    (∀ (i : Nat) (x' : Vertex), w'.vs[i]? = some x' → ∃ x, w.vs[i]? = some x ∧
      ∀ e ∈ x'.outEdges, e ∈ x.outEdges ∨ e = w.es.length) ∧ ∃ y, w'.es = w.es ++ [y] := by
  obtain ⟨y, n, x, z, hx, hxa, hz, h1, h2, _⟩ := addEdge_cases h
  refine ⟨?_, ?_, y, h2⟩
  · intro i t ht
    have g : ∃ x1, (writeV w v { x with outEdges := x.outEdges ++ [w.es.length] }).vs[i]? = some x1 ∧
        x1.alive = t.alive ∧ ∀ e ∈ t.outEdges, e ∈ x1.outEdges := by
      by_cases hi : i = v
      · subst hi
        rw [hx] at ht
        cases ht
        exact ⟨_, writeV_self hx, rfl, fun e he => by simp [he]⟩
      · exact ⟨t, (writeV_ne hi).trans ht, rfl, fun _ he => he⟩
    obtain ⟨x1, g1, g2, g3⟩ := g
    rw [h1]
    by_cases hi : i = u
    · subst hi
      rw [g1] at hz
      cases hz
      exact ⟨_, writeV_self g1, g2, g3⟩
    · exact ⟨x1, (writeV_ne hi).trans g1, g2, g3⟩
  · intro i t ht
    rw [h1] at ht
    have g : ∃ x1, (writeV w v { x with outEdges := x.outEdges ++ [w.es.length] }).vs[i]? = some x1 ∧
        t.outEdges = x1.outEdges := by
      by_cases hi : i = u
      · subst hi
        rw [writeV_self hz] at ht
        cases ht
        exact ⟨z, hz, rfl⟩
      · rw [writeV_ne hi] at ht
        exact ⟨t, ht, rfl⟩
    obtain ⟨x1, g1, g2⟩ := g
    by_cases hi : i = v
    · subst hi
      rw [writeV_self hx] at g1
      cases g1
      exact ⟨x, hx, fun e he => by rw [g2] at he; simpa using he⟩
    · rw [writeV_ne hi] at g1
      exact ⟨x1, g1, fun e he => .inl (g2 ▸ he)⟩

/-- What one call does to the vertex `z`, unless it assigns to it. -/
theorem step_holds {w w' : World} {c : Cmd} (h : step w c = .ok w') {z : Nat} {x : Vertex} (hx : w.vs[z]? = some x)
    (hc : ∀ src, c ≠ .assignV z src) :
    (c = .destroyV z ∧ x.alive = true ∧ (∃ x', w'.vs[z]? = some x' ∧ x'.alive = false) ∧
      ∀ e ∈ x.outEdges, ¬ DeadE w e ∧ DeadE w' e) ∨
    (∃ x', w'.vs[z]? = some x' ∧ x'.alive = x.alive ∧ ∀ e ∈ x.outEdges, e ∈ x'.outEdges) := by
  cases c with
  | newV val =>
    obtain ⟨n, _, h2⟩ := Out.bind_eq_ok.1 h
    cases h2
    exact .inr ⟨x, append_old hx, rfl, fun _ he => he⟩
  | copyV src =>
    obtain ⟨s, _, h⟩ := Out.bind_eq_ok.1 h
    obtain ⟨n, _, h2⟩ := Out.bind_eq_ok.1 h
    cases h2
    exact .inr ⟨x, append_old hx, rfl, fun _ he => he⟩
  | destroyV v =>
    obtain ⟨x1, w1, h1, h2, h3, rfl⟩ := destroyV_cases h
    obtain ⟨g1, g2, g3, g4, g5⟩ := deleteAll_cases _ h3
    by_cases hz : z = v
    · subst hz
      rw [hx] at h1
      cases h1
      refine .inl ⟨rfl, h2, ⟨_, writeV_self (by rw [g1]; exact hx), rfl⟩, fun e he => ⟨fun hd => (g3 e hd).1 he, ?_⟩⟩
      exact g4 e he
    · exact .inr ⟨x, (writeV_ne hz).trans (by rw [g1]; exact hx), rfl, fun _ he => he⟩
  | assignV d s =>
    obtain ⟨a, b, t, h1, h2, rfl, h3, h4⟩ := assignV_cases h
    have hz : z ≠ d := fun hz => hc s (by rw [hz])
    exact .inr ⟨x, (writeV_ne hz).trans hx, rfl, fun _ he => he⟩
  | setV v val use =>
    obtain ⟨t, h1, h2⟩ := Out.bind_eq_ok.1 h
    cases h2
    have h1 := (readV_eq.1 h1).1
    by_cases hz : z = v
    · subst hz
      rw [hx] at h1
      cases h1
      exact .inr ⟨_, writeV_self hx, rfl, fun _ he => he⟩
    · exact .inr ⟨x, (writeV_ne hz).trans hx, rfl, fun _ he => he⟩
  | addEdge v u val => exact .inr ((addEdge_out h).1 z x hx)
  | newE a b val =>
    obtain ⟨y, n, rfl⟩ := newE_cases h
    exact .inr ⟨x, hx, rfl, fun _ he => he⟩
  | copyE src =>
    obtain ⟨s, _, h⟩ := Out.bind_eq_ok.1 h
    obtain ⟨n, _, h2⟩ := Out.bind_eq_ok.1 h
    cases h2
    exact .inr ⟨x, hx, rfl, fun _ he => he⟩
  | deleteE e =>
    obtain ⟨y, _, _, rfl⟩ := deleteE_cases h
    exact .inr ⟨x, hx, rfl, fun _ he => he⟩
  | assignE d s =>
    obtain ⟨a, _, h⟩ := Out.bind_eq_ok.1 h
    obtain ⟨b, _, h⟩ := Out.bind_eq_ok.1 h
    cases h
    exact .inr ⟨x, hx, rfl, fun _ he => he⟩
  | setE e val use =>
    obtain ⟨a, _, h⟩ := Out.bind_eq_ok.1 h
    cases h
    exact .inr ⟨x, hx, rfl, fun _ he => he⟩

/-- A destroyed edge stays destroyed. -/
theorem step_dead {w w' : World} {c : Cmd} (h : step w c = .ok w') {e : Nat} (he : DeadE w e) : DeadE w' e := by
  have push : ∀ y n, DeadE { w with es := w.es ++ [y], nextEdgeID := n } e := fun y n =>
    let ⟨t, h1, h2⟩ := he
    ⟨t, append_old h1, h2⟩
  cases c with
  | newV val =>
    obtain ⟨n, _, h2⟩ := Out.bind_eq_ok.1 h
    cases h2
    exact he
  | copyV src =>
    obtain ⟨s, _, h⟩ := Out.bind_eq_ok.1 h
    obtain ⟨n, _, h2⟩ := Out.bind_eq_ok.1 h
    cases h2
    exact he
  | destroyV v =>
    obtain ⟨x1, w1, h1, h2, h3, rfl⟩ := destroyV_cases h
    exact ((deleteAll_cases _ h3).2.2.1 e he).2
  | assignV d s =>
    obtain ⟨a, b, t, _, _, rfl, _, _⟩ := assignV_cases h
    exact he
  | setV v val use =>
    obtain ⟨t, _, h2⟩ := Out.bind_eq_ok.1 h
    cases h2
    exact he
  | addEdge v u val =>
    obtain ⟨y, hy⟩ := (addEdge_out h).2.2
    obtain ⟨t, h1, h2⟩ := he
    exact ⟨t, by rw [hy]; exact append_old h1, h2⟩
  | newE a b val =>
    obtain ⟨y, n, rfl⟩ := newE_cases h
    exact push y n
  | copyE src =>
    obtain ⟨s, _, h⟩ := Out.bind_eq_ok.1 h
    obtain ⟨n, _, h2⟩ := Out.bind_eq_ok.1 h
    cases h2
    exact push _ _
  | deleteE a =>
    obtain ⟨y, hy, _, rfl⟩ := deleteE_cases h
    exact writeE_dead hy (by simp) he
  | assignE d s =>
    obtain ⟨a, ha, h⟩ := Out.bind_eq_ok.1 h
    obtain ⟨b, _, h⟩ := Out.bind_eq_ok.1 h
    cases h
    exact writeE_dead (readE_eq.1 ha).1 (fun hh => hh) he
  | setE a val use =>
    obtain ⟨b, hb, h⟩ := Out.bind_eq_ok.1 h
    cases h
    exact writeE_dead (readE_eq.1 hb).1 (fun hh => hh) he

/-- Two vertices that hold the same edge; at most one of them has been destroyed, and then the edge has. -/
structure Shared (w : World) (v u e : Nat) : Prop where
  first : ∃ x, w.vs[v]? = some x ∧ (x.alive = true → e ∈ x.outEdges) ∧ (x.alive = false → DeadE w e)
  second : ∃ x, w.vs[u]? = some x ∧ (x.alive = true → e ∈ x.outEdges) ∧ (x.alive = false → DeadE w e)
  one : ∃ x y, w.vs[v]? = some x ∧ w.vs[u]? = some y ∧ (x.alive = true ∨ y.alive = true)

theorem shared_step {w w' : World} {v u e : Nat} (hne : v ≠ u) (h : Shared w v u e) {c : Cmd} (hs : step w c = .ok w')
    (hv : ∀ src, c ≠ .assignV v src) (hu : ∀ src, c ≠ .assignV u src) : Shared w' v u e := by
  obtain ⟨x, hx, x1, x2⟩ := h.first
  obtain ⟨y, hy, y1, y2⟩ := h.second
  obtain ⟨x', y', hx', hy', hor⟩ := h.one
  rw [hx] at hx'
  cases hx'
  rw [hy] at hy'
  cases hy'
  have dead := @step_dead w w' c hs e
  rcases step_holds hs hx hv with ⟨hc, a1, ⟨x', a2, a3⟩, a4⟩ | ⟨x', a2, a3, a4⟩
  · rcases step_holds hs hy hu with ⟨hc', _⟩ | ⟨y', b2, b3, b4⟩
    · rw [hc] at hc'
      cases hc'
      exact absurd rfl hne
    · have hya : y.alive = true := by
        by_contra hn
        exact (a4 e (x1 a1)).1 (y2 (by simpa using hn))
      refine ⟨⟨x', a2, fun h => absurd h (by simp [a3]), fun _ => (a4 e (x1 a1)).2⟩,
        ⟨y', b2, fun _ => b4 e (y1 hya), fun h => absurd h (by simp [b3, hya])⟩, ⟨x', y', a2, b2, .inr (b3.trans hya)⟩⟩
  · rcases step_holds hs hy hu with ⟨hc', b1, ⟨y', b2, b3⟩, b4⟩ | ⟨y', b2, b3, b4⟩
    · have hxa : x.alive = true := by
        by_contra hn
        exact (b4 e (y1 b1)).1 (x2 (by simpa using hn))
      exact ⟨⟨x', a2, fun _ => a4 e (x1 hxa), fun h => absurd h (by simp [a3, hxa])⟩,
        ⟨y', b2, fun h => absurd h (by simp [b3]), fun _ => (b4 e (y1 b1)).2⟩, ⟨x', y', a2, b2, .inl (a3.trans hxa)⟩⟩
    · exact ⟨⟨x', a2, fun h => a4 e (x1 (a3 ▸ h)), fun h => dead (x2 (a3 ▸ h))⟩,
        ⟨y', b2, fun h => b4 e (y1 (b3 ▸ h)), fun h => dead (y2 (b3 ▸ h))⟩,
        ⟨x', y', a2, b2, hor.imp (fun h => a3.trans h) (fun h => b3.trans h)⟩⟩

theorem shared_run {v u e : Nat} (hne : v ≠ u) : ∀ (h : List Cmd) {w w' : World}, Shared w v u e →
    h.foldlM step w = .ok w' → (∀ src, Cmd.assignV v src ∉ h) → (∀ src, Cmd.assignV u src ∉ h) → Shared w' v u e := by
  intro h
  induction h with
  | nil =>
    intro w w' hs hr _ _
    cases hr
    exact hs
  | cons c h ih =>
    intro w w' hs hr h1 h2
    rw [List.foldlM_cons] at hr
    obtain ⟨w1, g1, g2⟩ := Out.bind_eq_ok.1 hr
    refine ih (shared_step hne hs g1 ?_ ?_) g2 (fun s hm => h1 s (by simp [hm])) (fun s hm => h2 s (by simp [hm]))
    · rintro s rfl
      exact h1 s (by simp)
    · rintro s rfl
      exact h2 s (by simp)

theorem copy_shared {w w' : World} {v e : Nat} {x : Vertex} (hx : readV w v = .ok x) (he : e ∈ x.outEdges)
    (hc : copyV w v = .ok w') : Shared w' v w.vs.length e ∧ v ≠ w.vs.length := by
  have hx' := readV_eq.1 hx
  unfold copyV at hc
  rw [hx] at hc
  simp only [Out.ok_bind] at hc
  obtain ⟨n, _, h2⟩ := Out.bind_eq_ok.1 hc
  cases h2
  have g1 : (w.vs ++ [(⟨x.inEdges, x.outEdges, x.val, x.use, w.nextVertexID, true⟩ : Vertex)])[v]? = some x := append_old hx'.1
  have g2 : (w.vs ++ [(⟨x.inEdges, x.outEdges, x.val, x.use, w.nextVertexID, true⟩ : Vertex)])[w.vs.length]? = some
      ⟨x.inEdges, x.outEdges, x.val, x.use, w.nextVertexID, true⟩ := by simp
  refine ⟨⟨⟨x, g1, fun _ => he, fun h => ?_⟩, ⟨_, g2, fun _ => he, fun h => by cases h⟩, ⟨_, _, g1, g2, .inr rfl⟩⟩, ?_⟩
  · rw [hx'.2] at h
    cases h
  · have := lt_of_some hx'.1
    omega

/-! ### Edges that nobody holds -/

/-- A live edge that is in the list of no vertex. -/
structure Lost (w : World) (e : Nat) : Prop where
  live : ∃ y, w.es[e]? = some y ∧ y.alive = true
  none : ∀ (v : Nat) (x : Vertex), w.vs[v]? = some x → e ∉ x.outEdges

theorem lost_writeE {w : World} {e a : Nat} {y z : Edge} (h : Lost w e) (hy : w.es[a]? = some y)
    (hz : a = e → y.alive = true → z.alive = true) : Lost (writeE w a z) e := by
  refine ⟨?_, h.none⟩
  obtain ⟨t, h1, h2⟩ := h.live
  by_cases ha : e = a
  · subst ha
    rw [hy] at h1
    cases h1
    exact ⟨z, writeE_self hy, hz rfl h2⟩
  · exact ⟨t, (writeE_ne ha).trans h1, h2⟩

theorem lost_pushE {w : World} {e : Nat} {y : Edge} {n : Int} (h : Lost w e) :
    Lost { w with es := w.es ++ [y], nextEdgeID := n } e :=
  let ⟨t, h1, h2⟩ := h.live
  ⟨⟨t, append_old h1, h2⟩, h.none⟩

theorem lost_pushV {w : World} {e : Nat} {x : Vertex} {n : Int} (h : Lost w e) (hx : e ∉ x.outEdges) :
    Lost { w with vs := w.vs ++ [x], nextVertexID := n } e := by
  refine ⟨h.live, fun v z hz => ?_⟩
  rcases getElem?_append_some hz with ⟨_, hz⟩ | ⟨_, rfl⟩
  · exact h.none v z hz
  · exact hx

theorem lost_writeV {w : World} {e v : Nat} {x : Vertex} (h : Lost w e) (hx : e ∉ x.outEdges) : Lost (writeV w v x) e := by
  refine ⟨h.live, fun u z hz => ?_⟩
  rcases getElem?_set_some hz with ⟨_, rfl, _⟩ | ⟨_, hz⟩
  · exact hx
  · exact h.none u z hz

theorem lost_step {w w' : World} {e : Nat} (h : Lost w e) {c : Cmd} (hs : step w c = .ok w') (hc : c ≠ .deleteE e) :
    Lost w' e := by
  cases c with
  | newV val =>
    obtain ⟨n, _, h2⟩ := Out.bind_eq_ok.1 hs
    cases h2
    exact lost_pushV h (by simp)
  | copyV src =>
    obtain ⟨s, h1, hs⟩ := Out.bind_eq_ok.1 hs
    obtain ⟨n, _, h2⟩ := Out.bind_eq_ok.1 hs
    cases h2
    exact lost_pushV h (h.none src s (readV_eq.1 h1).1)
  | destroyV v =>
    obtain ⟨x1, w1, h1, h2, h3, rfl⟩ := destroyV_cases hs
    obtain ⟨g1, g2, g3, g4, g5⟩ := deleteAll_cases _ h3
    refine lost_writeV ⟨?_, by rw [g1]; exact h.none⟩ (by simp)
    rw [g5 e (h.none v x1 h1)]
    exact h.live
  | assignV d s =>
    obtain ⟨a, b, t, h1, h2, rfl, _, h3⟩ := assignV_cases hs
    refine lost_writeV h ?_
    rcases h3 with h3 | h3 <;> rw [h3]
    · simp
    · exact h.none s b h2
  | setV v val use =>
    obtain ⟨t, h1, h2⟩ := Out.bind_eq_ok.1 hs
    cases h2
    exact lost_writeV h (h.none v t (readV_eq.1 h1).1)
  | addEdge v u val =>
    obtain ⟨_, g2, y, g3⟩ := addEdge_out hs
    obtain ⟨t, h1, h2⟩ := h.live
    refine ⟨⟨t, by rw [g3]; exact append_old h1, h2⟩, fun i x' hx' he => ?_⟩
    obtain ⟨x, hx, h3⟩ := g2 i x' hx'
    rcases h3 e he with h4 | h4
    · exact h.none i x hx h4
    · have := lt_of_some h1
      omega
  | newE a b val =>
    obtain ⟨y, n, rfl⟩ := newE_cases hs
    exact lost_pushE h
  | copyE src =>
    obtain ⟨s, _, hs⟩ := Out.bind_eq_ok.1 hs
    obtain ⟨n, _, h2⟩ := Out.bind_eq_ok.1 hs
    cases h2
    exact lost_pushE h
  | deleteE a =>
    obtain ⟨y, hy, _, rfl⟩ := deleteE_cases hs
    exact lost_writeE h hy (fun ha => absurd (by rw [ha]) hc)
  | assignE d s =>
    obtain ⟨a, ha, hs⟩ := Out.bind_eq_ok.1 hs
    obtain ⟨b, _, hs⟩ := Out.bind_eq_ok.1 hs
    cases hs
    exact lost_writeE h (readE_eq.1 ha).1 (fun _ hh => hh)
  | setE a val use =>
    obtain ⟨b, hb, hs⟩ := Out.bind_eq_ok.1 hs
    cases hs
    exact lost_writeE h (readE_eq.1 hb).1 (fun _ hh => hh)

theorem lost_run {e : Nat} : ∀ (h : List Cmd) {w w' : World}, Lost w e → h.foldlM step w = .ok w' →
    Cmd.deleteE e ∉ h → Lost w' e := by
  intro h
  induction h with
  | nil =>
    intro w w' hs hr _
    cases hr
    exact hs
  | cons c h ih =>
    intro w w' hs hr hc
    rw [List.foldlM_cons] at hr
    obtain ⟨w1, g1, g2⟩ := Out.bind_eq_ok.1 hr
    rw [List.mem_cons, not_or] at hc
    exact ih (lost_step hs g1 (Ne.symm hc.1)) g2 hc.2

/-- Destroyed vertices hold no edge. -/
theorem reach_empty {w : World} (h : Reach w) : ∀ (v : Nat) (x : Vertex), w.vs[v]? = some x → x.alive = false →
    x.outEdges = [] := by
  induction h with
  | init => exact fun v x hx => by simp [World.init] at hx
  | @step w w' c _ hc hs ih =>
    intro v x hx ha
    cases c with
    | newV val =>
      obtain ⟨n, _, h2⟩ := Out.bind_eq_ok.1 hs
      cases h2
      rcases getElem?_append_some hx with ⟨_, hx⟩ | ⟨_, rfl⟩
      · exact ih v x hx ha
      · cases ha
    | copyV src =>
      obtain ⟨s, h1, hs⟩ := Out.bind_eq_ok.1 hs
      obtain ⟨n, _, h2⟩ := Out.bind_eq_ok.1 hs
      cases h2
      rcases getElem?_append_some hx with ⟨_, hx⟩ | ⟨_, rfl⟩
      · exact ih v x hx ha
      · cases ha
    | destroyV u =>
      obtain ⟨x1, w1, h1, h2, h3, rfl⟩ := destroyV_cases hs
      rcases getElem?_set_some hx with ⟨_, rfl, _⟩ | ⟨_, hx⟩
      · rfl
      · rw [(deleteAll_cases _ h3).1] at hx
        exact ih v x hx ha
    | assignV d s =>
      obtain ⟨a, b, t, h1, h2, rfl, g1, g2⟩ := assignV_cases hs
      rcases getElem?_set_some hx with ⟨_, rfl, _⟩ | ⟨_, hx⟩
      · rcases g2 with g2 | g2
        · exact g2
        · obtain ⟨a', r1, hs⟩ := Out.bind_eq_ok.1 hs
          have := readV_eq.1 r1
          rw [h1] at this
          cases this.1
          rw [← g1, ha] at this
          cases this.2
      · exact ih v x hx ha
    | setV u val use =>
      obtain ⟨t, h1, h2⟩ := Out.bind_eq_ok.1 hs
      cases h2
      rcases getElem?_set_some hx with ⟨_, rfl, _⟩ | ⟨_, hx⟩
      · exact ih u t (readV_eq.1 h1).1 ha
      · exact ih v x hx ha
    | addEdge a b val =>
      obtain ⟨x0, hx0, h0⟩ := (addEdge_out hs).2.1 v x hx
      obtain ⟨y, n, x1, z, k1, k2, k3, k4, k5, _⟩ := addEdge_cases hs
      have hx0a : x0.alive = false := by
        obtain ⟨x', q1, q2, _⟩ := (addEdge_out hs).1 v x0 hx0
        rw [hx] at q1
        cases q1
        rw [← q2]
        exact ha
      have hva : v ≠ a := by
        rintro rfl
        rw [hx0] at k1
        cases k1
        rw [hx0a] at k2
        cases k2
      have : x.outEdges = x0.outEdges := by
        rw [k4] at hx
        by_cases hvb : v = b
        · subst hvb
          rw [writeV_self k3] at hx
          cases hx
          rw [writeV_ne hva, hx0] at k3
          cases k3
          rfl
        · rw [writeV_ne hvb, writeV_ne hva, hx0] at hx
          cases hx
          rfl
      rw [this]
      exact ih v x0 hx0 hx0a
    | newE a b val => exact absurd hc (by simp [Cmd.Safe])
    | copyE src => exact absurd hc (by simp [Cmd.Safe])
    | deleteE a => exact absurd hc (by simp [Cmd.Safe])
    | assignE d s =>
      obtain ⟨a, ha', hs⟩ := Out.bind_eq_ok.1 hs
      obtain ⟨b, _, hs⟩ := Out.bind_eq_ok.1 hs
      cases hs
      exact ih v x hx ha
    | setE a val use =>
      obtain ⟨b, hb, hs⟩ := Out.bind_eq_ok.1 hs
      cases hs
      exact ih v x hx ha

/-- Assigning to a vertex with edges loses them. -/
theorem assign_lost {w w' : World} (h : Reach w) {d s e : Nat} {x : Vertex} (hx : readV w d = .ok x)
    (he : e ∈ x.outEdges) (hs : assignV w d s = .ok w') : Lost w' e := by
  have hx' := readV_eq.1 hx
  have own := reach_own h
  have others : ∀ (v : Nat) (z : Vertex), v ≠ d → w.vs[v]? = some z → e ∉ z.outEdges := by
    intro v z hv hz hm
    by_cases hza : z.alive = true
    · exact hv (own.one v d z x hz hx'.1 hza hx'.2 e hm he)
    · rw [reach_empty h v z hz (by simpa using hza)] at hm
      simp at hm
  obtain ⟨y, hy, hya⟩ := (own.live d x hx'.1 hx'.2).2 e he
  by_cases hc : d = s
  · subst hc
    rw [assign_self hx] at hs
    cases hs
    refine ⟨⟨y, hy, hya⟩, fun v z hz => ?_⟩
    rcases getElem?_set_some hz with ⟨_, rfl, _⟩ | ⟨hne, hz⟩
    · simp
    · exact others v z hne hz
  · obtain ⟨x0, _, h2⟩ := Out.bind_eq_ok.1 hs
    obtain ⟨t, h3, _⟩ := Out.bind_eq_ok.1 h2
    rw [assign_ne hc hx h3] at hs
    cases hs
    refine ⟨⟨y, hy, hya⟩, fun v z hz => ?_⟩
    rcases getElem?_set_some hz with ⟨_, rfl, _⟩ | ⟨hne, hz⟩
    · exact others s t (Ne.symm hc) (readV_eq.1 h3).1
    · exact others v z hne hz

end Graph
