import Verif.Model.Graph
import Verif.Spec.Graph
import Mathlib.Algebra.BigOperators.Group.Finset.Piecewise
import Mathlib.Tactic.Linarith
import Mathlib.Data.List.Basic
import Mathlib.Algebra.BigOperators.Group.Finset.Basic

/-! # Lemmas about the model of Vertex and Edge -/

namespace Graph
open Cpp

theorem readV_eq {w : World} {v : Nat} {x : Vertex} :
    readV w v = .ok x ↔ w.vs[v]? = some x ∧ x.alive = true := by
  unfold readV
  split
  · rename_i y hy
    split
    · rename_i ha
      constructor
      · rintro h
        cases h
        exact ⟨hy, ha⟩
      · rintro ⟨h1, _⟩
        rw [h1] at hy
        cases hy
        rfl
    · rename_i ha
      constructor
      · intro h; cases h
      · rintro ⟨h1, h2⟩
        rw [h1] at hy
        cases hy
        exact absurd h2 ha
  · rename_i hy
    constructor
    · intro h; cases h
    · rintro ⟨h1, _⟩
      rw [h1] at hy
      cases hy

theorem readE_eq {w : World} {e : Nat} {x : Edge} :
    readE w e = .ok x ↔ w.es[e]? = some x ∧ x.alive = true := by
  unfold readE
  split
  · rename_i y hy
    split
    · rename_i ha
      constructor
      · rintro h
        cases h
        exact ⟨hy, ha⟩
      · rintro ⟨h1, _⟩
        rw [h1] at hy
        cases hy
        rfl
    · rename_i ha
      constructor
      · intro h; cases h
      · rintro ⟨h1, h2⟩
        rw [h1] at hy
        cases hy
        exact absurd h2 ha
  · rename_i hy
    constructor
    · intro h; cases h
    · rintro ⟨h1, _⟩
      rw [h1] at hy
      cases hy

theorem getElem?_set_some {α : Type} {l : List α} {i j : Nat} {a b : α} (h : (l.set i a)[j]? = some b) :
    (j = i ∧ b = a ∧ i < l.length) ∨ (j ≠ i ∧ l[j]? = some b) := by
  rw [List.getElem?_set] at h
  split at h
  · rename_i hij
    split at h
    · rename_i hl
      exact Or.inl ⟨hij.symm, (Option.some.inj h).symm, hl⟩
    · cases h
  · rename_i hij
    exact Or.inr ⟨fun e => hij e.symm, h⟩

theorem getElem?_append_some {α : Type} {l : List α} {j : Nat} {a b : α} (h : (l ++ [a])[j]? = some b) :
    (j < l.length ∧ l[j]? = some b) ∨ (j = l.length ∧ b = a) := by
  rcases Nat.lt_trichotomy j l.length with hj | hj | hj
  · rw [List.getElem?_append_left hj] at h
    exact Or.inl ⟨hj, h⟩
  · subst hj
    rw [List.getElem?_append_right le_rfl] at h
    simp at h
    exact Or.inr ⟨rfl, h.symm⟩
  · rw [List.getElem?_eq_none (by simp; omega)] at h
    cases h

theorem lt_of_some {α : Type} {l : List α} {j : Nat} {a : α} (h : l[j]? = some a) : j < l.length := by
  by_contra hc
  rw [List.getElem?_eq_none (by omega)] at h
  cases h

/-! ### Identities -/

/-- Every object carries its position as `id`. -/
structure Ids (w : World) : Prop where
  v : ∀ (i : Nat) (x : Vertex), w.vs[i]? = some x → x.id = i
  e : ∀ (i : Nat) (x : Edge), w.es[i]? = some x → x.id = i
  nv : w.nextVertexID = w.vs.length
  ne : w.nextEdgeID = w.es.length

theorem ids_init : Ids World.init := ⟨fun i x h => by simp [World.init] at h, fun i x h => by simp [World.init] at h,
  rfl, rfl⟩

theorem ids_writeV {w : World} (h : Ids w) {v : Nat} {x y : Vertex} (hx : w.vs[v]? = some x) (hid : y.id = x.id) :
    Ids (writeV w v y) := by
  refine ⟨?_, h.e, ?_, h.ne⟩
  · intro i z hz
    rcases getElem?_set_some hz with ⟨rfl, rfl, _⟩ | ⟨_, hz⟩
    · rw [hid, h.v _ _ hx]
    · exact h.v i z hz
  · show w.nextVertexID = ((w.vs.set v y).length : Int)
    rw [List.length_set]
    exact h.nv

theorem ids_writeE {w : World} (h : Ids w) {e : Nat} {x y : Edge} (hx : w.es[e]? = some x) (hid : y.id = x.id) :
    Ids (writeE w e y) := by
  refine ⟨h.v, ?_, h.nv, ?_⟩
  · intro i z hz
    rcases getElem?_set_some hz with ⟨rfl, rfl, _⟩ | ⟨_, hz⟩
    · rw [hid, h.e _ _ hx]
    · exact h.e i z hz
  · show w.nextEdgeID = ((w.es.set e y).length : Int)
    rw [List.length_set]
    exact h.ne

theorem ids_pushV {w : World} (h : Ids w) {x : Vertex} {n : Int} (hid : x.id = w.nextVertexID)
    (hn : n = w.nextVertexID + 1) : Ids { w with vs := w.vs ++ [x], nextVertexID := n } := by
  refine ⟨?_, h.e, ?_, h.ne⟩
  · intro i z hz
    rcases getElem?_append_some hz with ⟨_, hz⟩ | ⟨rfl, rfl⟩
    · exact h.v i z hz
    · rw [hid, h.nv]
  · show n = ((w.vs ++ [x]).length : Int)
    rw [hn, h.nv]
    simp

theorem ids_pushE {w : World} (h : Ids w) {x : Edge} {n : Int} (hid : x.id = w.nextEdgeID)
    (hn : n = w.nextEdgeID + 1) : Ids { w with es := w.es ++ [x], nextEdgeID := n } := by
  refine ⟨h.v, ?_, h.nv, ?_⟩
  · intro i z hz
    rcases getElem?_append_some hz with ⟨_, hz⟩ | ⟨rfl, rfl⟩
    · exact h.e i z hz
    · rw [hid, h.ne]
  · show n = ((w.es ++ [x]).length : Int)
    rw [hn, h.ne]
    simp

theorem newE_ids {w w' : World} (h : Ids w) {a b : Nat} {val : Int} (hs : newE w a b val = .ok w') : Ids w' := by
  obtain ⟨n, hn, hw⟩ := Out.bind_eq_ok.1 hs
  cases hw
  exact ids_pushE h rfl (int_eq_ok.1 hn).2.symm

theorem deleteE_ids {w w' : World} (h : Ids w) {e : Nat} (hs : deleteE w e = .ok w') : Ids w' := by
  obtain ⟨x, hx, hw⟩ := Out.bind_eq_ok.1 hs
  cases hw
  exact ids_writeE h (readE_eq.1 hx).1 rfl

theorem deleteE_vs {w w' : World} {e : Nat} (hs : deleteE w e = .ok w') :
    w'.vs = w.vs ∧ w'.es.length = w.es.length := by
  obtain ⟨x, hx, hw⟩ := Out.bind_eq_ok.1 hs
  cases hw
  exact ⟨rfl, List.length_set⟩

theorem deleteAll_ids : ∀ (l : List Nat) {w w' : World}, Ids w → l.foldlM deleteE w = .ok w' →
    Ids w' ∧ w'.vs = w.vs ∧ w'.es.length = w.es.length := by
  intro l
  induction l with
  | nil =>
    intro w w' h hs
    cases hs
    exact ⟨h, rfl, rfl⟩
  | cons e l ih =>
    intro w w' h hs
    rw [List.foldlM_cons] at hs
    obtain ⟨w1, h1, h2⟩ := Out.bind_eq_ok.1 hs
    obtain ⟨i1, i2, i3⟩ := ih (deleteE_ids h h1) h2
    obtain ⟨j1, j2⟩ := deleteE_vs h1
    exact ⟨i1, i2.trans j1, i3.trans j2⟩

/-- Every call keeps the invariant; the number of objects grows by those constructed. -/
theorem step_ids {w w' : World} (h : Ids w) (c : Cmd) (hs : step w c = .ok w') :
    Ids w' ∧ w'.vs.length = w.vs.length + [c].countP Cmd.makesV ∧
    w'.es.length = w.es.length + [c].countP Cmd.makesE := by
  cases c with
  | newV val =>
    obtain ⟨n, hn, hw⟩ := Out.bind_eq_ok.1 hs
    cases hw
    exact ⟨ids_pushV h rfl (int_eq_ok.1 hn).2.symm, by simp [Cmd.makesV], rfl⟩
  | copyV src =>
    obtain ⟨s, _, hs⟩ := Out.bind_eq_ok.1 hs
    obtain ⟨n, hn, hw⟩ := Out.bind_eq_ok.1 hs
    cases hw
    exact ⟨ids_pushV h rfl (int_eq_ok.1 hn).2.symm, by simp [Cmd.makesV], rfl⟩
  | destroyV v =>
    obtain ⟨x, hx, hs⟩ := Out.bind_eq_ok.1 hs
    obtain ⟨w1, h1, hw⟩ := Out.bind_eq_ok.1 hs
    cases hw
    obtain ⟨i1, i2, i3⟩ := deleteAll_ids _ h h1
    refine ⟨ids_writeV i1 (x := x) ?_ rfl, ?_, ?_⟩
    · rw [i2]; exact (readV_eq.1 hx).1
    · show (w1.vs.set _ _).length = _
      rw [List.length_set, i2]
      rfl
    · show w1.es.length = _
      rw [i3]
      rfl
  | assignV dst src =>
    obtain ⟨d, hd, hs⟩ := Out.bind_eq_ok.1 hs
    obtain ⟨s, _, hs⟩ := Out.bind_eq_ok.1 hs
    obtain ⟨d', hd', hs⟩ := Out.bind_eq_ok.1 hs
    obtain ⟨s', _, hw⟩ := Out.bind_eq_ok.1 hs
    cases hw
    have h1 := ids_writeV h (y := { d with val := s.val, use := s.use, inEdges := [], outEdges := [] })
      (readV_eq.1 hd).1 rfl
    exact ⟨ids_writeV h1 (readV_eq.1 hd').1 rfl, by simp [writeV, Cmd.makesV], rfl⟩
  | setV v val use =>
    obtain ⟨x, hx, hw⟩ := Out.bind_eq_ok.1 hs
    cases hw
    exact ⟨ids_writeV h (readV_eq.1 hx).1 rfl, by simp [writeV, Cmd.makesV], rfl⟩
  | addEdge v u val =>
    obtain ⟨_, _, hs⟩ := Out.bind_eq_ok.1 hs
    obtain ⟨w1, h1, hs⟩ := Out.bind_eq_ok.1 hs
    obtain ⟨x, hx, hs⟩ := Out.bind_eq_ok.1 hs
    obtain ⟨y, hy, hw⟩ := Out.bind_eq_ok.1 hs
    have i1 := newE_ids h h1
    have i2 := ids_writeV i1 (y := { x with outEdges := x.outEdges ++ [w.es.length] }) (readV_eq.1 hx).1 rfl
    cases hw
    refine ⟨ids_writeV i2 (readV_eq.1 hy).1 rfl, ?_, ?_⟩
    · obtain ⟨n, _, hw⟩ := Out.bind_eq_ok.1 h1
      cases hw
      simp [writeV, Cmd.makesV]
    · obtain ⟨n, _, hw⟩ := Out.bind_eq_ok.1 h1
      cases hw
      simp [writeV, Cmd.makesE]
  | newE a b val =>
    refine ⟨newE_ids h hs, ?_⟩
    obtain ⟨n, _, hw⟩ := Out.bind_eq_ok.1 hs
    cases hw
    simp [Cmd.makesV, Cmd.makesE]
  | copyE src =>
    obtain ⟨s, _, hs⟩ := Out.bind_eq_ok.1 hs
    obtain ⟨n, hn, hw⟩ := Out.bind_eq_ok.1 hs
    cases hw
    exact ⟨ids_pushE h rfl (int_eq_ok.1 hn).2.symm, rfl, by simp [Cmd.makesE]⟩
  | deleteE e =>
    refine ⟨deleteE_ids h hs, ?_⟩
    obtain ⟨j1, j2⟩ := deleteE_vs hs
    rw [j1, j2]
    exact ⟨rfl, rfl⟩
  | assignE dst src =>
    obtain ⟨d, hd, hs⟩ := Out.bind_eq_ok.1 hs
    obtain ⟨s, _, hw⟩ := Out.bind_eq_ok.1 hs
    cases hw
    exact ⟨ids_writeE h (readE_eq.1 hd).1 rfl, rfl, by simp [writeE, Cmd.makesE]⟩
  | setE e val use =>
    obtain ⟨x, hx, hw⟩ := Out.bind_eq_ok.1 hs
    cases hw
    exact ⟨ids_writeE h (readE_eq.1 hx).1 rfl, rfl, by simp [writeE, Cmd.makesE]⟩

theorem foldlM_ids : ∀ (h : List Cmd) {w w' : World}, Ids w → h.foldlM step w = .ok w' →
    Ids w' ∧ w'.vs.length = w.vs.length + h.countP Cmd.makesV ∧ w'.es.length = w.es.length + h.countP Cmd.makesE := by
  intro h
  induction h with
  | nil =>
    intro w w' hi hs
    cases hs
    exact ⟨hi, rfl, rfl⟩
  | cons c h ih =>
    intro w w' hi hs
    rw [List.foldlM_cons] at hs
    obtain ⟨w1, h1, h2⟩ := Out.bind_eq_ok.1 hs
    obtain ⟨i1, i2, i3⟩ := step_ids hi c h1
    obtain ⟨j1, j2, j3⟩ := ih i1 h2
    refine ⟨j1, ?_, ?_⟩
    · rw [j2, i2, List.countP_singleton, List.countP_cons]; omega
    · rw [j3, i3, List.countP_singleton, List.countP_cons]; omega

theorem run_count {h : List Cmd} {w : World} (hr : run h = .ok w) :
    w.vs.length = h.countP Cmd.makesV ∧ w.es.length = h.countP Cmd.makesE := by
  obtain ⟨_, h1, h2⟩ := foldlM_ids h ids_init hr
  simpa [World.init] using And.intro h1 h2

theorem run_ids {h : List Cmd} {w : World} (hr : run h = .ok w) : Ids w := (foldlM_ids h ids_init hr).1

theorem run_append {h h' : List Cmd} {w w' : World} (hr : run h = .ok w) (hr' : run (h ++ h') = .ok w') :
    h'.foldlM step w = .ok w' := by
  unfold run at hr hr'
  rw [List.foldlM_append, hr] at hr'
  exact hr'

theorem run_concat {h : List Cmd} {c : Cmd} {w : World} (hr : run (h ++ [c]) = .ok w) :
    ∃ w0, run h = .ok w0 ∧ step w0 c = .ok w := by
  unfold run at hr
  rw [List.foldlM_append] at hr
  obtain ⟨w0, h0, h1⟩ := Out.bind_eq_ok.1 hr
  rw [List.foldlM_cons] at h1
  obtain ⟨w1, h1, h2⟩ := Out.bind_eq_ok.1 h1
  cases h2
  exact ⟨w0, h0, h1⟩

theorem eqV_iff {w : World} (h : Ids w) {a b : Nat} {r : Bool} (hab : eqV w a b = .ok r) : r = true ↔ a = b := by
  obtain ⟨x, hx, hs⟩ := Out.bind_eq_ok.1 hab
  obtain ⟨y, hy, hw⟩ := Out.bind_eq_ok.1 hs
  cases hw
  rw [decide_eq_true_eq, h.v a x (readV_eq.1 hx).1, h.v b y (readV_eq.1 hy).1]
  omega

theorem eqE_iff {w : World} (h : Ids w) {a b : Nat} {r : Bool} (hab : eqE w a b = .ok r) : r = true ↔ a = b := by
  obtain ⟨x, hx, hs⟩ := Out.bind_eq_ok.1 hab
  obtain ⟨y, hy, hw⟩ := Out.bind_eq_ok.1 hs
  cases hw
  rw [decide_eq_true_eq, h.e a x (readE_eq.1 hx).1, h.e b y (readE_eq.1 hy).1]
  omega

theorem run_stable {h h' : List Cmd} {w w' : World} (hr : run h = .ok w) (hr' : run (h ++ h') = .ok w') :
    (∀ (i : Nat) (x : Vertex), w.vs[i]? = some x → ∃ x', w'.vs[i]? = some x' ∧ x'.id = x.id) ∧
    ∀ (i : Nat) (x : Edge), w.es[i]? = some x → ∃ x', w'.es[i]? = some x' ∧ x'.id = x.id := by
  have hi := run_ids hr
  obtain ⟨hi', h1, h2⟩ := foldlM_ids h' hi (run_append hr hr')
  refine ⟨fun i x hx => ?_, fun i x hx => ?_⟩
  · have : i < w'.vs.length := by have := lt_of_some hx; omega
    exact ⟨_, List.getElem?_eq_getElem this, by rw [hi.v i x hx, hi'.v i _ (List.getElem?_eq_getElem this)]⟩
  · have : i < w'.es.length := by have := lt_of_some hx; omega
    exact ⟨_, List.getElem?_eq_getElem this, by rw [hi.e i x hx, hi'.e i _ (List.getElem?_eq_getElem this)]⟩

theorem run_snoc {h : List Cmd} {c : Cmd} {w : World} (hr : run h = .ok w) : run (h ++ [c]) = step w c := by
  have hr' : List.foldlM step World.init h = .ok w := hr
  unfold run
  rw [List.foldlM_append, hr', Out.ok_bind, List.foldlM_cons]
  cases step w c <;> rfl

theorem newV_limit {h : List Cmd} {w : World} (hr : run h = .ok w) (val : Int) :
    (h.countP Cmd.makesV < 2147483647 → ∃ w', run (h ++ [.newV val]) = .ok w') ∧
    (h.countP Cmd.makesV = 2147483647 → run (h ++ [.newV val]) = .ub) := by
  have hc := (run_count hr).1
  have hn := (run_ids hr).nv
  have e1 : INT_MAX = 2147483647 := rfl
  have e2 : INT_MIN = -2147483648 := rfl
  rw [run_snoc hr]
  refine ⟨fun hl => ?_, fun hl => ?_⟩
  · have : int (w.nextVertexID + 1) = .ok (w.nextVertexID + 1) := int_eq_ok.2 ⟨by
      unfold IsInt
      omega, rfl⟩
    refine ⟨{ w with vs := w.vs ++ [⟨[], [], val, true, w.nextVertexID, true⟩], nextVertexID := w.nextVertexID + 1 }, ?_⟩
    show newV w val = _
    unfold newV
    rw [this]
    rfl
  · have : int (w.nextVertexID + 1) = .ub := by
      unfold int
      rw [if_neg]
      unfold IsInt
      omega
    show newV w val = _
    unfold newV
    rw [this]
    rfl

theorem deleteAll_next : ∀ (l : List Nat) {w w' : World}, l.foldlM deleteE w = .ok w' →
    w'.nextEdgeID = w.nextEdgeID := by
  intro l
  induction l with
  | nil => intro w w' hs; cases hs; rfl
  | cons e l ih =>
    intro w w' hs
    rw [List.foldlM_cons] at hs
    obtain ⟨w1, h1, h2⟩ := Out.bind_eq_ok.1 hs
    obtain ⟨x, _, hw⟩ := Out.bind_eq_ok.1 h1
    cases hw
    exact (ih h2).trans rfl

theorem step_isInt {w w' : World} (h : IsInt w.nextEdgeID) (c : Cmd) (hs : step w c = .ok w') :
    IsInt w'.nextEdgeID := by
  cases c with
  | newV val =>
    obtain ⟨n, hn, hw⟩ := Out.bind_eq_ok.1 hs
    cases hw
    exact h
  | copyV src =>
    obtain ⟨s, _, hs⟩ := Out.bind_eq_ok.1 hs
    obtain ⟨n, hn, hw⟩ := Out.bind_eq_ok.1 hs
    cases hw
    exact h
  | destroyV v =>
    obtain ⟨x, hx, hs⟩ := Out.bind_eq_ok.1 hs
    obtain ⟨w1, h1, hw⟩ := Out.bind_eq_ok.1 hs
    cases hw
    show IsInt w1.nextEdgeID
    rw [deleteAll_next _ h1]
    exact h
  | assignV dst src =>
    obtain ⟨d, hd, hs⟩ := Out.bind_eq_ok.1 hs
    obtain ⟨s, _, hs⟩ := Out.bind_eq_ok.1 hs
    obtain ⟨d', hd', hs⟩ := Out.bind_eq_ok.1 hs
    obtain ⟨s', _, hw⟩ := Out.bind_eq_ok.1 hs
    cases hw
    exact h
  | setV v val use =>
    obtain ⟨x, hx, hw⟩ := Out.bind_eq_ok.1 hs
    cases hw
    exact h
  | addEdge v u val =>
    obtain ⟨_, _, hs⟩ := Out.bind_eq_ok.1 hs
    obtain ⟨w1, h1, hs⟩ := Out.bind_eq_ok.1 hs
    obtain ⟨x, hx, hs⟩ := Out.bind_eq_ok.1 hs
    obtain ⟨y, hy, hw⟩ := Out.bind_eq_ok.1 hs
    cases hw
    obtain ⟨n, hn, hw⟩ := Out.bind_eq_ok.1 h1
    cases hw
    rw [← (int_eq_ok.1 hn).2] at *
    exact (int_eq_ok.1 hn).1
  | newE a b val =>
    obtain ⟨n, hn, hw⟩ := Out.bind_eq_ok.1 hs
    cases hw
    rw [← (int_eq_ok.1 hn).2] at *
    exact (int_eq_ok.1 hn).1
  | copyE src =>
    obtain ⟨s, _, hs⟩ := Out.bind_eq_ok.1 hs
    obtain ⟨n, hn, hw⟩ := Out.bind_eq_ok.1 hs
    cases hw
    rw [← (int_eq_ok.1 hn).2] at *
    exact (int_eq_ok.1 hn).1
  | deleteE e =>
    obtain ⟨x, hx, hw⟩ := Out.bind_eq_ok.1 hs
    cases hw
    exact h
  | assignE dst src =>
    obtain ⟨d, hd, hs⟩ := Out.bind_eq_ok.1 hs
    obtain ⟨s, _, hw⟩ := Out.bind_eq_ok.1 hs
    cases hw
    exact h
  | setE e val use =>
    obtain ⟨x, hx, hw⟩ := Out.bind_eq_ok.1 hs
    cases hw
    exact h

theorem run_es_lt {h : List Cmd} {w : World} (hr : run h = .ok w) : w.es.length < 2147483648 := by
  have key : ∀ (h : List Cmd) (w w' : World), IsInt w.nextEdgeID → h.foldlM step w = .ok w' → IsInt w'.nextEdgeID := by
    intro h
    induction h with
    | nil =>
      intro w w' hi hs
      cases hs
      exact hi
    | cons c h ih =>
      intro w w' hi hs
      rw [List.foldlM_cons] at hs
      obtain ⟨w1, h1, h2⟩ := Out.bind_eq_ok.1 hs
      exact ih w1 w' (step_isInt hi c h1) h2
  have h1 := key h World.init w (by decide) hr
  have h2 := (run_ids hr).ne
  have e1 : INT_MAX = 2147483647 := rfl
  unfold IsInt at h1
  omega

/-! ### Degrees -/

/-- Positions of the elements with a property. -/
def idxs (p : Edge → Bool) (l : List Edge) : List Nat := (List.range l.length).filter fun e => (l[e]?).any p

theorem idxs_append (p : Edge → Bool) (l : List Edge) (x : Edge) :
    idxs p (l ++ [x]) = idxs p l ++ if p x then [l.length] else [] := by
  unfold idxs
  rw [List.length_append, List.length_singleton, List.range_succ, List.filter_append]
  congr 1
  · apply List.filter_congr
    intro e he
    rw [List.getElem?_append_left (List.mem_range.1 he)]
  · rw [List.filter_singleton, List.getElem?_append_right le_rfl]
    simp only [Nat.sub_self, List.getElem?_cons_zero, Option.any_some]
    cases p x <;> rfl

theorem idxs_length (p : Edge → Bool) (l : List Edge) : (idxs p l).length = l.countP p := by
  induction l using List.reverseRecOn with
  | nil => rfl
  | append_singleton l x ih =>
    rw [idxs_append, List.length_append, ih, List.countP_append, List.countP_singleton]
    cases p x <;> rfl

/-- The lists of every vertex are those of the edges that leave and enter it. -/
structure Deg (h : List Cmd) (w : World) : Prop where
  es : w.es.map (fun e => (e.from', e.to')) = pairs h
  v : ∀ (v : Nat) (x : Vertex), w.vs[v]? = some x → x.alive = true ∧
    x.outEdges = idxs (fun e => decide (e.from' = v)) w.es ∧ x.inEdges = idxs (fun e => decide (e.to' = v)) w.es
  e : ∀ (e : Nat) (x : Edge), w.es[e]? = some x → x.alive = true ∧ x.from' < w.vs.length ∧ x.to' < w.vs.length

theorem pairs_append (h : List Cmd) (c : Cmd) : pairs (h ++ [c]) = pairs h ++ pairs [c] := by
  unfold pairs
  rw [List.filterMap_append]

theorem deg_step {h : List Cmd} {w w' : World} (hd : Deg h w) (c : Cmd) (hc : c.simple = true)
    (hs : step w c = .ok w') : Deg (h ++ [c]) w' := by
  cases c with
  | newV val =>
    obtain ⟨n, hn, hw⟩ := Out.bind_eq_ok.1 hs
    cases hw
    refine ⟨?_, ?_, ?_⟩
    · rw [pairs_append]
      simpa [pairs] using hd.es
    · intro v x hx
      rcases getElem?_append_some hx with ⟨_, hx⟩ | ⟨rfl, rfl⟩
      · exact hd.v v x hx
      · refine ⟨rfl, ?_, ?_⟩
        · symm
          show idxs _ w.es = []
          unfold idxs
          rw [List.filter_eq_nil_iff]
          intro e he
          rcases hy : w.es[e]? with _ | y
          · simp
          · have := (hd.e e y hy).2.1
            simp; omega
        · symm
          show idxs _ w.es = []
          unfold idxs
          rw [List.filter_eq_nil_iff]
          intro e he
          rcases hy : w.es[e]? with _ | y
          · simp
          · have := (hd.e e y hy).2.2
            simp; omega
    · intro e x hx
      obtain ⟨h1, h2, h3⟩ := hd.e e x hx
      refine ⟨h1, ?_, ?_⟩ <;> simp <;> omega
  | setV v val use =>
    obtain ⟨y, hy, hw⟩ := Out.bind_eq_ok.1 hs
    cases hw
    have hy := readV_eq.1 hy
    refine ⟨?_, ?_, ?_⟩
    · rw [pairs_append]
      simpa [pairs, writeV] using hd.es
    · intro i x hx
      rcases getElem?_set_some hx with ⟨rfl, rfl, _⟩ | ⟨_, hx⟩
      · exact hd.v _ y hy.1
      · exact hd.v _ _ hx
    · intro e x hx
      have := hd.e e x hx
      simpa [writeV] using this
  | addEdge v u val =>
    obtain ⟨_, _, hs⟩ := Out.bind_eq_ok.1 hs
    obtain ⟨w1, h1, hs⟩ := Out.bind_eq_ok.1 hs
    obtain ⟨x, hx, hs⟩ := Out.bind_eq_ok.1 hs
    obtain ⟨y, hy, hw⟩ := Out.bind_eq_ok.1 hs
    obtain ⟨n, hn, hw1⟩ := Out.bind_eq_ok.1 h1
    cases hw1
    cases hw
    have hx := (readV_eq.1 hx).1
    have hy := (readV_eq.1 hy).1
    have hvl : v < w.vs.length := lt_of_some hx
    have hul : u < w.vs.length := by simpa [writeV] using lt_of_some hy
    refine ⟨?_, ?_, ?_⟩
    · rw [pairs_append]
      simp [pairs, writeV] at hd ⊢
      exact hd.es
    · intro i z hz
      show z.alive = true ∧ z.outEdges = idxs _ (w.es ++ [_]) ∧ z.inEdges = idxs _ (w.es ++ [_])
      rw [idxs_append, idxs_append]
      obtain ⟨a1, a2, a3⟩ := hd.v v x hx
      rcases getElem?_set_some hz with ⟨rfl, rfl, _⟩ | ⟨hne, hz⟩
      · rcases getElem?_set_some hy with ⟨rfl, rfl, _⟩ | ⟨hne, hy⟩
        · refine ⟨a1, ?_, ?_⟩
          · simp [a2]
          · simp [a3]
        · obtain ⟨b1, b2, b3⟩ := hd.v _ y hy
          refine ⟨b1, ?_, ?_⟩
          · simp [b2, Ne.symm hne]
          · simp [b3]
      · rcases getElem?_set_some hz with ⟨rfl, rfl, _⟩ | ⟨hne', hz⟩
        · refine ⟨a1, ?_, ?_⟩
          · simp [a2]
          · simp [a3, Ne.symm hne]
        · obtain ⟨b1, b2, b3⟩ := hd.v _ z hz
          refine ⟨b1, ?_, ?_⟩
          · simp [b2, Ne.symm hne']
          · simp [b3, Ne.symm hne]
    · intro e z hz
      rcases getElem?_append_some hz with ⟨_, hz⟩ | ⟨rfl, rfl⟩
      · have := hd.e e z hz
        simpa [writeV] using this
      · simpa [writeV] using ⟨hvl, hul⟩
  | copyV _ => cases hc
  | destroyV _ => cases hc
  | assignV _ _ => cases hc
  | newE _ _ _ => cases hc
  | copyE _ => cases hc
  | deleteE _ => cases hc
  | assignE _ _ => cases hc
  | setE _ _ _ => cases hc

theorem run_deg {h : List Cmd} (hc : ∀ c ∈ h, c.simple = true) {w : World} (hr : run h = .ok w) : Deg h w := by
  induction h using List.reverseRecOn generalizing w with
  | nil =>
    cases hr
    exact ⟨rfl, fun v x hx => by simp [World.init] at hx, fun e x hx => by simp [World.init] at hx⟩
  | append_singleton h c ih =>
    obtain ⟨w0, h0, h1⟩ := run_concat hr
    exact deg_step (ih (fun c hc' => hc c (by simp [hc'])) h0) c (hc c (by simp)) h1

theorem sum_countP (l : List (Nat × Nat)) (f : Nat × Nat → Nat) (n : Nat) (h : ∀ p ∈ l, f p < n) :
    ∑ v ∈ Finset.range n, l.countP (fun p => decide (f p = v)) = l.length := by
  induction l with
  | nil => simp
  | cons p l ih =>
    simp only [List.countP_cons, Finset.sum_add_distrib, List.length_cons]
    rw [ih fun q hq => h q (by simp [hq])]
    congr 1
    simp only [decide_eq_true_eq]
    rw [Finset.sum_ite_eq]
    simp [h p (by simp)]

theorem idxs_mem (p : Edge → Bool) (l : List Edge) (e : Nat) : e ∈ idxs p l ↔ ∃ y, l[e]? = some y ∧ p y = true := by
  unfold idxs
  rw [List.mem_filter, List.mem_range]
  constructor
  · rintro ⟨h1, h2⟩
    rw [List.getElem?_eq_getElem h1] at h2 ⊢
    exact ⟨_, rfl, h2⟩
  · rintro ⟨y, h1, h2⟩
    refine ⟨lt_of_some h1, ?_⟩
    rw [h1]
    exact h2

theorem lists {h : List Cmd} (hc : ∀ c ∈ h, c.simple = true) {w : World} (hr : run h = .ok w) {v : Nat} {x : Vertex}
    (hx : w.vs[v]? = some x) (e : Nat) :
    (e ∈ x.outEdges ↔ ∃ y, w.es[e]? = some y ∧ y.from' = v) ∧
    (e ∈ x.inEdges ↔ ∃ y, w.es[e]? = some y ∧ y.to' = v) ∧ x.outEdges.Nodup ∧ x.inEdges.Nodup := by
  obtain ⟨_, h1, h2⟩ := (run_deg hc hr).v v x hx
  rw [h1, h2, idxs_mem, idxs_mem]
  refine ⟨by simp, by simp, ?_, ?_⟩ <;> exact List.nodup_range.filter _

theorem degrees {h : List Cmd} (hc : ∀ c ∈ h, c.simple = true) {w : World} (hr : run h = .ok w) :
    w.es.map (fun e => (e.from', e.to')) = pairs h ∧
    (∀ v < w.vs.length,
      getOutDegree w v = .ok ((pairs h).countP fun p => decide (p.1 = v)) ∧
      getInDegree w v = .ok ((pairs h).countP fun p => decide (p.2 = v))) ∧
    (∑ v ∈ Finset.range w.vs.length, (pairs h).countP fun p => decide (p.1 = v)) = (pairs h).length ∧
    (∑ v ∈ Finset.range w.vs.length, (pairs h).countP fun p => decide (p.2 = v)) = (pairs h).length := by
  have hd := run_deg hc hr
  have hlt : w.es.length < 2147483648 := run_es_lt hr
  have hmem : ∀ p ∈ pairs h, p.1 < w.vs.length ∧ p.2 < w.vs.length := by
    intro p hp
    rw [← hd.es] at hp
    obtain ⟨e, he, rfl⟩ := List.mem_map.1 hp
    obtain ⟨i, hi⟩ := List.getElem?_of_mem he
    exact (hd.e i e hi).2
  refine ⟨hd.es, fun v hv => ?_, ?_, ?_⟩
  · obtain ⟨h1, h2, h3⟩ := hd.v v _ (List.getElem?_eq_getElem hv)
    have hr := readV_eq.2 ⟨List.getElem?_eq_getElem hv, h1⟩
    unfold getOutDegree getInDegree
    rw [hr]
    simp only [Out.ok_bind]
    rw [h2, h3, idxs_length, idxs_length, ← hd.es, List.countP_map, List.countP_map]
    rw [toInt_small, toInt_small]
    · exact ⟨rfl, rfl⟩
    · exact lt_of_le_of_lt List.countP_le_length hlt
    · exact lt_of_le_of_lt List.countP_le_length hlt
  · exact sum_countP _ _ _ fun p hp => (hmem p hp).1
  · exact sum_countP _ _ _ fun p hp => (hmem p hp).2

theorem simple_defined (h : List Cmd) (hc : ∀ c ∈ h, c.simple = true) (hl : h.length ≤ 2147483647)
    (hv : ∀ h1 c h2, h = h1 ++ c :: h2 → ∀ v ∈ c.names, v < h1.countP Cmd.makesV) : ∃ w, run h = .ok w := by
  induction h using List.reverseRecOn with
  | nil => exact ⟨_, rfl⟩
  | append_singleton h c ih =>
    have hc' : ∀ c ∈ h, c.simple = true := fun c hm => hc c (by simp [hm])
    rw [List.length_append, List.length_singleton] at hl
    obtain ⟨w, hr⟩ := ih hc' (by omega) fun h1 d h2 he => hv h1 d (h2 ++ [c]) (by simp [he])
    have hn := hv h c [] rfl
    have hd := run_deg hc' hr
    obtain ⟨c1, c2⟩ := run_count hr
    have hi := run_ids hr
    have e1 : INT_MAX = 2147483647 := rfl
    have e2 : INT_MIN = -2147483648 := rfl
    have l1 : h.countP Cmd.makesV ≤ h.length := List.countP_le_length
    have l2 : h.countP Cmd.makesE ≤ h.length := List.countP_le_length
    have rd : ∀ v ∈ c.names, ∃ x, readV w v = .ok x := by
      intro v hm
      have hlt : v < w.vs.length := by rw [c1]; exact hn v hm
      exact ⟨_, readV_eq.2 ⟨List.getElem?_eq_getElem hlt, (hd.v v _ (List.getElem?_eq_getElem hlt)).1⟩⟩
    rw [run_snoc hr]
    have hcc := hc c (by simp)
    cases c with
    | newV val =>
      obtain ⟨w', h'⟩ := (newV_limit hr val).1 (by omega)
      rw [run_snoc hr] at h'
      exact ⟨w', h'⟩
    | setV v val use =>
      obtain ⟨x, hx⟩ := rd v (by simp [Cmd.names])
      refine ⟨writeV w v { x with val := val, use := use }, ?_⟩
      simp only [step]
      rw [hx]
      rfl
    | addEdge v u val =>
      obtain ⟨x, hx⟩ := rd v (by simp [Cmd.names])
      obtain ⟨y, hy⟩ := rd u (by simp [Cmd.names])
      have hnx := hi.ne
      have hint : int (w.nextEdgeID + 1) = .ok (w.nextEdgeID + 1) := int_eq_ok.2 ⟨by
        unfold IsInt
        omega, rfl⟩
      simp only [step]
      unfold addEdge newE
      rw [hx, hint]
      simp only [Out.ok_bind]
      generalize hw1 : World.mk w.vs (w.es ++ [⟨v, u, val, true, w.nextEdgeID, true⟩]) w.nextVertexID
        (w.nextEdgeID + 1) = w1
      have hvs : w1.vs = w.vs := by rw [← hw1]
      have hx' : readV w1 v = .ok x := by
        rw [readV_eq, hvs, ← readV_eq]
        exact hx
      rw [hx']
      simp only [Out.ok_bind]
      by_cases huv : u = v
      · subst huv
        have : ∀ z : List Nat, readV (writeV w1 u { x with outEdges := z }) u = .ok { x with outEdges := z } := fun z =>
          readV_eq.2 ⟨List.getElem?_set_self (lt_of_some (readV_eq.1 hx').1), (readV_eq.1 hx).2⟩
        rw [this]
        exact ⟨_, rfl⟩
      · have : ∀ z, readV (writeV w1 v z) u = .ok y := fun z =>
          readV_eq.2 ⟨(List.getElem?_set_ne (Ne.symm huv)).trans (by rw [hvs]; exact (readV_eq.1 hy).1),
            (readV_eq.1 hy).2⟩
        rw [this]
        exact ⟨_, rfl⟩
    | copyV _ => cases hcc
    | destroyV _ => cases hcc
    | assignV _ _ => cases hcc
    | newE _ _ _ => cases hcc
    | copyE _ => cases hcc
    | deleteE _ => cases hcc
    | assignE _ _ => cases hcc
    | setE _ _ _ => cases hcc

/-! ### Ownership -/

/-- Destroying a list of different live edges. -/
theorem deleteAll_ok : ∀ (l : List Nat) (w : World), l.Nodup →
    (∀ e ∈ l, ∃ y, w.es[e]? = some y ∧ y.alive = true) →
    ∃ w', l.foldlM deleteE w = .ok w' ∧ w'.vs = w.vs ∧ w'.es.length = w.es.length ∧
      (∀ e ∉ l, w'.es[e]? = w.es[e]?) ∧ ∀ e ∈ l, ∀ y, w'.es[e]? = some y → y.alive = false := by
  intro l
  induction l with
  | nil => exact fun w _ _ => ⟨w, rfl, rfl, rfl, fun _ _ => rfl, fun e he => absurd he (by simp)⟩
  | cons e l ih =>
    intro w hn hl
    have hn' := List.nodup_cons.1 hn
    obtain ⟨y, hy, hya⟩ := hl e (by simp)
    have hd : deleteE w e = .ok (writeE w e { y with alive := false }) := by
      unfold deleteE
      rw [readE_eq.2 ⟨hy, hya⟩]
      rfl
    have hne : ∀ e' ≠ e, (writeE w e { y with alive := false }).es[e']? = w.es[e']? := by
      intro e' he'
      show (w.es.set e _)[e']? = _
      rw [List.getElem?_set_ne (Ne.symm he')]
    obtain ⟨w', h1, h2, h3, h4, h5⟩ := ih (writeE w e { y with alive := false }) hn'.2 (by
      intro e' he'
      rw [hne e' (fun h => hn'.1 (h ▸ he'))]
      exact hl e' (by simp [he']))
    refine ⟨w', ?_, h2, ?_, ?_, ?_⟩
    · rw [List.foldlM_cons, hd]
      exact h1
    · rw [h3]
      simp [writeE]
    · intro e' he'
      rw [List.mem_cons, not_or] at he'
      rw [h4 e' he'.2, hne e' he'.1]
    · intro e' he' z hz
      by_cases hm : e' ∈ l
      · exact h5 e' hm z hz
      · have he : e' = e := by
          rcases List.mem_cons.1 he' with h | h
          · exact h
          · exact absurd h hm
        subst he
        rw [h4 e' hm] at hz
        rcases getElem?_set_some hz with ⟨_, rfl, _⟩ | ⟨h, _⟩
        · rfl
        · exact absurd rfl h

/-- Every live edge is in the list of exactly one live vertex, once. -/
structure Own (w : World) : Prop where
  live : ∀ (v : Nat) (x : Vertex), w.vs[v]? = some x → x.alive = true → x.outEdges.Nodup ∧
    ∀ e ∈ x.outEdges, ∃ y, w.es[e]? = some y ∧ y.alive = true
  one : ∀ (v v' : Nat) (x x' : Vertex), w.vs[v]? = some x → w.vs[v']? = some x' → x.alive = true → x'.alive = true →
    ∀ e ∈ x.outEdges, e ∈ x'.outEdges → v = v'
  owner : ∀ (e : Nat) (y : Edge), w.es[e]? = some y → y.alive = true →
    ∃ (v : Nat) (x : Vertex), w.vs[v]? = some x ∧ x.alive = true ∧ e ∈ x.outEdges

theorem own_pushV {w : World} (h : Own w) (x : Vertex) (n : Int) (hx : x.outEdges = []) :
    Own { w with vs := w.vs ++ [x], nextVertexID := n } := by
  refine ⟨?_, ?_, ?_⟩
  · intro v z hz ha
    rcases getElem?_append_some hz with ⟨_, hz⟩ | ⟨rfl, rfl⟩
    · exact h.live v z hz ha
    · rw [hx]; simp
  · intro v v' z z' hz hz' ha ha' e he he'
    rcases getElem?_append_some hz with ⟨_, hz⟩ | ⟨rfl, rfl⟩
    · rcases getElem?_append_some hz' with ⟨_, hz'⟩ | ⟨rfl, rfl⟩
      · exact h.one v v' z z' hz hz' ha ha' e he he'
      · rw [hx] at he'; simp at he'
    · rw [hx] at he; simp at he
  · intro e y hy ha
    obtain ⟨v, z, hz, h1, h2⟩ := h.owner e y hy ha
    refine ⟨v, z, ?_, h1, h2⟩
    show (w.vs ++ [x])[v]? = some z
    rw [List.getElem?_append_left (lt_of_some hz)]
    exact hz

/-- Changing a vertex without its list of leaving edges. -/
theorem own_writeV {w : World} (h : Own w) {v : Nat} {x y : Vertex} (hx : w.vs[v]? = some x)
    (ha : y.alive = x.alive) (ho : y.outEdges = x.outEdges) : Own (writeV w v y) := by
  have back : ∀ (i : Nat) (z : Vertex), (writeV w v y).vs[i]? = some z →
      ∃ z0, w.vs[i]? = some z0 ∧ z.alive = z0.alive ∧ z.outEdges = z0.outEdges := by
    intro i z hz
    rcases getElem?_set_some hz with ⟨rfl, rfl, _⟩ | ⟨_, hz⟩
    · exact ⟨x, hx, ha, ho⟩
    · exact ⟨z, hz, rfl, rfl⟩
  refine ⟨?_, ?_, ?_⟩
  · intro i z hz hza
    obtain ⟨z0, h0, h1, h2⟩ := back i z hz
    rw [h2]
    exact h.live i z0 h0 (h1 ▸ hza)
  · intro i i' z z' hz hz' hza hza' e he he'
    obtain ⟨z0, h0, h1, h2⟩ := back i z hz
    obtain ⟨z0', h0', h1', h2'⟩ := back i' z' hz'
    exact h.one i i' z0 z0' h0 h0' (h1 ▸ hza) (h1' ▸ hza') e (h2 ▸ he) (h2' ▸ he')
  · intro e z hz hza
    obtain ⟨i, z0, h0, h1, h2⟩ := h.owner e z hz hza
    by_cases hi : i = v
    · subst hi
      rw [hx] at h0
      cases h0
      refine ⟨i, y, ?_, ha.trans h1, ho ▸ h2⟩
      show (w.vs.set i y)[i]? = some y
      rw [List.getElem?_set_self (lt_of_some hx)]
    · refine ⟨i, z0, ?_, h1, h2⟩
      show (w.vs.set v y)[i]? = some z0
      rw [List.getElem?_set_ne (Ne.symm hi)]
      exact h0

/-- Changing an edge without destroying it. -/
theorem own_writeE {w : World} (h : Own w) {e : Nat} {x y : Edge} (hx : w.es[e]? = some x)
    (ha : y.alive = x.alive) : Own (writeE w e y) := by
  refine ⟨?_, h.one, ?_⟩
  · intro i z hz hza
    obtain ⟨h1, h2⟩ := h.live i z hz hza
    refine ⟨h1, fun e' he' => ?_⟩
    obtain ⟨y0, h3, h4⟩ := h2 e' he'
    by_cases hi : e' = e
    · subst hi
      rw [hx] at h3
      cases h3
      refine ⟨y, ?_, ha.trans h4⟩
      show (w.es.set e' y)[e']? = some y
      rw [List.getElem?_set_self (lt_of_some hx)]
    · refine ⟨y0, ?_, h4⟩
      show (w.es.set e y)[e']? = some y0
      rw [List.getElem?_set_ne (Ne.symm hi)]
      exact h3
  · intro e' z hz hza
    rcases getElem?_set_some hz with ⟨rfl, rfl, _⟩ | ⟨_, hz⟩
    · exact h.owner _ x hx (ha ▸ hza)
    · exact h.owner e' z hz hza

/-- What `~Vertex` does in such a world. -/
theorem destroyV_ok {w : World} (h : Own w) {v : Nat} {x : Vertex} (hx : w.vs[v]? = some x) (ha : x.alive = true) :
    ∃ w', destroyV w v = .ok w' ∧ w'.es.length = w.es.length ∧
      w'.vs = w.vs.set v { x with inEdges := [], outEdges := [], alive := false } ∧
      (∀ e ∉ x.outEdges, w'.es[e]? = w.es[e]?) ∧
      ∀ e ∈ x.outEdges, ∀ y, w'.es[e]? = some y → y.alive = false := by
  obtain ⟨h1, h2⟩ := h.live v x hx ha
  obtain ⟨w', g1, g2, g3, g4, g5⟩ := deleteAll_ok x.outEdges w h1 h2
  refine ⟨writeV w' v { x with inEdges := [], outEdges := [], alive := false }, ?_, g3, ?_, g4, g5⟩
  · unfold destroyV
    rw [readV_eq.2 ⟨hx, ha⟩]
    simp only [Out.ok_bind]
    rw [g1]
    rfl
  · show w'.vs.set v _ = _
    rw [g2]

theorem own_step {w w' : World} (h : Own w) (c : Cmd) (hc : c.Safe w) (hs : step w c = .ok w') : Own w' := by
  cases c with
  | newV val =>
    obtain ⟨n, hn, hw⟩ := Out.bind_eq_ok.1 hs
    cases hw
    exact own_pushV h _ n rfl
  | copyV src =>
    obtain ⟨s, hsr, hs⟩ := Out.bind_eq_ok.1 hs
    obtain ⟨n, hn, hw⟩ := Out.bind_eq_ok.1 hs
    cases hw
    exact own_pushV h _ n (hc s hsr)
  | destroyV v =>
    obtain ⟨x, hx, _⟩ := Out.bind_eq_ok.1 hs
    have hx := readV_eq.1 hx
    obtain ⟨w1, g1, g2, g3, g4, g5⟩ := destroyV_ok h hx.1 hx.2
    have : w1 = w' := by
      have : Out.ok w1 = Out.ok w' := g1.symm.trans hs
      cases this
      rfl
    subst this
    have back : ∀ (i : Nat) (z : Vertex), w1.vs[i]? = some z → z.alive = true → i ≠ v ∧ w.vs[i]? = some z := by
      intro i z hz hza
      rw [g3] at hz
      rcases getElem?_set_some hz with ⟨rfl, rfl, _⟩ | ⟨hne, hz⟩
      · cases hza
      · exact ⟨hne, hz⟩
    refine ⟨?_, ?_, ?_⟩
    · intro i z hz hza
      obtain ⟨hne, hz⟩ := back i z hz hza
      obtain ⟨h1, h2⟩ := h.live i z hz hza
      refine ⟨h1, fun e he => ?_⟩
      rw [g4 e fun he' => hne (h.one i v z x hz hx.1 hza hx.2 e he he')]
      exact h2 e he
    · intro i i' z z' hz hz' hza hza'
      exact h.one i i' z z' (back i z hz hza).2 (back i' z' hz' hza').2 hza hza'
    · intro e y hy hya
      have he : e ∉ x.outEdges := by
        intro he
        have := g5 e he y hy
        rw [hya] at this
        cases this
      rw [g4 e he] at hy
      obtain ⟨i, z, hz, h1, h2⟩ := h.owner e y hy hya
      refine ⟨i, z, ?_, h1, h2⟩
      rw [g3, List.getElem?_set_ne]
      · exact hz
      · rintro rfl
        rw [hx.1] at hz
        cases hz
        exact he h2
  | assignV dst src =>
    obtain ⟨d, hd, hs⟩ := Out.bind_eq_ok.1 hs
    obtain ⟨s, hsr, hs⟩ := Out.bind_eq_ok.1 hs
    obtain ⟨d', hd', hs⟩ := Out.bind_eq_ok.1 hs
    obtain ⟨s', hs', hw⟩ := Out.bind_eq_ok.1 hs
    cases hw
    have hd0 := hc.1 d hd
    have hs0 := hc.2 s hsr
    have hd := readV_eq.1 hd
    have h1 := own_writeV h (y := { d with val := s.val, use := s.use, inEdges := [], outEdges := [] }) hd.1 rfl
      hd0.symm
    have hd' := readV_eq.1 hd'
    have hs' := readV_eq.1 hs'
    have e1 : d'.outEdges = [] := by
      rcases getElem?_set_some hd'.1 with ⟨_, rfl, _⟩ | ⟨hne, _⟩
      · rfl
      · exact absurd rfl hne
    have e2 : s'.outEdges = [] := by
      rcases getElem?_set_some hs'.1 with ⟨_, rfl, _⟩ | ⟨_, hz⟩
      · rfl
      · rw [(readV_eq.1 hsr).1] at hz
        cases hz
        exact hs0
    exact own_writeV h1 hd'.1 rfl (e2.trans e1.symm)
  | setV v val use =>
    obtain ⟨x, hx, hw⟩ := Out.bind_eq_ok.1 hs
    cases hw
    exact own_writeV h (readV_eq.1 hx).1 rfl rfl
  | addEdge v u val =>
    obtain ⟨_, _, hs⟩ := Out.bind_eq_ok.1 hs
    obtain ⟨w1, h1, hs⟩ := Out.bind_eq_ok.1 hs
    obtain ⟨x, hx, hs⟩ := Out.bind_eq_ok.1 hs
    obtain ⟨y, hy, hw⟩ := Out.bind_eq_ok.1 hs
    obtain ⟨n, hn, hw1⟩ := Out.bind_eq_ok.1 h1
    cases hw1
    cases hw
    have hx := readV_eq.1 hx
    have hy := readV_eq.1 hy
    refine own_writeV (x := y) ?_ hy.1 rfl rfl
    have hnew : ∀ (i : Nat) (z : Vertex), w.vs[i]? = some z → z.alive = true → w.es.length ∉ z.outEdges := by
      intro i z hz hza he
      obtain ⟨y, hy, _⟩ := (h.live i z hz hza).2 _ he
      exact lt_irrefl _ (lt_of_some hy)
    refine ⟨?_, ?_, ?_⟩
    · intro i z hz hza
      have old : ∀ (i : Nat) (z : Vertex), w.vs[i]? = some z → z.alive = true → ∀ e ∈ z.outEdges, ∃ y,
          (w.es ++ [⟨v, u, val, true, w.nextEdgeID, true⟩])[e]? = some y ∧ y.alive = true := by
        intro i z hz hza e he
        obtain ⟨y, hy, hya⟩ := (h.live i z hz hza).2 e he
        exact ⟨y, by rw [List.getElem?_append_left (lt_of_some hy)]; exact hy, hya⟩
      rcases getElem?_set_some hz with ⟨rfl, rfl, _⟩ | ⟨_, hz⟩
      · obtain ⟨g1, g2⟩ := h.live _ x hx.1 hx.2
        refine ⟨?_, ?_⟩
        · show (x.outEdges ++ [w.es.length]).Nodup
          rw [List.nodup_append]
          refine ⟨g1, by simp, ?_⟩
          intro a ha b hb
          rw [List.mem_singleton] at hb
          subst hb
          rintro rfl
          exact hnew _ x hx.1 hx.2 ha
        · intro e he
          rcases List.mem_append.1 he with he | he
          · exact old _ x hx.1 hx.2 e he
          · rw [List.mem_singleton] at he
            subst he
            exact ⟨_, by
              show (w.es ++ [_])[w.es.length]? = some _
              rw [List.getElem?_append_right le_rfl]
              simp
              rfl, rfl⟩
      · exact ⟨(h.live i z hz hza).1, old i z hz hza⟩
    · have key : ∀ (i : Nat) (z : Vertex), (w.vs.set v { x with outEdges := x.outEdges ++ [w.es.length] })[i]? = some z →
          z.alive = true → ∃ z0, w.vs[i]? = some z0 ∧ z0.alive = true ∧
            ∀ e ∈ z.outEdges, e ∈ z0.outEdges ∨ (e = w.es.length ∧ i = v) := by
        intro i z hz hza
        rcases getElem?_set_some hz with ⟨rfl, rfl, _⟩ | ⟨_, hz⟩
        · refine ⟨x, hx.1, hx.2, fun e he => ?_⟩
          rcases List.mem_append.1 he with he | he
          · exact Or.inl he
          · exact Or.inr ⟨List.mem_singleton.1 he, rfl⟩
        · exact ⟨z, hz, hza, fun e he => Or.inl he⟩
      intro i i' z z' hz hz' hza hza' e he he'
      obtain ⟨z0, a1, a2, a3⟩ := key i z hz hza
      obtain ⟨z0', b1, b2, b3⟩ := key i' z' hz' hza'
      rcases a3 e he with he | ⟨he, hi⟩
      · rcases b3 e he' with he' | ⟨he', _⟩
        · exact h.one i i' z0 z0' a1 b1 a2 b2 e he he'
        · subst he'
          exact absurd he (hnew i z0 a1 a2)
      · rcases b3 e he' with he' | ⟨_, hi'⟩
        · subst he
          exact absurd he' (hnew i' z0' b1 b2)
        · rw [hi, hi']
    · have keep : ∀ (i : Nat) (z : Vertex) (e : Nat), w.vs[i]? = some z → z.alive = true → e ∈ z.outEdges →
          ∃ (i' : Nat) (z' : Vertex),
          (w.vs.set v { x with outEdges := x.outEdges ++ [w.es.length] })[i']? = some z' ∧ z'.alive = true ∧
            e ∈ z'.outEdges := by
        intro i z e hz hza he
        by_cases hi : i = v
        · subst hi
          rw [hx.1] at hz
          cases hz
          exact ⟨i, _, List.getElem?_set_self (lt_of_some hx.1), hx.2, List.mem_append_left _ he⟩
        · exact ⟨i, z, by rw [List.getElem?_set_ne (Ne.symm hi)]; exact hz, hza, he⟩
      intro e y hy hya
      rcases getElem?_append_some hy with ⟨_, hy⟩ | ⟨rfl, rfl⟩
      · obtain ⟨i, z, hz, h1, h2⟩ := h.owner e y hy hya
        exact keep i z e hz h1 h2
      · exact ⟨v, _, List.getElem?_set_self (lt_of_some hx.1), hx.2, List.mem_append_right _ (by simp)⟩
  | newE a b val => exact absurd hc (by simp [Cmd.Safe])
  | copyE src => exact absurd hc (by simp [Cmd.Safe])
  | deleteE e => exact absurd hc (by simp [Cmd.Safe])
  | assignE dst src =>
    obtain ⟨d, hd, hs⟩ := Out.bind_eq_ok.1 hs
    obtain ⟨s, _, hw⟩ := Out.bind_eq_ok.1 hs
    cases hw
    exact own_writeE h (readE_eq.1 hd).1 rfl
  | setE e val use =>
    obtain ⟨x, hx, hw⟩ := Out.bind_eq_ok.1 hs
    cases hw
    exact own_writeE h (readE_eq.1 hx).1 rfl

theorem reach_own {w : World} (h : Reach w) : Own w := by
  induction h with
  | init =>
    exact ⟨fun v x hx => by simp [World.init] at hx, fun v v' x x' hx => by simp [World.init] at hx,
      fun e y hy => by simp [World.init] at hy⟩
  | step c _ hc hs ih => exact own_step ih c hc hs

theorem owner_unique {w : World} (h : Own w) {e : Nat} {y : Edge} (hy : w.es[e]? = some y) (ha : y.alive = true) :
    ∃! v : Nat, ∃ x : Vertex, w.vs[v]? = some x ∧ x.alive = true ∧ x.outEdges.count e = 1 := by
  obtain ⟨v, x, hx, hxa, he⟩ := h.owner e y hy ha
  refine ⟨v, ⟨x, hx, hxa, List.count_eq_one_of_mem (h.live v x hx hxa).1 he⟩, ?_⟩
  rintro v' ⟨x', hx', hxa', hc⟩
  exact h.one v' v x' x hx' hx hxa' hxa e (List.count_pos_iff.1 (by omega)) he

theorem destroy_effect {w : World} (h : Reach w) {v : Nat} {x : Vertex} (hx : w.vs[v]? = some x)
    (ha : x.alive = true) : ∃ w', step w (.destroyV v) = .ok w' ∧ Reach w' ∧
      (∀ (u : Nat) (z : Vertex), u ≠ v → (w'.vs[u]? = some z ↔ w.vs[u]? = some z)) ∧
      (∀ z, w'.vs[v]? = some z → z.alive = false) ∧
      (∀ e ∉ x.outEdges, w'.es[e]? = w.es[e]?) ∧
      ∀ e ∈ x.outEdges, ∃ y, w'.es[e]? = some y ∧ y.alive = false := by
  obtain ⟨w', g1, g2, g3, g4, g5⟩ := destroyV_ok (reach_own h) hx ha
  refine ⟨w', g1, .step (.destroyV v) h trivial g1, ?_, ?_, g4, ?_⟩
  · intro u z hu
    rw [g3, List.getElem?_set_ne (Ne.symm hu)]
  · intro z hz
    rw [g3, List.getElem?_set_self (lt_of_some hx)] at hz
    cases hz
    rfl
  · intro e he
    obtain ⟨y, hy, _⟩ := ((reach_own h).live v x hx ha).2 e he
    have hl : e < w'.es.length := by rw [g2]; exact lt_of_some hy
    exact ⟨_, List.getElem?_eq_getElem hl, g5 e he _ (List.getElem?_eq_getElem hl)⟩

theorem stale {w : World} (h : Reach w) {v u : Nat} {x z : Vertex} (hx : w.vs[v]? = some x)
    (ha : x.alive = true) (hu : u ≠ v) (hz : w.vs[u]? = some z) {e : Nat} (he : e ∈ x.outEdges) :
    ∃ w', step w (.destroyV v) = .ok w' ∧ w'.vs[u]? = some z ∧ readE w' e = .ub := by
  obtain ⟨w', g1, _, g3, _, _, g6⟩ := destroy_effect h hx ha
  refine ⟨w', g1, (g3 u z hu).2 hz, ?_⟩
  obtain ⟨y, hy, hya⟩ := g6 e he
  unfold readE
  rw [hy]
  simp [hya]

/-! ### Assignment -/

theorem assign_ne {w : World} {dst src : Nat} {d s : Vertex} (hne : dst ≠ src) (hd : readV w dst = .ok d)
    (hs : readV w src = .ok s) : assignV w dst src = .ok (writeV w dst { s with id := d.id }) := by
  have hd' := readV_eq.1 hd
  have hs' := readV_eq.1 hs
  have r1 : ∀ z : Vertex, z.alive = true → readV (writeV w dst z) dst = .ok z := fun z hz =>
    readV_eq.2 ⟨List.getElem?_set_self (lt_of_some hd'.1), hz⟩
  have r2 : ∀ z, readV (writeV w dst z) src = .ok s := fun z =>
    readV_eq.2 ⟨(List.getElem?_set_ne hne).trans hs'.1, hs'.2⟩
  unfold assignV
  rw [hd, hs]
  simp only [Out.ok_bind]
  rw [r1 _ (by exact hd'.2), r2]
  simp only [Out.ok_bind]
  unfold writeV
  simp only [List.set_set]
  rw [hd'.2, ← hs'.2]

theorem assign_self {w : World} {v : Nat} {x : Vertex} (hx : readV w v = .ok x) :
    assignV w v v = .ok (writeV w v { x with inEdges := [], outEdges := [] }) := by
  have hx' := readV_eq.1 hx
  have r1 : ∀ z : Vertex, z.alive = true → readV (writeV w v z) v = .ok z := fun z hz =>
    readV_eq.2 ⟨List.getElem?_set_self (lt_of_some hx'.1), hz⟩
  unfold assignV
  rw [hx]
  simp only [Out.ok_bind]
  rw [r1 _ (by exact hx'.2)]
  simp only [Out.ok_bind]
  unfold writeV
  simp only [List.set_set]

theorem assignE_eq {w : World} {dst src : Nat} {d s : Edge} (hd : readE w dst = .ok d)
    (hs : readE w src = .ok s) : assignE w dst src = .ok (writeE w dst { s with id := d.id }) := by
  unfold assignE
  rw [hd, hs]
  simp only [Out.ok_bind]
  rw [(readE_eq.1 hd).2, ← (readE_eq.1 hs).2]

/-! ### Pointers -/

/-- Every object lives and every pointer leads to an object. -/
structure Live (w : World) : Prop where
  v : ∀ (v : Nat) (x : Vertex), w.vs[v]? = some x → x.alive = true ∧
    (∀ e ∈ x.outEdges, e < w.es.length) ∧ ∀ e ∈ x.inEdges, e < w.es.length
  e : ∀ (e : Nat) (x : Edge), w.es[e]? = some x → x.alive = true ∧ x.from' < w.vs.length ∧ x.to' < w.vs.length

theorem live_writeV {w : World} (h : Live w) {v : Nat} {y : Vertex} (hy : y.alive = true ∧
    (∀ e ∈ y.outEdges, e < w.es.length) ∧ ∀ e ∈ y.inEdges, e < w.es.length) : Live (writeV w v y) := by
  refine ⟨?_, ?_⟩
  · intro i x hx
    rcases getElem?_set_some hx with ⟨rfl, rfl, _⟩ | ⟨_, hx⟩
    · exact hy
    · exact h.v i x hx
  · intro e x hx
    simpa [writeV] using h.e e x hx

theorem live_writeE {w : World} (h : Live w) {e : Nat} {y : Edge}
    (hy : y.alive = true ∧ y.from' < w.vs.length ∧ y.to' < w.vs.length) : Live (writeE w e y) := by
  refine ⟨?_, ?_⟩
  · intro i x hx
    simpa [writeE] using h.v i x hx
  · intro i x hx
    rcases getElem?_set_some hx with ⟨rfl, rfl, _⟩ | ⟨_, hx⟩
    · exact hy
    · exact h.e i x hx

theorem live_pushV {w : World} (h : Live w) {y : Vertex} {n : Int} (hy : y.alive = true ∧
    (∀ e ∈ y.outEdges, e < w.es.length) ∧ ∀ e ∈ y.inEdges, e < w.es.length) :
    Live { w with vs := w.vs ++ [y], nextVertexID := n } := by
  refine ⟨?_, ?_⟩
  · intro i x hx
    rcases getElem?_append_some hx with ⟨_, hx⟩ | ⟨rfl, rfl⟩
    · exact h.v i x hx
    · exact hy
  · intro e x hx
    obtain ⟨h1, h2, h3⟩ := h.e e x hx
    refine ⟨h1, ?_, ?_⟩ <;> simp <;> omega

theorem live_pushE {w : World} (h : Live w) {y : Edge} {n : Int}
    (hy : y.alive = true ∧ y.from' < w.vs.length ∧ y.to' < w.vs.length) :
    Live { w with es := w.es ++ [y], nextEdgeID := n } := by
  refine ⟨?_, ?_⟩
  · intro i x hx
    obtain ⟨h1, h2, h3⟩ := h.v i x hx
    refine ⟨h1, fun e he => ?_, fun e he => ?_⟩
    · have := h2 e he
      simp; omega
    · have := h3 e he
      simp; omega
  · intro i x hx
    rcases getElem?_append_some hx with ⟨_, hx⟩ | ⟨rfl, rfl⟩
    · exact h.e i x hx
    · exact hy

theorem live_step {w w' : World} (h : Live w) (c : Cmd) (hc : c.simple = true ∨ c.copies = true)
    (hs : step w c = .ok w') : Live w' := by
  cases c with
  | newV val =>
    obtain ⟨n, hn, hw⟩ := Out.bind_eq_ok.1 hs
    cases hw
    exact live_pushV h (by simp)
  | copyV src =>
    obtain ⟨s, hsr, hs⟩ := Out.bind_eq_ok.1 hs
    obtain ⟨n, hn, hw⟩ := Out.bind_eq_ok.1 hs
    cases hw
    exact live_pushV h ⟨rfl, (h.v src s (readV_eq.1 hsr).1).2⟩
  | assignV dst src =>
    obtain ⟨d, hd, hs⟩ := Out.bind_eq_ok.1 hs
    obtain ⟨s, hsr, hs⟩ := Out.bind_eq_ok.1 hs
    obtain ⟨d', hd', hs⟩ := Out.bind_eq_ok.1 hs
    obtain ⟨s', hs', hw⟩ := Out.bind_eq_ok.1 hs
    cases hw
    have h1 : Live (writeV w dst { d with val := s.val, use := s.use, inEdges := [], outEdges := [] }) :=
      live_writeV h ⟨(readV_eq.1 hd).2, by simp⟩
    exact live_writeV h1 ⟨(readV_eq.1 hd').2, (h1.v src s' (readV_eq.1 hs').1).2⟩
  | setV v val use =>
    obtain ⟨x, hx, hw⟩ := Out.bind_eq_ok.1 hs
    cases hw
    exact live_writeV h (h.v v x (readV_eq.1 hx).1)
  | addEdge v u val =>
    obtain ⟨x0, hx0, hs⟩ := Out.bind_eq_ok.1 hs
    obtain ⟨w1, h1, hs⟩ := Out.bind_eq_ok.1 hs
    obtain ⟨x, hx, hs⟩ := Out.bind_eq_ok.1 hs
    obtain ⟨y, hy, hw⟩ := Out.bind_eq_ok.1 hs
    cases hw
    obtain ⟨n, hn, hw⟩ := Out.bind_eq_ok.1 h1
    cases hw
    have hul : u < w.vs.length := by simpa [writeV] using lt_of_some (readV_eq.1 hy).1
    have l1 : Live { w with es := w.es ++ [⟨v, u, val, true, w.nextEdgeID, true⟩], nextEdgeID := n } :=
      live_pushE h ⟨rfl, lt_of_some (readV_eq.1 hx0).1, hul⟩
    obtain ⟨a1, a2, a3⟩ := l1.v v x (readV_eq.1 hx).1
    have l2 := live_writeV l1 (v := v) (y := { x with outEdges := x.outEdges ++ [w.es.length] }) ⟨a1, by
      intro e he
      rcases List.mem_append.1 he with he | he
      · exact a2 e he
      · rw [List.mem_singleton] at he
        subst he
        simp, a3⟩
    obtain ⟨b1, b2, b3⟩ := l2.v u y (readV_eq.1 hy).1
    exact live_writeV l2 ⟨b1, b2, by
      intro e he
      rcases List.mem_append.1 he with he | he
      · exact b3 e he
      · rw [List.mem_singleton] at he
        subst he
        simp [writeV]⟩
  | copyE src =>
    obtain ⟨s, hsr, hs⟩ := Out.bind_eq_ok.1 hs
    obtain ⟨n, hn, hw⟩ := Out.bind_eq_ok.1 hs
    cases hw
    exact live_pushE h ⟨rfl, (h.e src s (readE_eq.1 hsr).1).2⟩
  | assignE dst src =>
    obtain ⟨d, hd, hs⟩ := Out.bind_eq_ok.1 hs
    obtain ⟨s, hsr, hw⟩ := Out.bind_eq_ok.1 hs
    cases hw
    exact live_writeE h ⟨(readE_eq.1 hd).2, (h.e src s (readE_eq.1 hsr).1).2⟩
  | setE e val use =>
    obtain ⟨x, hx, hw⟩ := Out.bind_eq_ok.1 hs
    cases hw
    exact live_writeE h (h.e e x (readE_eq.1 hx).1)
  | destroyV _ => simp [Cmd.simple, Cmd.copies] at hc
  | newE _ _ _ => simp [Cmd.simple, Cmd.copies] at hc
  | deleteE _ => simp [Cmd.simple, Cmd.copies] at hc

theorem no_dangling {h : List Cmd} (hc : ∀ c ∈ h, c.simple = true ∨ c.copies = true) {w : World}
    (hr : run h = .ok w) {v : Nat} {x : Vertex} (hx : w.vs[v]? = some x) {e : Nat}
    (he : e ∈ x.outEdges ∨ e ∈ x.inEdges) :
    ∃ y, readE w e = .ok y ∧ (∃ a, readV w y.from' = .ok a) ∧ ∃ b, readV w y.to' = .ok b := by
  have hl : Live w := by
    clear hx he
    induction h using List.reverseRecOn generalizing w with
    | nil =>
      cases hr
      exact ⟨fun v x hx => by simp [World.init] at hx, fun e x hx => by simp [World.init] at hx⟩
    | append_singleton h c ih =>
      obtain ⟨w0, h0, h1⟩ := run_concat hr
      exact live_step (ih (fun c hc' => hc c (by simp [hc'])) h0) c (hc c (by simp)) h1
  obtain ⟨_, h1, h2⟩ := hl.v v x hx
  have hlt : e < w.es.length := by
    rcases he with he | he
    · exact h1 e he
    · exact h2 e he
  have hy := List.getElem?_eq_getElem hlt
  obtain ⟨b1, b2, b3⟩ := hl.e e _ hy
  have rv : ∀ u < w.vs.length, ∃ a, readV w u = .ok a := fun u hu =>
    ⟨_, readV_eq.2 ⟨List.getElem?_eq_getElem hu, (hl.v u _ (List.getElem?_eq_getElem hu)).1⟩⟩
  exact ⟨_, readE_eq.2 ⟨hy, b1⟩, rv _ b2, rv _ b3⟩

end Graph
