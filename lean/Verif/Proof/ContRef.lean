import Verif.Spec.ContRef
import Mathlib.Data.List.Nodup
import Mathlib.Data.List.Basic

/-! # Helper lemmas for references to elements -/

open Cpp

namespace Cont.Ref

variable {α : Type}

/-- The object `s` holds the values `vs`. -/
structure Rel (s : Obj α) (vs : List α) : Prop where
  nodup : s.nodes.Nodup
  vals : s.nodes.map s.mem = vs.map some
  fresh : ∀ r, s.mem r ≠ none → r < s.next
  live : ∀ r, s.mem r ≠ none → r ∈ s.nodes

theorem Rel.length {s : Obj α} {vs : List α} (h : Rel s vs) : s.nodes.length = vs.length := by
  have := congrArg List.length h.vals
  simpa using this

theorem Rel.get {s : Obj α} {vs : List α} (h : Rel s vs) (p : Nat) : (s.nodes[p]?).map s.mem = (vs[p]?).map some := by
  have := congrArg (fun l => l[p]?) h.vals
  simpa using this

theorem Rel.mem_some {s : Obj α} {vs : List α} (h : Rel s vs) {r : Nat} (hr : r ∈ s.nodes) : ∃ x, s.mem r = some x := by
  have : s.mem r ∈ s.nodes.map s.mem := List.mem_map_of_mem hr
  rw [h.vals] at this
  obtain ⟨x, -, hx⟩ := List.mem_map.1 this
  exact ⟨x, hx.symm⟩

theorem Rel.dead {s : Obj α} {vs : List α} (h : Rel s vs) {r : Nat} : s.mem r = none ↔ r ∉ s.nodes := by
  constructor
  · intro hn hm
    obtain ⟨x, hx⟩ := h.mem_some hm
    rw [hx] at hn
    cases hn
  · intro hn
    by_contra hc
    exact hn (h.live r hc)

theorem Rel.lt {s : Obj α} {vs : List α} (h : Rel s vs) {r : Nat} (hr : r ∈ s.nodes) : r < s.next := by
  apply h.fresh
  obtain ⟨x, hx⟩ := h.mem_some hr
  rw [hx]
  simp

theorem Rel.contents {s : Obj α} {vs : List α} (h : Rel s vs) : s.contents = vs := by
  have : s.nodes.filterMap s.mem = (s.nodes.map s.mem).filterMap id := by rw [List.filterMap_map]; rfl
  rw [Obj.contents, this, h.vals, List.filterMap_map]
  simp

theorem Rel.at {s : Obj α} {vs : List α} (h : Rel s vs) {p r : Nat} (hp : s.nodes[p]? = some r) :
    ∃ x, vs[p]? = some x ∧ s.mem r = some x := by
  have := h.get p
  rw [hp] at this
  cases hv : vs[p]? with
  | none => rw [hv] at this; cases this
  | some x =>
    rw [hv] at this
    simp only [Option.map_some, Option.some.injEq] at this
    exact ⟨x, rfl, this⟩

/-- The relation depends on the memory at the names in use only. -/
theorem map_mem_congr {l : List Nat} {f g : Nat → Option α} (h : ∀ r ∈ l, f r = g r) : l.map f = l.map g :=
  List.map_congr_left h

theorem Rel.write {s : Obj α} {vs : List α} (h : Rel s vs) {p r : Nat} (hp : s.nodes[p]? = some r) (x : α) :
    s.write r x = .ok { s with mem := fun i => if i = r then some x else s.mem i } ∧
    Rel { s with mem := fun i => if i = r then some x else s.mem i } (vs.set p x) := by
  obtain ⟨y, hy, hm⟩ := h.at hp
  have hmem : r ∈ s.nodes := List.mem_of_getElem? hp
  refine ⟨by simp [Obj.write, hm], h.nodup, ?_, ?_, ?_⟩
  · apply List.ext_getElem?
    intro q
    have hg := h.get q
    simp only [List.getElem?_map, List.getElem?_set]
    by_cases hq : p = q
    · subst hq
      have hlt : p < vs.length := by
        have := List.getElem?_eq_some_iff.1 hy
        exact this.1
      simp [hp, hlt]
    · rw [if_neg hq, ← hg]
      cases hn : s.nodes[q]? with
      | none => rfl
      | some r' =>
        have hne : r' ≠ r := by
          intro e
          subst e
          apply hq
          have h1 := List.getElem?_eq_some_iff.1 hp
          have h2 := List.getElem?_eq_some_iff.1 hn
          obtain ⟨a1, b1⟩ := h1
          obtain ⟨a2, b2⟩ := h2
          exact (List.Nodup.getElem_inj_iff h.nodup).1 (b1.trans b2.symm)
        simp [hne]
  · intro r' hr'
    dsimp only at hr'
    split at hr'
    · next e => subst e; exact h.lt hmem
    · exact h.fresh r' hr'
  · intro r' hr'
    dsimp only at hr'
    split at hr'
    · next e => subst e; exact hmem
    · exact h.live r' hr'

/-- A new element, put somewhere between the others. -/
theorem Rel.insert {s : Obj α} {a b : List α} {na nb : List Nat} (h : Rel s (a ++ b)) (hn : s.nodes = na ++ nb)
    (hl : na.length = a.length) (x : α) :
    Rel { (s.new x).2 with nodes := na ++ s.next :: nb } (a ++ x :: b) := by
  have hnot : s.next ∉ s.nodes := fun hm => Nat.lt_irrefl _ (h.lt hm)
  have hv := h.vals
  rw [hn, List.map_append, List.map_append] at hv
  have hv' := List.append_inj hv (by simpa using hl)
  have hne : ∀ r ∈ s.nodes, (if r = s.next then some x else s.mem r) = s.mem r := by
    intro r hr
    rw [if_neg]
    intro e
    exact hnot (e ▸ hr)
  refine ⟨?_, ?_, ?_, ?_⟩
  · have := h.nodup
    rw [hn] at this hnot
    show (na ++ s.next :: nb).Nodup
    rw [List.nodup_middle]
    exact List.nodup_cons.2 ⟨hnot, this⟩
  · show (na ++ s.next :: nb).map (fun i => if i = s.next then some x else s.mem i) = _
    rw [List.map_append, List.map_cons, List.map_append, List.map_cons]
    rw [map_mem_congr (g := s.mem) (fun r hr => hne r (by rw [hn]; simp [hr])), hv'.1,
      map_mem_congr (g := s.mem) (fun r hr => hne r (by rw [hn]; simp [hr])), hv'.2]
    simp
  · intro r hr
    show r < s.next + 1
    by_cases e : r = s.next
    · omega
    · have := h.fresh r (by simpa [Obj.new, e] using hr)
      omega
  · intro r hr
    show r ∈ na ++ s.next :: nb
    by_cases e : r = s.next
    · simp [e]
    · have := h.live r (by simpa [Obj.new, e] using hr)
      rw [hn] at this
      simp only [List.mem_append, List.mem_cons] at this ⊢
      tauto

/-- An element is taken away. -/
theorem Rel.remove {s : Obj α} {a b : List α} {na nb : List Nat} {r : Nat} {x : α} (h : Rel s (a ++ x :: b))
    (hn : s.nodes = na ++ r :: nb) (hl : na.length = a.length) :
    Rel { s.free r with nodes := na ++ nb } (a ++ b) ∧ s.mem r = some x ∧ r ∉ na ++ nb := by
  have hv := h.vals
  rw [hn, List.map_append, List.map_append, List.map_cons, List.map_cons] at hv
  have hv' := List.append_inj hv (by simpa using hl)
  have hv2 := List.cons.inj hv'.2
  have hnd := h.nodup
  rw [hn, List.nodup_middle, List.nodup_cons] at hnd
  have hne : ∀ r' ∈ na ++ nb, (if r' = r then none else s.mem r') = s.mem r' := by
    intro r' hr'
    rw [if_neg]
    intro e
    exact hnd.1 (e ▸ hr')
  refine ⟨⟨hnd.2, ?_, ?_, ?_⟩, hv2.1, hnd.1⟩
  · show (na ++ nb).map (fun i => if i = r then none else s.mem i) = _
    rw [map_mem_congr (g := s.mem) hne, List.map_append, hv'.1, hv2.2, List.map_append]
  · intro r' hr'
    by_cases e : r' = r
    · simp [Obj.free, e] at hr'
    · exact h.fresh r' (by simpa [Obj.free, e] using hr')
  · intro r' hr'
    show r' ∈ na ++ nb
    by_cases e : r' = r
    · simp [Obj.free, e] at hr'
    · have := h.live r' (by simpa [Obj.free, e] using hr')
      rw [hn] at this
      simp only [List.mem_append, List.mem_cons] at this ⊢
      tauto

theorem Rel.clear {s : Obj α} {vs : List α} (_ : Rel s vs) : Rel (Ref.clear s) [] :=
  ⟨List.nodup_nil, rfl, fun _ h => absurd rfl h, fun _ h => absurd rfl h⟩

/-- The nodes in another order. -/
theorem Rel.perm {s : Obj α} {vs vs' : List α} {ns : List Nat} (h : Rel s vs) (hp : ns.Perm s.nodes)
    (hv : ns.map s.mem = vs'.map some) : Rel { s with nodes := ns } vs' :=
  ⟨hp.nodup_iff.2 h.nodup, hv, h.fresh, fun r hr => hp.mem_iff.2 (h.live r hr)⟩

/-- What a reference stands for. -/
def RefOk (s : Obj α) (r : Nat) (q : Option Nat) : Prop :=
  r < s.next ∧ match q with
    | some p => s.nodes[p]? = some r
    | none => r ∉ s.nodes

/-- The elements move as `mv` says. -/
def Moved (s s' : Obj α) (mv : Nat → Option Nat) : Prop := ∀ r q, RefOk s r q → RefOk s' r (q.bind mv)

/-- Two ways to run something agree. -/
def Agree {β γ : Type} (P : β → γ → Prop) : Out β → Out γ → Prop
  | .ok b, .ok c => P b c
  | .exit, .exit => True
  | .ub, .ub => True
  | .diverge, .diverge => True
  | _, _ => False

/-- Simulation of a class by its specification; `R` may depend on the rest of the program. -/
structure Sim {S C : Type} (K : Class S C α) (V : Spec.Class C α) (R : S → List α → List (Stmt C α) → Prop) : Prop where
  rel : ∀ s vs p, R s vs p → Rel (K.obj s) vs
  skip : ∀ s vs t p, (∀ c, t ≠ .call c) → R s vs (t :: p) → R s vs p
  upd : ∀ s vs p o vs', R s vs p → Rel o vs' → vs'.length = vs.length → R (K.upd s o) vs' p ∧ K.obj (K.upd s o) = o
  call : ∀ s vs c p, R s vs (.call c :: p) →
    Agree (fun a b => a.1 = b.1 ∧ R b.2 a.2 p ∧ Moved (K.obj s) (K.obj b.2) (V.move vs c)) (V.call vs c) (K.call s c)
  ref : ∀ s vs p a, R s vs p → Agree (fun q r => (K.obj s).nodes[q]? = some r) (V.pos vs a) (K.ref s a)

theorem forall2_get {s : Obj α} {rs : List Nat} {ps : List (Option Nat)} (h : List.Forall₂ (RefOk s) rs ps) (k : Nat) :
    (rs[k]? = none ∧ ps[k]? = none) ∨ ∃ r q, rs[k]? = some r ∧ ps[k]? = some q ∧ RefOk s r q := by
  induction h generalizing k with
  | nil => exact Or.inl ⟨rfl, rfl⟩
  | cons h _ ih =>
    cases k with
    | zero => exact Or.inr ⟨_, _, rfl, rfl, h⟩
    | succ k => exact ih k

theorem forall2_move {s s' : Obj α} {mv : Nat → Option Nat} (hm : Moved s s' mv) {rs : List Nat}
    {ps : List (Option Nat)} (h : List.Forall₂ (RefOk s) rs ps) :
    List.Forall₂ (RefOk s') rs (ps.map fun q => q.bind mv) := by
  induction h with
  | nil => exact .nil
  | cons h _ ih => exact .cons (hm _ _ h) ih

theorem forall2_imp {s s' : Obj α} (hm : ∀ r q, RefOk s r q → RefOk s' r q) {rs : List Nat}
    {ps : List (Option Nat)} (h : List.Forall₂ (RefOk s) rs ps) : List.Forall₂ (RefOk s') rs ps := by
  induction h with
  | nil => exact .nil
  | cons h _ ih => exact .cons (hm _ _ h) ih

theorem forall2_snoc {s : Obj α} {rs : List Nat} {ps : List (Option Nat)} (h : List.Forall₂ (RefOk s) rs ps) {r q}
    (hr : RefOk s r q) : List.Forall₂ (RefOk s) (rs ++ [r]) (ps ++ [q]) := by
  induction h with
  | nil => exact .cons hr .nil
  | cons h _ ih => exact .cons h ih

theorem Sim.run {S C : Type} {K : Class S C α} {V : Spec.Class C α} {R : S → List α → List (Stmt C α) → Prop}
    (H : Sim K V R) (prog : List (Stmt C α)) : ∀ (s : S) (vs : List α) (rs : List Nat) (ps : List (Option Nat)),
    R s vs prog → List.Forall₂ (RefOk (K.obj s)) rs ps → run K s rs prog = Spec.run V vs ps prog := by
  induction prog with
  | nil =>
    intro s vs rs ps hR _
    simp [Ref.run, Spec.run, (H.rel s vs _ hR).contents]
  | cons t p ih =>
    intro s vs rs ps hR hF
    have hrel := H.rel s vs _ hR
    cases t with
    | call c =>
      have hc := H.call s vs c p hR
      simp only [Ref.run, Spec.run]
      revert hc
      cases h1 : V.call vs c <;> cases h2 : K.call s c <;> intro hc <;>
        first
        | exact hc.elim
        | rfl
        | skip
      obtain ⟨e, hR', hm⟩ := hc
      next a b =>
      obtain ⟨x, vs'⟩ := a
      obtain ⟨x', s'⟩ := b
      dsimp only at e hR' hm
      subst e
      simp only [Out.ok_bind]
      rw [ih s' vs' rs _ hR' (forall2_move hm hF)]
    | bind a =>
      have hc := H.ref s vs _ a hR
      simp only [Ref.run, Spec.run]
      revert hc
      cases h1 : V.pos vs a <;> cases h2 : K.ref s a <;> intro hc <;>
        first
        | exact hc.elim
        | rfl
        | skip
      next q r =>
      have hc : (K.obj s).nodes[q]? = some r := hc
      simp only [Out.ok_bind]
      refine ih s vs _ _ (H.skip _ _ _ _ (by simp) hR) (forall2_snoc hF ⟨?_, hc⟩)
      exact hrel.lt (List.mem_of_getElem? hc)
    | read k =>
      have hR' := H.skip _ _ _ _ (by simp) hR
      simp only [Ref.run, Spec.run]
      rcases forall2_get hF k with ⟨h1, h2⟩ | ⟨r, q, h1, h2, h3⟩
      · rw [h1, h2]
        exact ih s vs _ _ hR' hF
      · rw [h1, h2]
        cases q with
        | none =>
          have : (K.obj s).mem r = none := hrel.dead.2 h3.2
          simp [Obj.read, this]
        | some q =>
          obtain ⟨x, hx, hm⟩ := hrel.at h3.2
          simp only [Obj.read, hm, hx, Out.ok_bind]
          rw [ih s vs _ _ hR' hF]
    | write k x =>
      have hR' := H.skip _ _ _ _ (by simp) hR
      simp only [Ref.run, Spec.run]
      rcases forall2_get hF k with ⟨h1, h2⟩ | ⟨r, q, h1, h2, h3⟩
      · rw [h1, h2]
        exact ih s vs _ _ hR' hF
      · rw [h1, h2]
        cases q with
        | none =>
          have : (K.obj s).mem r = none := hrel.dead.2 h3.2
          simp [Obj.write, this]
        | some q =>
          obtain ⟨hw, hrel'⟩ := hrel.write h3.2 x
          simp only [hw, Out.ok_bind]
          obtain ⟨h4, h5⟩ := H.upd s vs p _ _ hR' hrel' (by simp)
          refine ih _ _ _ _ h4 ?_
          rw [h5]
          exact forall2_imp (fun _ _ h => h) hF

/-! ## the operations -/

theorem moved_refl (s : Obj α) : Moved s s some := by
  intro r q h
  cases q <;> exact h

/-- split at a position -/
theorem split_at {β : Type} (l : List β) {p : Nat} (h : p < l.length) : ∃ a x b, l = a ++ x :: b ∧ a.length = p :=
  ⟨l.take p, l[p], l.drop (p + 1), by simp, by simp; omega⟩

theorem moved_insert {s : Obj α} {vs : List α} (h : Rel s vs) {na nb : List Nat} (hn : s.nodes = na ++ nb) (x : α)
    (mv : Nat → Option Nat) (hmv : ∀ p, p < vs.length → mv p = some (if na.length ≤ p then p + 1 else p)) :
    Moved s { (s.new x).2 with nodes := na ++ s.next :: nb } mv := by
  intro r q hr
  obtain ⟨h1, h2⟩ := hr
  refine ⟨by show r < s.next + 1; omega, ?_⟩
  cases q with
  | none =>
    show r ∉ na ++ s.next :: nb
    have h2 : r ∉ s.nodes := h2
    rw [hn] at h2
    simp only [List.mem_append, List.mem_cons] at h2 ⊢
    have : r ≠ s.next := by omega
    tauto
  | some p =>
    have h2 : s.nodes[p]? = some r := h2
    have hlt : p < vs.length := by rw [← h.length]; exact (List.getElem?_eq_some_iff.1 h2).1
    show match mv p with | some p => (na ++ s.next :: nb)[p]? = some r | none => r ∉ na ++ s.next :: nb
    rw [hmv p hlt]
    dsimp only
    rw [hn] at h2
    split
    · next hle =>
      rw [List.getElem?_append_right (by omega)] at h2 ⊢
      rw [show p + 1 - na.length = p - na.length + 1 from by omega, List.getElem?_cons_succ]
      exact h2
    · next hle =>
      rw [List.getElem?_append_left (by omega)] at h2 ⊢
      exact h2

theorem moved_remove {s : Obj α} {vs : List α} (h : Rel s vs) {na nb : List Nat} {r : Nat} (hn : s.nodes = na ++ r :: nb)
    (mv : Nat → Option Nat) (hmv : ∀ p, p < vs.length → mv p =
      if na.length < p then some (p - 1) else if na.length = p then none else some p) :
    Moved s { s.free r with nodes := na ++ nb } mv := by
  have hnd := h.nodup
  rw [hn, List.nodup_middle, List.nodup_cons] at hnd
  intro r' q hr
  obtain ⟨h1, h2⟩ := hr
  refine ⟨h1, ?_⟩
  cases q with
  | none =>
    show r' ∉ na ++ nb
    have h2 : r' ∉ s.nodes := h2
    rw [hn] at h2
    simp only [List.mem_append, List.mem_cons] at h2 ⊢
    tauto
  | some p =>
    have h2 : s.nodes[p]? = some r' := h2
    have hlt : p < vs.length := by rw [← h.length]; exact (List.getElem?_eq_some_iff.1 h2).1
    show match mv p with | some p => (na ++ nb)[p]? = some r' | none => r' ∉ na ++ nb
    rw [hmv p hlt]
    rw [hn] at h2
    split_ifs with h3 h4
    · dsimp only
      rw [List.getElem?_append_right (by omega)] at h2 ⊢
      rw [show p - na.length = (p - 1 - na.length) + 1 from by omega, List.getElem?_cons_succ] at h2
      exact h2
    · dsimp only
      subst h4
      simp at h2
      subst h2
      exact hnd.1
    · dsimp only
      rw [List.getElem?_append_left (by omega)] at h2 ⊢
      exact h2

theorem moved_clear (s : Obj α) (mv : Nat → Option Nat) (hmv : ∀ p, mv p = none) : Moved s (clear s) mv := by
  intro r q hr
  refine ⟨hr.1, ?_⟩
  cases q with
  | none => exact List.not_mem_nil
  | some p =>
    show match mv p with | some p => ([] : List Nat)[p]? = some r | none => r ∉ ([] : List Nat)
    rw [hmv p]
    exact List.not_mem_nil

theorem moved_perm {s : Obj α} {ns : List Nat} (hp : ns.Perm s.nodes)
    (mv : Nat → Option Nat) (hmv : ∀ (p r : Nat), s.nodes[p]? = some r → ∃ q, mv p = some q ∧ ns[q]? = some r) :
    Moved s { s with nodes := ns } mv := by
  intro r q hr
  refine ⟨hr.1, ?_⟩
  cases q with
  | none => exact fun h => hr.2 (hp.mem_iff.1 h)
  | some p =>
    obtain ⟨q, hq, hn⟩ := hmv p r hr.2
    show match mv p with | some p => ns[p]? = some r | none => r ∉ ns
    rw [hq]
    exact hn

end Cont.Ref
