import Verif.Spec.ContRef
import Verif.Proof.Assoc
import Mathlib.Data.List.Nodup

/-! # References to the values of a Map -/

open Cpp

namespace Cont.Ref.Map

variable {κ ν : Type} [LinearOrder κ]

theorem find_map {β γ : Type} (f : β → γ) (k : κ) (l : List (κ × β)) :
    Stl.mapFind k (l.map fun n => (n.1, f n.2)) = (Stl.mapFind k l).map f := by
  induction l with
  | nil => rfl
  | cons n l ih =>
    simp only [List.map_cons, Stl.mapFind]
    split_ifs <;> simp [ih]

theorem insert_map {β γ : Type} (f : β → γ) (k : κ) (x : β) (l : List (κ × β)) :
    (Stl.mapInsert k x l).map (fun n => (n.1, f n.2)) = Stl.mapInsert k (f x) (l.map fun n => (n.1, f n.2)) := by
  induction l with
  | nil => rfl
  | cons n l ih =>
    simp only [List.map_cons, Stl.mapInsert]
    split_ifs <;> simp [ih]

theorem put_map {β γ : Type} (f : β → γ) (k : κ) (x : β) (l : List (κ × β)) :
    (Stl.mapPut k x l).map (fun n => (n.1, f n.2)) = Stl.mapPut k (f x) (l.map fun n => (n.1, f n.2)) := by
  induction l with
  | nil => rfl
  | cons n l ih =>
    simp only [List.map_cons, Stl.mapPut]
    split_ifs <;> simp [ih]

theorem erase_map {β γ : Type} (f : β → γ) (k : κ) (l : List (κ × β)) :
    (Stl.mapErase k l).map (fun n => (n.1, f n.2)) = Stl.mapErase k (l.map fun n => (n.1, f n.2)) := by
  induction l with
  | nil => rfl
  | cons n l ih =>
    simp only [List.map_cons, Stl.mapErase]
    split_ifs <;> simp [ih]

/-- The object `s` holds the pairs `m`. -/
structure MRel (s : MObj κ ν) (m : List (κ × ν)) : Prop where
  sorted : s.nodes.Pairwise fun a b => a.1 < b.1
  nodup : (s.nodes.map fun n => n.2).Nodup
  vals : s.nodes.map (fun n => (n.1, s.mem n.2)) = m.map fun p => (p.1, some p.2)
  fresh : ∀ r, s.mem r ≠ none → r < s.next
  live : ∀ r, s.mem r ≠ none → r ∈ s.nodes.map fun n => n.2

theorem MRel.find {s : MObj κ ν} {m : List (κ × ν)} (h : MRel s m) (k : κ) :
    (Stl.mapFind k s.nodes).map s.mem = (Stl.mapFind k m).map some := by
  rw [← find_map, h.vals, find_map]

theorem MRel.find_some {s : MObj κ ν} {m : List (κ × ν)} (h : MRel s m) {k : κ} {r : Nat}
    (hr : Stl.mapFind k s.nodes = some r) : ∃ x, Stl.mapFind k m = some x ∧ s.mem r = some x := by
  have := h.find k
  rw [hr] at this
  cases hm : Stl.mapFind k m with
  | none => rw [hm] at this; cases this
  | some x =>
    rw [hm] at this
    simp only [Option.map_some, Option.some.injEq] at this
    exact ⟨x, rfl, this⟩

theorem MRel.find_none {s : MObj κ ν} {m : List (κ × ν)} (h : MRel s m) {k : κ} :
    Stl.mapFind k s.nodes = none ↔ Stl.mapFind k m = none := by
  have := h.find k
  constructor
  · intro e
    rw [e] at this
    simpa using this.symm
  · intro e
    rw [e] at this
    simpa using this

theorem MRel.contents {s : MObj κ ν} {m : List (κ × ν)} (h : MRel s m) : s.contents = m := by
  have e : s.contents = (s.nodes.map fun n => (n.1, s.mem n.2)).filterMap fun n => n.2.map fun x => (n.1, x) := by
    rw [List.filterMap_map]
    rfl
  rw [e, h.vals, List.filterMap_map]
  simp

theorem MRel.mem_some {s : MObj κ ν} {m : List (κ × ν)} (h : MRel s m) {n : κ × Nat} (hn : n ∈ s.nodes) :
    ∃ x, s.mem n.2 = some x := by
  have h1 : Stl.mapFind n.1 s.nodes = some n.2 := (mapFind_iff h.sorted n.1 n.2).2 hn
  obtain ⟨x, -, hx⟩ := h.find_some h1
  exact ⟨x, hx⟩

theorem MRel.dead {s : MObj κ ν} {m : List (κ × ν)} (h : MRel s m) {r : Nat} :
    s.mem r = none ↔ r ∉ s.nodes.map fun n => n.2 := by
  constructor
  · intro hn hm
    obtain ⟨n, hn1, rfl⟩ := List.mem_map.1 hm
    obtain ⟨x, hx⟩ := h.mem_some hn1
    rw [hx] at hn
    cases hn
  · intro hn
    by_contra hc
    exact hn (h.live r hc)

/-- What a reference stands for. -/
def RefOk (s : MObj κ ν) (r : Nat) (q : Option κ) : Prop :=
  r < s.next ∧ match q with
    | some k => Stl.mapFind k s.nodes = some r
    | none => r ∉ s.nodes.map fun n => n.2

theorem MRel.lt {s : MObj κ ν} {m : List (κ × ν)} (h : MRel s m) {k : κ} {r : Nat}
    (hr : Stl.mapFind k s.nodes = some r) : r < s.next := by
  obtain ⟨x, -, hx⟩ := h.find_some hr
  exact h.fresh r (by simp [hx])

theorem find_mem {s : MObj κ ν} {m : List (κ × ν)} (h : MRel s m) {k : κ} {r : Nat}
    (hr : Stl.mapFind k s.nodes = some r) : (k, r) ∈ s.nodes := (mapFind_iff h.sorted k r).1 hr

theorem put_congr {β γ : Type} (F F' : κ × β → γ) (k : κ) (y : γ) (l : List (κ × β)) (hs : l.Pairwise fun a b => a.1 < b.1)
    (h : ∀ n ∈ l, n.1 ≠ k → F' n = F n) :
    Stl.mapPut k y (l.map fun n => (n.1, F' n)) = Stl.mapPut k y (l.map fun n => (n.1, F n)) := by
  induction l with
  | nil => rfl
  | cons n l ih =>
    have hs' := List.pairwise_cons.1 hs
    have hrest : k ≤ n.1 → l.map (fun n => (n.1, F' n)) = l.map fun n => (n.1, F n) := by
      intro hk
      apply List.map_congr_left
      intro a ha
      rw [h a (List.mem_cons_of_mem _ ha) (ne_of_gt (lt_of_le_of_lt hk (hs'.1 a ha)))]
    simp only [List.map_cons, Stl.mapPut]
    split_ifs with h1 h2
    · rw [h n List.mem_cons_self (ne_of_gt h1), hrest h1.le]
    · rw [h n List.mem_cons_self (ne_of_lt h2), ih hs'.2 fun a ha => h a (List.mem_cons_of_mem _ ha)]
    · rw [hrest (not_lt.1 h2)]

theorem put_self {β : Type} (k : κ) (r : β) (l : List (κ × β)) (h : Stl.mapFind k l = some r) : Stl.mapPut k r l = l := by
  induction l with
  | nil => cases h
  | cons n l ih =>
    obtain ⟨k', x'⟩ := n
    simp only [Stl.mapFind] at h
    simp only [Stl.mapPut]
    split_ifs at h ⊢ with h1 h2
    · rw [ih h]
    · simp only [Option.some.injEq] at h
      rw [h]

theorem MRel.write {s : MObj κ ν} {m : List (κ × ν)} (h : MRel s m) {k : κ} {r : Nat}
    (hr : Stl.mapFind k s.nodes = some r) (x : ν) :
    s.write r x = .ok { s with mem := fun i => if i = r then some x else s.mem i } ∧
    MRel { s with mem := fun i => if i = r then some x else s.mem i } (Cont.Map.set m k x) := by
  obtain ⟨y, -, hy⟩ := h.find_some hr
  have hmem := find_mem h hr
  have hin : r ∈ s.nodes.map fun n => n.2 := List.mem_map.2 ⟨_, hmem, rfl⟩
  refine ⟨by simp [MObj.write, hy], h.sorted, h.nodup, ?_, ?_, ?_⟩
  · show s.nodes.map (fun n => (n.1, if n.2 = r then some x else s.mem n.2)) = (Stl.mapPut k x m).map _
    rw [put_map some, ← h.vals]
    have h1 := put_map (fun i => if i = r then some x else s.mem i) k r s.nodes
    rw [put_self k r s.nodes hr] at h1
    rw [h1, if_pos rfl]
    refine put_congr (fun n => s.mem n.2) (fun n => if n.2 = r then some x else s.mem n.2) k _ _ h.sorted ?_
    intro n hn hne
    rw [if_neg]
    intro e
    apply hne
    have := List.inj_on_of_nodup_map h.nodup hn hmem e
    rw [this]
  · intro r' hr'
    dsimp only at hr'
    split at hr'
    · next e => subst e; exact h.lt hr
    · exact h.fresh r' hr'
  · intro r' hr'
    dsimp only at hr'
    split at hr'
    · next e => subst e; exact hin
    · exact h.live r' hr'

theorem mem_insert_snd {β : Type} (k : κ) (x : β) (l : List (κ × β)) (h : Stl.mapFind k l = none)
    (hs : l.Pairwise fun a b => a.1 < b.1) : (Stl.mapInsert k x l).Perm ((k, x) :: l) := by
  induction l with
  | nil => exact List.Perm.refl _
  | cons n l ih =>
    obtain ⟨k', x'⟩ := n
    simp only [Stl.mapFind] at h
    simp only [Stl.mapInsert]
    split_ifs at h ⊢ with h1 h2
    · exact List.Perm.refl _
    · exact ((ih h (List.pairwise_cons.1 hs).2).cons _).trans (List.Perm.swap _ _ _)

/-- A new element. -/
theorem MRel.index {s : MObj κ ν} {m : List (κ × ν)} (h : MRel s m) (dflt : ν) (k : κ) :
    MRel (index dflt s k).2 (Cont.Map.index dflt m k).2 ∧ Stl.mapFind k (index dflt s k).2.nodes = some (index dflt s k).1 ∧
    ∀ r q, RefOk s r q → RefOk (index dflt s k).2 r q := by
  unfold Map.index
  cases hf : Stl.mapFind k s.nodes with
  | some r =>
    obtain ⟨x, hx, -⟩ := h.find_some hf
    refine ⟨?_, hf, fun _ _ h => h⟩
    have : (Cont.Map.index dflt m k).2 = m := by
      show Stl.mapInsert k dflt m = m
      exact (mapInsert_eq m k dflt).2 (by rw [hx]; simp)
    rw [this]
    exact h
  | none =>
    dsimp only
    have hp := mem_insert_snd k s.next s.nodes hf h.sorted
    have hpm : ((Stl.mapInsert k s.next s.nodes).map fun n => n.2).Perm (s.next :: s.nodes.map fun n => n.2) := hp.map _
    have hnot : s.next ∉ s.nodes.map fun n => n.2 := by
      intro hm
      obtain ⟨n, hn, e⟩ := List.mem_map.1 hm
      obtain ⟨x, hx⟩ := h.mem_some hn
      have := h.fresh n.2 (by simp [hx])
      omega
    have hput : Stl.mapInsert k s.next s.nodes = Stl.mapPut k s.next s.nodes :=
      (mapInsert_eq s.nodes k s.next).1 hf
    refine ⟨⟨?_, ?_, ?_, ?_, ?_⟩, ?_, ?_⟩
    · show (Stl.mapInsert k s.next s.nodes).Pairwise _
      rw [hput]
      exact mapPut_sorted h.sorted k s.next
    · exact hpm.nodup_iff.2 (List.nodup_cons.2 ⟨hnot, h.nodup⟩)
    · show (Stl.mapInsert k s.next s.nodes).map (fun n => (n.1, if n.2 = s.next then some dflt else s.mem n.2)) =
        (Stl.mapInsert k dflt m).map fun p => (p.1, some p.2)
      rw [insert_map some, ← h.vals, insert_map (fun i => if i = s.next then some dflt else s.mem i), if_pos rfl]
      congr 1
      apply List.map_congr_left
      intro n hn
      rw [if_neg]
      intro e
      exact hnot (List.mem_map.2 ⟨n, hn, e⟩)
    · intro r hr
      show r < s.next + 1
      by_cases e : r = s.next
      · omega
      · have := h.fresh r (by simpa [e] using hr)
        omega
    · intro r hr
      show r ∈ (Stl.mapInsert k s.next s.nodes).map fun n => n.2
      rw [hpm.mem_iff, List.mem_cons]
      by_cases e : r = s.next
      · exact Or.inl e
      · exact Or.inr (h.live r (by simpa [e] using hr))
    · show Stl.mapFind k (Stl.mapInsert k s.next s.nodes) = _
      rw [hput, mapFind_put]
      simp
    · intro r q hr
      refine ⟨by show r < s.next + 1; have := hr.1; omega, ?_⟩
      cases q with
      | none =>
        show r ∉ (Stl.mapInsert k s.next s.nodes).map fun n => n.2
        rw [hpm.mem_iff, List.mem_cons]
        have := hr.1
        have h2 : r ∉ s.nodes.map fun n => n.2 := hr.2
        rintro (e | e)
        · omega
        · exact h2 e
      | some k' =>
        show Stl.mapFind k' (Stl.mapInsert k s.next s.nodes) = some r
        have h2 : Stl.mapFind k' s.nodes = some r := hr.2
        rw [hput, mapFind_put]
        split
        · next e => subst e; rw [hf] at h2; cases h2
        · exact h2

theorem MRel.erase {s : MObj κ ν} {m : List (κ × ν)} (h : MRel s m) (k : κ) :
    MRel (erase s k) (Cont.Map.erase m k) ∧
    ∀ r q, RefOk s r q → RefOk (erase s k) r (if q = some k then none else q) := by
  unfold Map.erase
  have hle : ∀ {l : List (κ × Nat)}, l.Pairwise (fun a b => a.1 < b.1) → l.Pairwise fun a b => a.1 ≤ b.1 :=
    fun h => h.imp fun h => h.le
  have he := mapErase_eq (hle h.sorted) k
  cases hf : Stl.mapFind k s.nodes with
  | none =>
    have hnone := (mapFind_none h.sorted k).1 hf
    have hsame : Stl.mapErase k s.nodes = s.nodes := by
      rw [he, List.filter_eq_self]
      intro p hp
      simpa using hnone p hp
    refine ⟨?_, ?_⟩
    · refine ⟨h.sorted, h.nodup, ?_, h.fresh, h.live⟩
      show _ = (Stl.mapErase k m).map _
      rw [erase_map some, ← h.vals, ← erase_map s.mem, hsame]
    · intro r q hr
      dsimp only
      by_cases e : q = some k
      · subst e
        have h2 : Stl.mapFind k s.nodes = some r := hr.2
        rw [hf] at h2
        cases h2
      · rw [if_neg e]
        exact hr
  | some r0 =>
    dsimp only
    have hin := find_mem h hf
    have hne : ∀ n ∈ Stl.mapErase k s.nodes, n.2 ≠ r0 := by
      intro n hn e
      rw [he, List.mem_filter] at hn
      have := List.inj_on_of_nodup_map h.nodup hn.1 hin e
      rw [this] at hn
      simp at hn
    have hsub := mapErase_sub (m := s.nodes) k
    refine ⟨⟨h.sorted.sublist hsub, h.nodup.sublist (hsub.map _), ?_, ?_, ?_⟩, ?_⟩
    · show (Stl.mapErase k s.nodes).map (fun n => (n.1, if n.2 = r0 then none else s.mem n.2)) = (Stl.mapErase k m).map _
      rw [erase_map some, ← h.vals, ← erase_map s.mem]
      apply List.map_congr_left
      intro n hn
      rw [if_neg (hne n hn)]
    · intro r hr
      by_cases e : r = r0
      · simp [e] at hr
      · exact h.fresh r (by simpa [e] using hr)
    · intro r hr
      by_cases e : r = r0
      · simp [e] at hr
      · obtain ⟨n, hn, rfl⟩ := List.mem_map.1 (h.live r (by simpa [e] using hr))
        refine List.mem_map.2 ⟨n, ?_, rfl⟩
        show n ∈ Stl.mapErase k s.nodes
        rw [he, List.mem_filter]
        refine ⟨hn, ?_⟩
        simp only [ne_eq, decide_not, Bool.not_eq_true', decide_eq_false_iff_not]
        intro hk
        apply e
        have h1 := (mapFind_iff h.sorted n.1 n.2).2 hn
        rw [hk, hf] at h1
        exact (Option.some.inj h1).symm
    · intro r q hr
      refine ⟨hr.1, ?_⟩
      cases q with
      | none =>
        rw [if_neg (by simp)]
        intro hc
        exact hr.2 ((hsub.map _).subset hc)
      | some k' =>
        have h2 : Stl.mapFind k' s.nodes = some r := hr.2
        by_cases e : k' = k
        · subst e
          rw [if_pos rfl]
          rw [hf] at h2
          cases h2
          intro hc
          obtain ⟨n, hn, e⟩ := List.mem_map.1 hc
          exact hne n hn e
        · rw [if_neg (by simpa using e)]
          show Stl.mapFind k' (Stl.mapErase k s.nodes) = some r
          rw [mapFind_erase h.sorted, if_neg (Ne.symm e)]
          exact h2

theorem forall2_get {s : MObj κ ν} {rs : List Nat} {ps : List (Option κ)} (h : List.Forall₂ (RefOk s) rs ps) (k : Nat) :
    (rs[k]? = none ∧ ps[k]? = none) ∨ ∃ r q, rs[k]? = some r ∧ ps[k]? = some q ∧ RefOk s r q := by
  induction h generalizing k with
  | nil => exact Or.inl ⟨rfl, rfl⟩
  | cons h _ ih =>
    cases k with
    | zero => exact Or.inr ⟨_, _, rfl, rfl, h⟩
    | succ k => exact ih k

theorem forall2_map {s s' : MObj κ ν} {mv : Option κ → Option κ} (hm : ∀ r q, RefOk s r q → RefOk s' r (mv q))
    {rs : List Nat} {ps : List (Option κ)} (h : List.Forall₂ (RefOk s) rs ps) : List.Forall₂ (RefOk s') rs (ps.map mv) := by
  induction h with
  | nil => exact .nil
  | cons h _ ih => exact .cons (hm _ _ h) ih

theorem forall2_imp {s s' : MObj κ ν} (hm : ∀ r q, RefOk s r q → RefOk s' r q) {rs : List Nat}
    {ps : List (Option κ)} (h : List.Forall₂ (RefOk s) rs ps) : List.Forall₂ (RefOk s') rs ps := by
  induction h with
  | nil => exact .nil
  | cons h _ ih => exact .cons (hm _ _ h) ih

theorem forall2_snoc {s : MObj κ ν} {rs : List Nat} {ps : List (Option κ)} (h : List.Forall₂ (RefOk s) rs ps) {r q}
    (hr : RefOk s r q) : List.Forall₂ (RefOk s) (rs ++ [r]) (ps ++ [q]) := by
  induction h with
  | nil => exact .cons hr .nil
  | cons h _ ih => exact .cons h ih

theorem set_index (dflt : ν) (m : List (κ × ν)) (k : κ) (v : ν) :
    Cont.Map.set (Cont.Map.index dflt m k).2 k v = Cont.Map.set m k v := by
  show Stl.mapPut k v (Stl.mapInsert k dflt m) = Stl.mapPut k v m
  induction m with
  | nil => simp [Stl.mapInsert, Stl.mapPut]
  | cons n m ih =>
    obtain ⟨k', x'⟩ := n
    rw [Stl.mapInsert, Stl.mapPut]
    split_ifs with h1 h2
    · simp [Stl.mapPut]
    · rw [Stl.mapPut, if_neg h1, if_pos h2, ih]
    · rw [Stl.mapPut, if_neg h1, if_neg h2]

theorem map_run (dflt : ν) (prog : List (MStmt κ ν)) : ∀ (s : MObj κ ν) (m : List (κ × ν)) (rs : List Nat)
    (ks : List (Option κ)), MRel s m → List.Forall₂ (RefOk s) rs ks → run dflt s rs prog = Spec.mapRun dflt m ks prog := by
  induction prog with
  | nil =>
    intro s m rs ks h _
    simp [run, Spec.mapRun, h.contents]
  | cons t p ih =>
    intro s m rs ks h hF
    have hread : ∀ k r, Stl.mapFind k s.nodes = some r → s.read r = Cont.Map.get m k := by
      intro k r hr
      obtain ⟨x, hx, hm⟩ := h.find_some hr
      simp [MObj.read, hm, Cont.Map.get, Cont.Map.keyCheck, hx]
    cases t with
    | set k v =>
      obtain ⟨h1, h2, h3⟩ := h.index dflt k
      obtain ⟨h4, h5⟩ := h1.write h2 v
      rw [set_index] at h5
      simp only [run, Spec.mapRun, set, h4, Out.ok_bind]
      exact ih _ _ _ _ h5 (forall2_imp (fun _ _ h => h) (forall2_imp h3 hF))
    | erase k =>
      obtain ⟨h1, h2⟩ := h.erase k
      simp only [run, Spec.mapRun]
      exact ih _ _ _ _ h1 (forall2_map h2 hF)
    | clear =>
      simp only [run, Spec.mapRun]
      refine ih _ _ _ _ ⟨List.Pairwise.nil, List.nodup_nil, rfl, fun _ h => absurd rfl h, fun _ h => absurd rfl h⟩
        (forall2_map (s := s) (s' := Map.clear s) (mv := fun _ => none) (fun r q hr => ⟨hr.1, List.not_mem_nil⟩) hF)
    | get k =>
      simp only [run, Spec.mapRun, Map.get]
      cases hf : Stl.mapFind k s.nodes with
      | none => simp [Cont.Map.get, Cont.Map.keyCheck, h.find_none.1 hf]
      | some r =>
        simp only [Out.ok_bind, hread k r hf]
        rw [ih _ _ _ _ h hF]
    | bindIndex k =>
      obtain ⟨h1, h2, h3⟩ := h.index dflt k
      simp only [run, Spec.mapRun]
      exact ih _ _ _ _ h1 (forall2_snoc (forall2_imp h3 hF) ⟨h1.lt h2, h2⟩)
    | bindGet k =>
      simp only [run, Spec.mapRun, Map.get, Cont.Map.contains]
      cases hf : Stl.mapFind k s.nodes with
      | none => simp [h.find_none.1 hf]
      | some r =>
        obtain ⟨x, hx, -⟩ := h.find_some hf
        simp only [hx, Option.isSome_some, if_true, Out.ok_bind]
        exact ih _ _ _ _ h (forall2_snoc hF ⟨h.lt hf, hf⟩)
    | read i =>
      simp only [run, Spec.mapRun]
      rcases forall2_get hF i with ⟨h1, h2⟩ | ⟨r, q, h1, h2, h3⟩
      · rw [h1, h2]
        exact ih _ _ _ _ h hF
      · rw [h1, h2]
        cases q with
        | none => simp [MObj.read, h.dead.2 h3.2]
        | some k =>
          simp only [hread k r h3.2]
          rw [ih _ _ _ _ h hF]
    | write i x =>
      simp only [run, Spec.mapRun]
      rcases forall2_get hF i with ⟨h1, h2⟩ | ⟨r, q, h1, h2, h3⟩
      · rw [h1, h2]
        exact ih _ _ _ _ h hF
      · rw [h1, h2]
        cases q with
        | none => simp [MObj.write, h.dead.2 h3.2]
        | some k =>
          obtain ⟨h4, h5⟩ := h.write h3.2 x
          simp only [h4, Out.ok_bind]
          exact ih _ _ _ _ h5 (forall2_imp (fun _ _ h => h) hF)

end Cont.Ref.Map
