import Verif.Spec.MapLoop
import Verif.Proof.ContRefMap
import Verif.Proof.ContLoop

/-! # Helper lemmas for loops over Map and Set -/

open Cpp

namespace Cont.MapLoop
open Cont.Ref (Agree)
open Cont.Ref.Map
open Cont.Loop (agree_bind)

variable {κ ν σ : Type} [LinearOrder κ]

theorem read_eq {s : MObj κ ν} {m : List (κ × ν)} (h : MRel s m) {k : κ} {r : Nat} (hr : Stl.mapFind k s.nodes = some r) :
    ∃ x, s.read r = .ok x ∧ Cont.Map.get m k = .ok x ∧ Stl.mapFind k m = some x := by
  obtain ⟨x, hx, hm⟩ := h.find_some hr
  exact ⟨x, by simp [MObj.read, hm], by simp [Cont.Map.get, Cont.Map.keyCheck, hx], hx⟩

theorem rel_clear (s : MObj κ ν) : MRel (Ref.Map.clear s) ([] : List (κ × ν)) :=
  ⟨List.Pairwise.nil, List.nodup_nil, rfl, fun _ h => absurd rfl h, fun _ h => absurd rfl h⟩

theorem rel_length {s : MObj κ ν} {m : List (κ × ν)} (h : MRel s m) : s.nodes.length = m.length := by
  have := congrArg List.length h.vals
  simpa using this

/-- `Names s s'`: what becomes of nodes; none is born again, none changes its key. -/
def Names (s s' : MObj κ ν) : Prop := ∀ r q, RefOk s r q → RefOk s' r q ∨ RefOk s' r none

theorem Names.refl (s : MObj κ ν) : Names s s := fun _ _ h => Or.inl h

theorem Names.trans {s t u : MObj κ ν} (h1 : Names s t) (h2 : Names t u) : Names s u := by
  intro r q h
  rcases h1 r q h with h | h
  · exact h2 r q h
  · rcases h2 r none h with h | h <;> exact Or.inr h

/-- What holds after the body. -/
def Post (s : MObj κ ν) (k : κ) (r : Nat) (x : σ × List (κ × ν) × Option κ × Bool) (y : σ × MObj κ ν × Bool) : Prop :=
  x.1 = y.1 ∧ MRel y.2.1 x.2.1 ∧ RefOk y.2.1 r x.2.2.1 ∧ (x.2.2.1 = some k ∨ x.2.2.1 = none) ∧ x.2.2.2 = y.2.2 ∧ Names s y.2.1

theorem exec_agree (dflt : ν) (b : Body κ ν σ) : ∀ (s : MObj κ ν) (m : List (κ × ν)) (k : κ) (r : Nat) (q : Option κ),
    MRel s m → RefOk s r q → (q = some k ∨ q = none) → Agree (Post s k r) (Spec.exec dflt m q b) (exec dflt s (k, r) b) := by
  have weak : ∀ {s t : MObj κ ν} {r : Nat} {k : κ} {A : Out (σ × List (κ × ν) × Option κ × Bool)} {B : Out (σ × MObj κ ν × Bool)},
      Names s t → Agree (Post t k r) A B → Agree (Post s k r) A B := by
    intro s t r k A B hn h
    cases A <;> cases B <;>
      first
      | exact h.elim
      | trivial
      | exact ⟨h.1, h.2.1, h.2.2.1, h.2.2.2.1, h.2.2.2.2.1, hn.trans h.2.2.2.2.2⟩
  induction b with
  | done st => intro s m k r q h hr hq; exact ⟨rfl, h, hr, hq, rfl, Names.refl s⟩
  | stop st => intro s m k r q h hr hq; exact ⟨rfl, h, hr, hq, rfl, Names.refl s⟩
  | set k' v b ih =>
    intro s m k r q h hr hq
    obtain ⟨h1, h2, h3⟩ := h.index dflt k'
    obtain ⟨h4, h5⟩ := h1.write h2 v
    rw [set_index] at h5
    simp only [exec, Spec.exec, Ref.Map.set, h4, Out.ok_bind]
    exact weak (fun r q h => Or.inl (h3 r q h)) (ih _ _ k r q h5 (h3 r q hr) hq)
  | erase k' b ih =>
    intro s m k r q h hr hq
    obtain ⟨h1, h2⟩ := h.erase k'
    simp only [exec, Spec.exec]
    refine weak (fun r q h => ?_) (ih _ _ k r _ h1 (h2 r q hr) ?_)
    · have := h2 r q h
      split at this
      · exact Or.inr this
      · exact Or.inl this
    · split
      · exact Or.inr rfl
      · exact hq
  | clear b ih =>
    intro s m k r q h hr hq
    simp only [exec, Spec.exec]
    have hn : ∀ r q, RefOk s r q → RefOk (Ref.Map.clear s) r none := fun r q hr => ⟨hr.1, List.not_mem_nil⟩
    exact weak (fun r q h => Or.inr (hn r q h)) (ih _ _ k r none (rel_clear s) (hn r q hr) (Or.inr rfl))
  | index k' b ih =>
    intro s m k r q h hr hq
    obtain ⟨h1, h2, h3⟩ := h.index dflt k'
    obtain ⟨x, hx, -, hf⟩ := read_eq h1 h2
    have e : (Cont.Map.index dflt m k').1 = x := by
      have : Stl.mapFind k' (Stl.mapInsert k' dflt m) = some x := hf
      show (Stl.mapFind k' m).getD dflt = x
      cases hm : Stl.mapFind k' m with
      | none =>
        rw [(mapInsert_eq m k' dflt).1 hm, mapFind_put] at this
        simpa using this
      | some y =>
        rw [(mapInsert_eq m k' dflt).2 (by rw [hm]; simp), hm] at this
        simpa using this
    simp only [exec, Spec.exec, hx, Out.ok_bind, e]
    exact weak (fun r q h => Or.inl (h3 r q h)) (ih x _ _ k r q h1 (h3 r q hr) hq)
  | get k' b ih =>
    intro s m k r q h hr hq
    simp only [exec, Spec.exec, Ref.Map.get]
    cases hf : Stl.mapFind k' s.nodes with
    | none => simp [Cont.Map.get, Cont.Map.keyCheck, h.find_none.1 hf, Agree]
    | some r' =>
      obtain ⟨x, hx, hg, -⟩ := read_eq h hf
      simp only [Out.ok_bind, hx, hg]
      exact ih x _ _ k r q h hr hq
  | contains k' b ih =>
    intro s m k r q h hr hq
    have e : (Stl.mapFind k' s.nodes).isSome = Cont.Map.contains m k' := by
      have := congrArg Option.isSome (h.find k')
      simpa [Cont.Map.contains] using this
    simp only [exec, Spec.exec, e]
    exact ih _ _ _ k r q h hr hq
  | size b ih =>
    intro s m k r q h hr hq
    simp only [exec, Spec.exec, rel_length h]
    exact ih _ _ _ k r q h hr hq
  | key b ih =>
    intro s m k r q h hr hq
    rcases hq with rfl | rfl
    · obtain ⟨x, -, hm⟩ := h.find_some hr.2
      simp only [exec, Spec.exec, hm]
      exact ih _ _ _ k r _ h hr (Or.inl rfl)
    · simp [exec, Spec.exec, h.dead.2 hr.2, Agree]
  | read b ih =>
    intro s m k r q h hr hq
    rcases hq with rfl | rfl
    · obtain ⟨x, hx, hg, -⟩ := read_eq h hr.2
      simp only [exec, Spec.exec, hx, hg, Out.ok_bind]
      exact ih _ _ _ k r _ h hr (Or.inl rfl)
    · simp [exec, Spec.exec, MObj.read, h.dead.2 hr.2, Agree]
  | write v b ih =>
    intro s m k r q h hr hq
    rcases hq with rfl | rfl
    · obtain ⟨h4, h5⟩ := h.write hr.2 v
      simp only [exec, Spec.exec, h4, Out.ok_bind]
      exact weak (fun r q h => Or.inl h) (ih _ _ k r _ h5 hr (Or.inl rfl))
    · simp [exec, Spec.exec, MObj.write, h.dead.2 hr.2, Agree]

omit [LinearOrder κ] in
theorem next_none {r : Nat} : ∀ {l : List (κ × Nat)}, (r ∉ l.map fun n => n.2) → next r l = .ub
  | [], _ => rfl
  | n :: l, h => by
    simp only [List.map_cons, List.mem_cons, not_or] at h
    rw [next, if_neg (Ne.symm h.1)]
    exact next_none h.2

/-- the next node is the one with the least greater key -/
theorem next_some {k : κ} {r : Nat} : ∀ {l : List (κ × Nat)}, l.Pairwise (fun a b => a.1 < b.1) → (l.map fun n => n.2).Nodup →
    (k, r) ∈ l → next r l = .ok (l.find? fun n => decide (k < n.1))
  | [], _, _, h => by cases h
  | n :: l, hs, hn, h => by
    have hs' := List.pairwise_cons.1 hs
    simp only [List.map_cons, List.nodup_cons] at hn
    by_cases e : n.2 = r
    · have : (k, r) = n := by
        rcases List.mem_cons.1 h with h | h
        · exact h
        · exact absurd (List.mem_map.2 ⟨_, h, e.symm⟩) hn.1
      subst this
      rw [next, if_pos rfl, List.find?_cons_of_neg (by simp)]
      cases l with
      | nil => rfl
      | cons a l => rw [List.find?_cons_of_pos (by simpa using hs'.1 a (by simp))]; rfl
    · have hm : (k, r) ∈ l := by
        rcases List.mem_cons.1 h with h | h
        · exact absurd (by rw [← h]) e
        · exact h
      rw [next, if_neg e, next_some hs'.2 hn.2 hm, List.find?_cons_of_neg]
      simpa using (hs'.1 _ hm).le

theorem above_eq {s : MObj κ ν} {m : List (κ × ν)} (h : MRel s m) (k : κ) :
    (s.nodes.find? fun n => decide (k < n.1)).map (fun n => n.1) = Spec.above k m := by
  have e := h.vals
  have h1 : ∀ {β : Type} (l : List (κ × β)), (l.find? fun n => decide (k < n.1)).map (fun n => n.1) =
      (l.map fun n => n.1).find? fun x => decide (k < x) := by
    intro β l
    rw [List.find?_map]
    rfl
  rw [Spec.above, h1, h1]
  have h2 : s.nodes.map (fun n => n.1) = m.map fun p => p.1 := by
    have := congrArg (List.map fun p : κ × Option ν => p.1) e
    rwa [List.map_map, List.map_map] at this
  rw [h2]

theorem rounds_agree (dflt : ν) (body : σ → Body κ ν σ) (n : Nat) : ∀ (st : σ) (s : MObj κ ν) (m : List (κ × ν)) (x : Option (κ × Nat)),
    MRel s m → (∀ y, x = some y → y ∈ s.nodes) →
    Agree (fun (a : σ × List (κ × ν) × List κ) (b : σ × MObj κ ν × List (κ × Nat)) => a.1 = b.1 ∧ MRel b.2.1 a.2.1 ∧
      a.2.2 = b.2.2.map (fun y => y.1) ∧ Names s b.2.1)
      (Spec.loop dflt body n st m (x.map fun y => y.1)) (rounds dflt body n st s x) := by
  induction n with
  | zero => intro st s m x _ _; trivial
  | succ n ih =>
    intro st s m x h hx
    cases x with
    | none => exact ⟨rfl, h, rfl, Names.refl s⟩
    | some y =>
      obtain ⟨k, r⟩ := y
      have hf : Stl.mapFind k s.nodes = some r := (mapFind_iff h.sorted k r).2 (hx _ rfl)
      simp only [Option.map_some, Spec.loop, rounds]
      refine agree_bind (exec_agree dflt (body st) s m k r (some k) h ⟨h.lt hf, hf⟩ (Or.inl rfl)) ?_
      rintro ⟨st', m', q, stop⟩ ⟨st'', s', stop'⟩ - - ⟨e1, h1, h2, h3, e2, h4⟩
      dsimp only at e1 h1 h2 h3 e2 h4
      subst e1 e2
      cases stop with
      | true => exact ⟨rfl, h1, rfl, h4⟩
      | false =>
        rcases h3 with rfl | rfl
        · have hm : (k, r) ∈ s'.nodes := find_mem h1 h2.2
          rw [next_some h1.sorted h1.nodup hm]
          simp only [Out.ok_bind, Bool.false_eq_true, if_false]
          have hi := ih st' s' m' (s'.nodes.find? fun n => decide (k < n.1)) h1 fun y hy => List.mem_of_find?_eq_some hy
          rw [above_eq h1] at hi
          refine agree_bind hi ?_
          rintro ⟨a1, a2, a3⟩ ⟨b1, b2, b3⟩ - - ⟨e1, h5, e2, h6⟩
          dsimp only at e1 h5 e2 h6
          subst e1 e2
          exact ⟨rfl, h5, rfl, h4.trans h6⟩
        · simp [next_none h2.2, Agree]

theorem rel_ofMap {m : List (κ × ν)} (hs : m.Pairwise fun a b => a.1 < b.1) : MRel (ofMap m) m := by
  have e1 : (ofMap m).nodes.map (fun n => n.1) = m.map fun p => p.1 := by
    show (m.zipIdx.map fun p => (p.1.1, p.2)).map _ = _
    rw [List.map_map]
    have : ((fun n : κ × Nat => n.1) ∘ fun p : (κ × ν) × Nat => (p.1.1, p.2)) = (fun p : κ × ν => p.1) ∘ Prod.fst := rfl
    rw [this, ← List.map_map, List.zipIdx_map_fst]
  have e2 : (ofMap m).nodes.map (fun n => n.2) = List.range m.length := by
    show (m.zipIdx.map fun p => (p.1.1, p.2)).map _ = _
    rw [List.map_map]
    have : ((fun n : κ × Nat => n.2) ∘ fun p : (κ × ν) × Nat => (p.1.1, p.2)) = Prod.snd := rfl
    rw [this, List.zipIdx_map_snd, List.range_eq_range']
  refine ⟨?_, ?_, ?_, ?_, ?_⟩
  · have : ((ofMap m).nodes.map fun n => n.1).Pairwise (· < ·) := by rw [e1]; exact List.pairwise_map.2 hs
    exact List.pairwise_map.1 this
  · rw [e2]; exact List.nodup_range
  · apply List.ext_getElem?
    intro i
    show ((m.zipIdx.map fun p => (p.1.1, p.2)).map fun n => (n.1, m[n.2]?.map fun p => p.2))[i]? = _
    by_cases hi : i < m.length
    · simp [hi]
    · simp [hi]
  · intro r hr
    show r < m.length
    by_contra hc
    exact hr (by show m[r]?.map _ = none; rw [List.getElem?_eq_none (Nat.not_lt.1 hc)]; rfl)
  · intro r hr
    rw [e2, List.mem_range]
    by_contra hc
    exact hr (by show m[r]?.map _ = none; rw [List.getElem?_eq_none (Nat.not_lt.1 hc)]; rfl)

omit [LinearOrder κ] in
theorem head_ofMap (m : List (κ × ν)) : (ofMap m).nodes.head?.map (fun y => y.1) = m.head?.map fun p => p.1 := by
  cases m <;> rfl

theorem forMap_agree (dflt : ν) (body : σ → Body κ ν σ) (n : Nat) (st : σ) {m : List (κ × ν)} (hs : m.Pairwise fun a b => a.1 < b.1) :
    Agree (fun (a : σ × List (κ × ν) × List κ) (b : σ × MObj κ ν × List (κ × Nat)) => a.1 = b.1 ∧ MRel b.2.1 a.2.1 ∧
      a.2.2 = b.2.2.map (fun y => y.1) ∧ Names (ofMap m) b.2.1)
      (Spec.loop dflt body n st m (m.head?.map fun p => p.1)) (forMap dflt body n st (ofMap m)) := by
  have := rounds_agree dflt body n st (ofMap m) m (ofMap m).nodes.head? (rel_ofMap hs) fun y hy => List.mem_of_mem_head? hy
  rwa [head_ofMap] at this

/-! ## order -/

theorem above_lt {k k' : κ} {m : List (κ × ν)} (h : Spec.above k m = some k') : k < k' := by
  obtain ⟨p, hp, rfl⟩ := Option.map_eq_some_iff.1 h
  simpa using List.find?_some hp

theorem loop_order (dflt : ν) (body : σ → Body κ ν σ) (n : Nat) : ∀ (st : σ) (m : List (κ × ν)) (x : Option κ) (st' : σ)
    (m' : List (κ × ν)) (vis : List κ), Spec.loop dflt body n st m x = .ok (st', m', vis) →
    vis.Pairwise (· < ·) ∧ ∀ k, x = some k → ∀ j ∈ vis, k ≤ j := by
  induction n with
  | zero => intro st m x st' m' vis h; cases h
  | succ n ih =>
    intro st m x st' m' vis h
    cases x with
    | none => cases h; exact ⟨List.Pairwise.nil, fun _ h => by cases h⟩
    | some k =>
      obtain ⟨⟨st1, m1, q, stop⟩, -, h2⟩ := Out.bind_eq_ok.1 h
      cases stop with
      | true =>
        cases h2
        exact ⟨by simp, fun k' e j hj => by cases e; simp at hj; exact hj.ge⟩
      | false =>
        cases q with
        | none => cases h2
        | some q =>
          obtain ⟨⟨st2, m2, vis'⟩, h3, h4⟩ := Out.bind_eq_ok.1 h2
          cases h4
          obtain ⟨i1, i2⟩ := ih _ _ _ _ _ _ h3
          have hlt : ∀ j ∈ vis', k < j := by
            intro j hj
            cases ha : Spec.above k m1 with
            | none =>
              rw [ha] at h3
              cases n with
              | zero => cases h3
              | succ n => cases h3; cases hj
            | some k' => exact lt_of_lt_of_le (above_lt ha) (i2 k' ha j hj)
          refine ⟨List.pairwise_cons.2 ⟨hlt, i1⟩, fun k' e j hj => ?_⟩
          cases e
          rcases List.mem_cons.1 hj with rfl | hj
          · exact le_refl _
          · exact (hlt j hj).le

/-! ## which nodes are visited -/

theorem exec_noStop (dflt : ν) (b : Body κ ν σ) : ∀ (s : MObj κ ν) (x : κ × Nat) (st : σ) (s' : MObj κ ν) (stop : Bool),
    Spec.NoStop b → exec dflt s x b = .ok (st, s', stop) → stop = false := by
  induction b with
  | done st => intro s x st s' stop _ h; cases h; rfl
  | stop st => intro s x st s' stop hb; exact hb.elim
  | set k v b ih =>
    intro s x st s' stop hb h
    obtain ⟨t, -, h⟩ := Out.bind_eq_ok.1 h
    exact ih _ _ _ _ _ hb h
  | erase k b ih => intro s x st s' stop hb h; exact ih _ _ _ _ _ hb h
  | clear b ih => intro s x st s' stop hb h; exact ih _ _ _ _ _ hb h
  | index k b ih =>
    intro s x st s' stop hb h
    obtain ⟨t, -, h⟩ := Out.bind_eq_ok.1 h
    exact ih _ _ _ _ _ _ (hb _) h
  | get k b ih =>
    intro s x st s' stop hb h
    obtain ⟨r, -, h⟩ := Out.bind_eq_ok.1 h
    obtain ⟨t, -, h⟩ := Out.bind_eq_ok.1 h
    exact ih _ _ _ _ _ _ (hb _) h
  | contains k b ih => intro s x st s' stop hb h; exact ih _ _ _ _ _ _ (hb _) h
  | size b ih => intro s x st s' stop hb h; exact ih _ _ _ _ _ _ (hb _) h
  | key b ih =>
    intro s x st s' stop hb h
    simp only [exec] at h
    split at h
    · cases h
    · exact ih _ _ _ _ _ _ (hb _) h
  | read b ih =>
    intro s x st s' stop hb h
    obtain ⟨t, -, h⟩ := Out.bind_eq_ok.1 h
    exact ih _ _ _ _ _ _ (hb _) h
  | write v b ih =>
    intro s x st s' stop hb h
    obtain ⟨t, -, h⟩ := Out.bind_eq_ok.1 h
    exact ih _ _ _ _ _ hb h

theorem agree_ok {β γ : Type} {P : β → γ → Prop} {o : Out β} {c : γ} (h : Agree P o (.ok c)) : ∃ b, o = .ok b ∧ P b c := by
  cases o <;> first | exact h.elim | exact ⟨_, rfl, h⟩

theorem rounds_all (dflt : ν) (body : σ → Body κ ν σ) (hb : ∀ st, Spec.NoStop (body st)) (n : Nat) : ∀ (st : σ) (s : MObj κ ν)
    (m : List (κ × ν)) (x : Option (κ × Nat)) (st' : σ) (s' : MObj κ ν) (vis : List (κ × Nat)),
    MRel s m → (∀ y, x = some y → y ∈ s.nodes) → rounds dflt body n st s x = .ok (st', s', vis) →
    ∀ y ∈ s.nodes, (∃ z, x = some z ∧ z.1 ≤ y.1) → y ∈ s'.nodes → y ∈ vis := by
  induction n with
  | zero => intro st s m x st' s' vis _ _ h; cases h
  | succ n ih =>
    rintro st s m x st' s' vis hR hx h y hy ⟨z, rfl, hz⟩ hy'
    obtain ⟨k, r⟩ := z
    have hm := hx _ rfl
    have hf : Stl.mapFind k s.nodes = some r := (mapFind_iff hR.sorted k r).2 hm
    obtain ⟨⟨st1, s1, stop⟩, h1, h2⟩ := Out.bind_eq_ok.1 h
    have hst := exec_noStop dflt (body st) s (k, r) st1 s1 stop (hb st) h1
    subst hst
    have ha := exec_agree dflt (body st) s m k r (some k) hR ⟨hR.lt hf, hf⟩ (Or.inl rfl)
    rw [h1] at ha
    obtain ⟨⟨a1, m1, q, a4⟩, -, -, hR1, hr1, hq, -, hN⟩ := agree_ok ha
    dsimp only at hR1 hr1 hq hN
    simp only [Bool.false_eq_true, if_false] at h2
    obtain ⟨it, h3, h4⟩ := Out.bind_eq_ok.1 h2
    obtain ⟨⟨st2, s2, vis'⟩, h5, h6⟩ := Out.bind_eq_ok.1 h4
    cases h6
    rcases hq with rfl | rfl
    swap
    · rw [next_none hr1.2] at h3
      cases h3
    rw [next_some hR1.sorted hR1.nodup (find_mem hR1 hr1.2)] at h3
    cases h3
    have hit : ∀ y, (s1.nodes.find? fun n => decide (k < n.1)) = some y → y ∈ s1.nodes := fun y hy => List.mem_of_find?_eq_some hy
    rcases hz.eq_or_lt with e | hlt
    · have h7 := (mapFind_iff hR.sorted y.1 y.2).2 hy
      have e : k = y.1 := e
      rw [← e, hf] at h7
      have : y = (k, r) := by
        obtain ⟨y1, y2⟩ := y
        simp only [Option.some.injEq] at h7
        simp only at e
        rw [e, h7]
      rw [this]
      exact List.mem_cons_self
    · have h7 := (mapFind_iff hR.sorted y.1 y.2).2 hy
      have hy1 : y ∈ s1.nodes := by
        rcases hN y.2 (some y.1) ⟨hR.lt h7, h7⟩ with h8 | h8
        · exact find_mem hR1 h8.2
        · exfalso
          have hb := rounds_agree dflt body n st1 s1 m1 _ hR1 hit
          rw [h5] at hb
          obtain ⟨b, -, -, -, -, hN2⟩ := agree_ok hb
          have h9 : RefOk s2 y.2 none := by
            rcases hN2 y.2 none h8 with h | h <;> exact h
          exact h9.2 (List.mem_map.2 ⟨y, hy', rfl⟩)
      refine List.mem_cons_of_mem _ (ih st1 s1 m1 _ st2 s2 vis' hR1 hit h5 y hy1 ?_ hy')
      have hlt : k < y.1 := hlt
      cases hfd : s1.nodes.find? fun n => decide (k < n.1) with
      | none =>
        have := List.find?_eq_none.1 hfd y hy1
        simp [hlt] at this
      | some z =>
        refine ⟨z, rfl, ?_⟩
        obtain ⟨hz1, as, bs, e, hno⟩ := List.find?_eq_some_iff_append.1 hfd
        have hs := hR1.sorted
        rw [e] at hs hy1
        rcases List.mem_append.1 hy1 with hy2 | hy2
        · have := hno y hy2
          simp [hlt] at this
        · rcases List.mem_cons.1 hy2 with rfl | hy2
          · exact le_refl _
          · exact ((List.pairwise_cons.1 (List.pairwise_append.1 hs).2.1).1 y hy2).le

/-! ## ends -/

theorem exec_ne_diverge (dflt : ν) (b : Body κ ν σ) : ∀ (m : List (κ × ν)) (q : Option κ), Spec.exec dflt m q b ≠ .diverge := by
  have hget : ∀ (m : List (κ × ν)) (k : κ), Cont.Map.get m k = .exit ∨ ∃ x, Cont.Map.get m k = .ok x := by
    intro m k
    cases hf : Stl.mapFind k m with
    | none => left; simp [Cont.Map.get, Cont.Map.keyCheck, hf]
    | some x => right; exact ⟨x, by simp [Cont.Map.get, Cont.Map.keyCheck, hf]⟩
  induction b with
  | done st => intro m q h; cases h
  | stop st => intro m q h; cases h
  | set k v b ih => intro m q; exact ih _ _
  | erase k b ih => intro m q; exact ih _ _
  | clear b ih => intro m q; exact ih _ _
  | index k b ih => intro m q; exact ih _ _ _
  | get k b ih =>
    intro m q
    simp only [Spec.exec]
    rcases hget m k with h | ⟨x, h⟩ <;> rw [h]
    · intro h; cases h
    · exact ih _ _ _
  | contains k b ih => intro m q; exact ih _ _ _
  | size b ih => intro m q; exact ih _ _ _
  | key b ih =>
    intro m q
    cases q with
    | none => intro h; cases h
    | some k => exact ih _ _ _
  | read b ih =>
    intro m q
    cases q with
    | none => intro h; cases h
    | some k =>
      simp only [Spec.exec]
      rcases hget m k with h | ⟨x, h⟩ <;> rw [h]
      · intro h; cases h
      · exact ih _ _ _
  | write v b ih =>
    intro m q
    cases q with
    | none => intro h; cases h
    | some k => exact ih _ _

theorem loop_ends (dflt : ν) (body : σ → Body κ ν σ) (rank : κ → Nat) (B : Nat) (hr : ∀ j k, j < k → rank j < rank k)
    (hB : ∀ k, rank k < B) (n : Nat) : ∀ (st : σ) (m : List (κ × ν)) (x : Option κ), (∀ k, x = some k → B < n + rank k) → 0 < n →
    Spec.loop dflt body n st m x ≠ .diverge := by
  induction n with
  | zero => intro st m x _ h; omega
  | succ n ih =>
    intro st m x hx _
    cases x with
    | none => intro h; cases h
    | some k =>
      have hk := hx k rfl
      have hb := hB k
      simp only [Spec.loop]
      cases he : Spec.exec dflt m (some k) (body st) with
      | diverge => exact absurd he (exec_ne_diverge dflt _ _ _)
      | exit => intro h; cases h
      | ub => intro h; cases h
      | ok a =>
        obtain ⟨st1, m1, q, stop⟩ := a
        cases stop with
        | true => intro h; cases h
        | false =>
          cases q with
          | none => intro h; cases h
          | some q =>
            have := ih st1 m1 (Spec.above k m1) (fun k' hk' => by have := hr _ _ (above_lt hk'); omega) (by omega)
            simp only [Out.ok_bind, Bool.false_eq_true, if_false]
            cases hl : Spec.loop dflt body n st1 m1 (Spec.above k m1) with
            | diverge => exact absurd hl this
            | exit => intro h; cases h
            | ub => intro h; cases h
            | ok a => intro h; cases h

/-! ## loops that only read the pair and assign its value -/

theorem find_mid (pre post : List (κ × ν)) (k : κ) (x : ν) (hs : (pre ++ (k, x) :: post).Pairwise fun a b => a.1 < b.1) :
    Stl.mapFind k (pre ++ (k, x) :: post) = some x := (mapFind_iff hs k x).2 (by simp)

theorem put_mid (pre post : List (κ × ν)) (k : κ) (x y : ν) (hs : (pre ++ (k, x) :: post).Pairwise fun a b => a.1 < b.1) :
    Stl.mapPut k y (pre ++ (k, x) :: post) = pre ++ (k, y) :: post := by
  induction pre with
  | nil => simp [Stl.mapPut]
  | cons p pre ih =>
    obtain ⟨h1, h2⟩ := List.pairwise_cons.1 hs
    have h3 : p.1 < k := h1 (k, x) (by simp)
    simp only [List.cons_append, Stl.mapPut]
    rw [if_neg h3.not_gt, if_pos h3, ih h2]

theorem above_mid (pre post : List (κ × ν)) (k : κ) (x : ν) (hs : (pre ++ (k, x) :: post).Pairwise fun a b => a.1 < b.1) :
    Spec.above k (pre ++ (k, x) :: post) = post.head?.map fun p => p.1 := by
  have h1 : pre.find? (fun p => decide (k < p.1)) = none := by
    rw [List.find?_eq_none]
    intro p hp
    have := (List.pairwise_append.1 hs).2.2 p hp (k, x) (by simp)
    simpa using this.le
  rw [Spec.above, List.find?_append, h1, Option.none_or, List.find?_cons_of_neg (by simp)]
  cases post with
  | nil => rfl
  | cons q post =>
    have := (List.pairwise_cons.1 (List.pairwise_append.1 hs).2.1).1 q (by simp)
    rw [List.find?_cons_of_pos (by simpa using this)]
    rfl

theorem loop_sweep (dflt : ν) (f : σ → κ → ν → σ × ν) : ∀ (post pre : List (κ × ν)) (st : σ) (n : Nat), post.length < n →
    (pre ++ post).Pairwise (fun a b => a.1 < b.1) →
    Spec.loop dflt (fun st => .key fun k => .read fun x => .write (f st k x).2 (.done (f st k x).1)) n st (pre ++ post)
      (post.head?.map fun p => p.1) =
      .ok ((Spec.sweep f st post).1, pre ++ (Spec.sweep f st post).2, post.map fun p => p.1) := by
  intro post
  induction post with
  | nil =>
    intro pre st n hn _
    obtain ⟨m, rfl⟩ : ∃ m, n = m + 1 := ⟨n - 1, by omega⟩
    simp [Spec.loop, Spec.sweep]
  | cons p post ih =>
    intro pre st n hn hs
    obtain ⟨k, x⟩ := p
    obtain ⟨m, rfl⟩ : ∃ m, n = m + 1 := ⟨n - 1, by omega⟩
    have hs' : (pre ++ (k, (f st k x).2) :: post).Pairwise fun a b => a.1 < b.1 := by
      have h1 : (List.map (fun p : κ × ν => p.1) (pre ++ (k, x) :: post)).Pairwise (· < ·) := List.pairwise_map.2 hs
      have h2 : (List.map (fun p : κ × ν => p.1) (pre ++ (k, (f st k x).2) :: post)).Pairwise (· < ·) := by
        rw [List.map_append, List.map_cons] at h1 ⊢
        exact h1
      exact List.pairwise_map.1 h2
    have hi := ih (pre ++ [(k, (f st k x).2)]) (f st k x).1 m (by simp at hn; omega) (by simpa using hs')
    simp only [List.append_assoc, List.singleton_append] at hi
    have h1 := find_mid pre post k x hs
    have h2 := put_mid pre post k x (f st k x).2 hs
    have h3 := above_mid pre post k (f st k x).2 hs'
    simp [Spec.loop, Spec.exec, Spec.sweep, Cont.Map.get, Cont.Map.keyCheck, h1, Cont.Map.set, h2, h3, hi]

/-! ## Set -/

theorem keys_insert (k : κ) (m : List (κ × Unit)) :
    (Stl.mapInsert k () m).map (fun p => p.1) = Stl.setInsert k (m.map fun p => p.1) := by
  induction m with
  | nil => rfl
  | cons p m ih =>
    simp only [List.map_cons, Stl.mapInsert, Stl.setInsert]
    split_ifs <;> simp [ih]

theorem keys_erase (k : κ) (m : List (κ × Unit)) :
    (Stl.mapErase k m).map (fun p => p.1) = Stl.setErase k (m.map fun p => p.1) := by
  induction m with
  | nil => rfl
  | cons p m ih =>
    simp only [List.map_cons, Stl.mapErase, Stl.setErase]
    split_ifs <;> simp [ih]

theorem keys_find (k : κ) (m : List (κ × Unit)) : (Stl.mapFind k m).isSome = Stl.setFind k (m.map fun p => p.1) := by
  induction m with
  | nil => rfl
  | cons p m ih =>
    simp only [List.map_cons, Stl.mapFind, Stl.setFind]
    split_ifs <;> simp [ih]

theorem sexec_eq (b : SBody κ σ) : ∀ (m : List (κ × Unit)) (q : Option κ),
    Spec.sexec (m.map fun p => p.1) q b =
      Spec.exec () m q b.toMap >>= fun x => .ok (x.1, x.2.1.map (fun p => p.1), x.2.2.1, x.2.2.2) := by
  induction b with
  | done st => intro m q; rfl
  | stop st => intro m q; rfl
  | insert k b ih =>
    intro m q
    simp only [Spec.sexec, SBody.toMap, Spec.exec, ← ih, Cont.Set.insert, Cont.Map.index, keys_insert]
  | erase k b ih =>
    intro m q
    simp only [Spec.sexec, SBody.toMap, Spec.exec, ← ih, Cont.Set.erase, Cont.Map.erase, keys_erase]
  | clear b ih =>
    intro m q
    simp only [Spec.sexec, SBody.toMap, Spec.exec, ← ih, List.map_nil]
  | contains k b ih =>
    intro m q
    simp only [Spec.sexec, SBody.toMap, Spec.exec, ← ih, Cont.Set.contains, Cont.Map.contains, keys_find]
  | size b ih =>
    intro m q
    simp only [Spec.sexec, SBody.toMap, Spec.exec, ← ih, List.length_map]
  | read b ih =>
    intro m q
    cases q with
    | none => rfl
    | some k => simp only [Spec.sexec, SBody.toMap, Spec.exec, ← ih]

theorem sloop_eq (body : σ → SBody κ σ) (n : Nat) : ∀ (st : σ) (m : List (κ × Unit)) (x : Option κ),
    Spec.sloop body n st (m.map fun p => p.1) x =
      Spec.loop () (fun st => (body st).toMap) n st m x >>= fun y => .ok (y.1, y.2.1.map (fun p => p.1), y.2.2) := by
  induction n with
  | zero => intro st m x; rfl
  | succ n ih =>
    intro st m x
    cases x with
    | none => rfl
    | some k =>
      simp only [Spec.sloop, Spec.loop, sexec_eq]
      cases Spec.exec () m (some k) (body st).toMap with
      | ok a =>
        obtain ⟨st1, m1, q, stop⟩ := a
        cases stop with
        | true => rfl
        | false =>
          cases q with
          | none => rfl
          | some q =>
            have e : (m1.map fun p => p.1).find? (fun x => decide (k < x)) = Spec.above k m1 := by
              rw [Spec.above, List.find?_map]
              rfl
            simp only [Out.ok_bind, Bool.false_eq_true, if_false, e, ih]
            cases Spec.loop () (fun st => (body st).toMap) n st1 m1 (Spec.above k m1) <;> rfl
      | exit => rfl
      | ub => rfl
      | diverge => rfl

end Cont.MapLoop
