import Verif.Proof.JsonHeapTwo

/-! # Lemmas about programs that use `JSONObject` variables -/

namespace Json.Mem
open Cpp

/-! ### Programs -/

/-- the entry of a variable -/
def get {α : Type} (l : List (Option α)) (x : Nat) : Option α := l[x]?.join

theorem get_set {α : Type} {l : List (Option α)} {x : Nat} {v : Option α} (hx : x < l.length) (z : Nat) :
    get (l.set x v) z = if z = x then v else get l z := by
  unfold get
  rw [List.getElem?_set]
  by_cases h : z = x
  · subst h; simp [hx]
  · rw [if_neg (Ne.symm h), if_neg h]

theorem get_append {α : Type} (l : List (Option α)) (v : Option α) (z : Nat) :
    get (l ++ [v]) z = if z = l.length then v else get l z := by
  unfold get
  by_cases h : z < l.length
  · rw [List.getElem?_append_left h, if_neg (by omega)]
  · by_cases h' : z = l.length
    · subst h'; simp
    · rw [if_neg h', List.getElem?_eq_none (by simp; omega), List.getElem?_eq_none (by omega)]

theorem get_lt {α : Type} {l : List (Option α)} {x : Nat} {v : α} (h : get l x = some v) : x < l.length := by
  by_contra hc
  unfold get at h
  rw [List.getElem?_eq_none (by omega)] at h
  simp at h

theorem get_some {α : Type} {l : List (Option α)} {x : Nat} {v : α} : get l x = some v ↔ l[x]? = some (some v) := by
  unfold get
  rcases l[x]? with _ | _ | _ <;> simp

theorem vvar_ok {vs : List (Option Value)} {x : Nat} {v : Value} : vvar vs x = .ok v ↔ get vs x = some v := by
  unfold vvar get
  rcases vs[x]? with _ | _ | _ <;> simp

theorem var_ok {s : State} {x a : Nat} (h : get s.vars x = some a) : s.var x = .ok a := by
  unfold State.var
  rw [get_some.1 h]

/-- What is known of a variable. -/
def Var (h : Heap) (vars : List (Option Nat)) (vs : List (Option Value)) (F : Nat → Multiset Nat) (x : Nat) : Prop :=
  (∃ a v, get vars x = some a ∧ get vs x = some v ∧ Rep h.cell a v (F x)) ∨ (get vars x = none ∧ get vs x = none ∧ F x = 0)

/-- The memory holds the variables and nothing else. -/
structure Inv (s : State) (vs : List (Option Value)) (F : Nat → Multiset Nat) : Prop where
  len : s.vars.length = vs.length
  var : ∀ x, Var s.heap s.vars vs F x
  nodup : ∀ x, (F x).Nodup
  disj : ∀ x y z, x ≠ y → z ∈ F x → z ∉ F y
  lt : ∀ x z, z ∈ F x → z < s.heap.next
  wf : ∀ z, s.heap.next ≤ z → s.heap.cell z = none
  live : ∀ z, s.heap.cell z ≠ none → ∃ x, z ∈ F x

theorem Inv.own {s vs F} (I : Inv s vs F) (x : Nat) : Own s.heap (F x) := ⟨I.nodup x, I.lt x, I.wf⟩

theorem Inv.own2 {s vs F} (I : Inv s vs F) {x y : Nat} (h : x ≠ y) : Own s.heap (F y + F x) := by
  refine ⟨?_, fun z hz => ?_, I.wf⟩
  · rw [Multiset.nodup_add]
    exact ⟨I.nodup y, I.nodup x, Multiset.disjoint_left.2 fun {z} hz => I.disj y x z h.symm hz⟩
  · rcases Multiset.mem_add.1 hz with h | h
    · exact I.lt y z h
    · exact I.lt x z h

theorem Inv.get {s vs F} (I : Inv s vs F) {x : Nat} {v : Value} (h : vvar vs x = .ok v) :
    ∃ a, s.var x = .ok a ∧ Mem.get s.vars x = some a ∧ Rep s.heap.cell a v (F x) ∧ x < vs.length := by
  rw [vvar_ok] at h
  rcases I.var x with ⟨a, v', h1, h2, h3⟩ | ⟨_, h2, _⟩
  · rw [h] at h2
    cases h2
    exact ⟨a, var_ok h1, h1, h3, get_lt h⟩
  · rw [h] at h2
    cases h2

theorem Inv.change {s : State} {vs : List (Option Value)} {F : Nat → Multiset Nat} (I : Inv s vs F) {h' : Heap}
    {vars' : List (Option Nat)} {vs' : List (Option Value)} {F' : Nat → Multiset Nat} {A A' : Multiset Nat}
    (c : Chg s.heap h' A A') (hl : vars'.length = vs'.length) (hA : ∀ z ∈ A, ∃ x, z ∈ F x)
    (hx : ∀ x, (Mem.get vars' x = Mem.get s.vars x ∧ Mem.get vs' x = Mem.get vs x ∧ F' x = F x ∧ ∀ z ∈ F x, z ∉ A) ∨
      (F' x ≤ A' ∧ (∀ z ∈ F x, z ∈ A) ∧ Var h' vars' vs' F' x))
    (hd : ∀ x y z, x ≠ y → z ∈ A' → z ∈ F' x → z ∉ F' y) (hcov : ∀ z ∈ A', ∃ x, z ∈ F' x) : Inv ⟨h', vars'⟩ vs' F' := by
  have hAlt : ∀ z ∈ A, z < s.heap.next := fun z hz => by
    obtain ⟨x, hx⟩ := hA z hz
    exact I.lt x z hx
  have hA'lt : ∀ z ∈ A', z < h'.next := fun z hz => by
    rcases c.mem z hz with h | h
    · exact lt_of_lt_of_le (hAlt z h) c.le
    · exact h.2
  have hsame : ∀ x, (∀ z ∈ F x, z ∉ A) → ∀ z ∈ F x, z ∉ A' := by
    intro x hh z hz hc
    rcases c.mem z hc with h | h
    · exact hh z hz h
    · have := I.lt x z hz
      omega
  refine ⟨hl, fun x => ?_, fun x => ?_, fun x y z hxy hz hz' => ?_, fun x z hz => ?_, fun z hz => ?_, fun z hz => ?_⟩
  · rcases hx x with ⟨h1, h2, h3, h4⟩ | ⟨_, _, h⟩
    · rcases I.var x with ⟨a, v, g1, g2, g3⟩ | ⟨g1, g2, g3⟩
      · refine Or.inl ⟨a, v, h1.trans g1, h2.trans g2, ?_⟩
        rw [h3]
        exact g3.frame (c.agree h4 (I.lt x))
      · exact Or.inr ⟨h1.trans g1, h2.trans g2, h3.trans g3⟩
    · exact h
  · rcases hx x with ⟨_, _, h3, _⟩ | ⟨h, _, _⟩
    · rw [h3]; exact I.nodup x
    · exact Multiset.nodup_of_le h c.nodup
  · rcases hx x with ⟨_, _, h3, h4⟩ | ⟨h, _, _⟩
    · rcases hx y with ⟨_, _, h3', _⟩ | ⟨h', _, _⟩
      · rw [h3] at hz
        rw [h3'] at hz'
        exact I.disj x y z hxy hz hz'
      · rw [h3] at hz
        exact hsame x h4 z hz (Multiset.mem_of_le h' hz')
    · exact hd x y z hxy (Multiset.mem_of_le h hz) hz hz'
  · rcases hx x with ⟨_, _, h3, h4⟩ | ⟨h, _, _⟩
    · rw [h3] at hz
      exact lt_of_lt_of_le (I.lt x z hz) c.le
    · exact hA'lt z (Multiset.mem_of_le h hz)
  · have h1 : z ∉ A' := fun hc => absurd (hA'lt z hc) (by simpa using hz)
    have hz' : h'.next ≤ z := hz
    have h2 : z ∉ A := fun hc => absurd (hAlt z hc) (by have := c.le; omega)
    show h'.cell z = none
    rw [c.same z h2 h1, I.wf z (c.le.trans hz)]
  · by_cases h1 : z ∈ A'
    · exact hcov z h1
    · have hz' : h'.cell z ≠ none := hz
      by_cases h2 : z ∈ A
      · exact absurd (c.dead z h2 h1) hz'
      · rw [c.same z h2 h1] at hz'
        obtain ⟨x, hxz⟩ := I.live z hz'
        refine ⟨x, ?_⟩
        rcases hx x with ⟨_, _, h3, _⟩ | ⟨_, h, _⟩
        · rw [h3]; exact hxz
        · exact absurd (h z hxz) h2

/-- one variable changes -/
theorem Inv.one {s : State} {vs : List (Option Value)} {F : Nat → Multiset Nat} (I : Inv s vs F) {h' : Heap} {x a : Nat}
    {v' : Value} {F' : Multiset Nat} (c : Chg s.heap h' (F x) F') (ha : Mem.get s.vars x = some a) (hx : x < vs.length)
    (hr : Rep h'.cell a v' F') : Inv ⟨h', s.vars⟩ (vs.set x (some v')) (Function.update F x F') := by
  refine I.change c (by simpa using I.len) (fun z hz => ⟨x, hz⟩) (fun y => ?_) (fun y y' z hn hz hy hy' => ?_)
    (fun z hz => ⟨x, by simpa using hz⟩)
  · by_cases h : y = x
    · subst h
      refine Or.inr ⟨by simp, fun _ hz => hz, Or.inl ⟨a, v', ha, ?_, by simpa using hr⟩⟩
      rw [get_set hx, if_pos rfl]
    · refine Or.inl ⟨rfl, ?_, by rw [Function.update_of_ne h], fun z => I.disj y x z h⟩
      rw [get_set hx, if_neg h]
  · have key : ∀ u, u ≠ x → z ∉ Function.update F x F' u := by
      intro u hu hc
      rw [Function.update_of_ne hu] at hc
      rcases c.mem z hz with h | h
      · exact I.disj u x z hu hc h
      · have := I.lt u z hc
        omega
    by_cases h1 : y = x
    · exact key y' (fun h2 => hn (h1.trans h2.symm)) hy'
    · exact key y h1 hy

/-- two variables change -/
theorem Inv.two {s : State} {vs : List (Option Value)} {F : Nat → Multiset Nat} (I : Inv s vs F) {h' : Heap} {x y a b : Nat}
    (hxy : x ≠ y) {u v : Value} {Fx Fy : Multiset Nat} (c : Chg s.heap h' (F y + F x) (Fy + Fx))
    (ha : Mem.get s.vars x = some a) (hb : Mem.get s.vars y = some b) (hx : x < vs.length) (hy : y < vs.length)
    (hr : Rep h'.cell a u Fx) (hr' : Rep h'.cell b v Fy) :
    Inv ⟨h', s.vars⟩ ((vs.set y (some v)).set x (some u)) (Function.update (Function.update F y Fy) x Fx) := by
  have hFx : Function.update (Function.update F y Fy) x Fx x = Fx := by simp
  have hFy : Function.update (Function.update F y Fy) x Fx y = Fy := by
    rw [Function.update_of_ne hxy.symm, Function.update_self]
  have hFo : ∀ z, z ≠ x → z ≠ y → Function.update (Function.update F y Fy) x Fx z = F z := by
    intro z h1 h2
    rw [Function.update_of_ne h1, Function.update_of_ne h2]
  have gx : Mem.get ((vs.set y (some v)).set x (some u)) x = some u := by
    rw [get_set (by simpa using hx), if_pos rfl]
  have gy : Mem.get ((vs.set y (some v)).set x (some u)) y = some v := by
    rw [get_set (by simpa using hx), if_neg hxy.symm, get_set hy, if_pos rfl]
  generalize hF' : Function.update (Function.update F y Fy) x Fx = F' at *
  refine I.change c (by simpa using I.len) (fun z hz => ?_) (fun w => ?_) (fun w w' z hn hz hw hw' => ?_) (fun z hz => ?_)
  · rcases Multiset.mem_add.1 hz with h | h
    · exact ⟨y, h⟩
    · exact ⟨x, h⟩
  · by_cases h1 : w = x
    · subst h1
      exact Or.inr ⟨by rw [hFx]; exact Multiset.le_add_left _ _, fun z hz => by simp [hz], Or.inl ⟨a, u, ha, gx, by rw [hFx]; exact hr⟩⟩
    · by_cases h2 : w = y
      · subst h2
        exact Or.inr ⟨by rw [hFy]; exact Multiset.le_add_right _ _, fun z hz => by simp [hz], Or.inl ⟨b, v, hb, gy, by rw [hFy]; exact hr'⟩⟩
      · refine Or.inl ⟨rfl, ?_, hFo w h1 h2, fun z hz hc => ?_⟩
        · rw [get_set (by simpa using hx), if_neg h1, get_set hy, if_neg h2]
        · rcases Multiset.mem_add.1 hc with h | h
          · exact I.disj w y z h2 hz h
          · exact I.disj w x z h1 hz h
  · have key : ∀ u, u ≠ x → u ≠ y → z ∉ F' u := by
      intro u hu hu' hc
      rw [hFo u hu hu'] at hc
      rcases c.mem z hz with h | h
      · rcases Multiset.mem_add.1 h with h | h
        · exact I.disj u y z hu' hc h
        · exact I.disj u x z hu hc h
      · have := I.lt u z hc
        omega
    have hdis : z ∈ Fy → z ∉ Fx := fun h => Multiset.disjoint_left.1 (Multiset.nodup_add.1 c.nodup).2.2 h
    by_cases h1 : w = x
    · by_cases h2 : w' = y
      · rw [h1, hFx] at hw; rw [h2, hFy] at hw'; exact hdis hw' hw
      · exact key w' (fun h => hn (h1.trans h.symm)) h2 hw'
    · by_cases h2 : w = y
      · by_cases h3 : w' = x
        · rw [h2, hFy] at hw; rw [h3, hFx] at hw'; exact hdis hw hw'
        · exact key w' h3 (fun h => hn (h2.trans h.symm)) hw'
      · exact key w h1 h2 hw
  · rcases Multiset.mem_add.1 hz with h | h
    · exact ⟨y, by rw [hFy]; exact h⟩
    · exact ⟨x, by rw [hFx]; exact h⟩

/-- a new variable -/
theorem Inv.push {s : State} {vs : List (Option Value)} {F : Nat → Multiset Nat} (I : Inv s vs F) {h' : Heap} {a : Nat}
    {v : Value} {F' : Multiset Nat} (c : Chg s.heap h' 0 F') (hr : Rep h'.cell a v F') :
    Inv ⟨h', s.vars ++ [some a]⟩ (vs ++ [some v]) (Function.update F vs.length F') := by
  have h0 : F vs.length = 0 := by
    rcases I.var vs.length with ⟨_, _, _, h, _⟩ | ⟨_, _, h⟩
    · exact absurd (get_lt h) (by omega)
    · exact h
  refine I.change c (by simpa using I.len) (fun z hz => by simp at hz) (fun y => ?_) (fun y y' z hn hz hy hy' => ?_)
    (fun z hz => ⟨vs.length, by simpa using hz⟩)
  · by_cases h : y = vs.length
    · subst h
      refine Or.inr ⟨by simp, by simp [h0], Or.inl ⟨a, v, ?_, ?_, by simpa using hr⟩⟩
      · rw [get_append, if_pos I.len.symm]
      · rw [get_append, if_pos rfl]
    · refine Or.inl ⟨?_, ?_, by rw [Function.update_of_ne h], by simp⟩
      · rw [get_append, if_neg (by rw [I.len]; exact h)]
      · rw [get_append, if_neg h]
  · have key : ∀ u, u ≠ vs.length → z ∉ Function.update F vs.length F' u := by
      intro u hu hc
      rw [Function.update_of_ne hu] at hc
      rcases c.mem z hz with h | h
      · simp at h
      · have := I.lt u z hc
        omega
    by_cases h1 : y = vs.length
    · exact key y' (fun h2 => hn (h1.trans h2.symm)) hy'
    · exact key y h1 hy

/-- the end of a variable -/
theorem Inv.pop {s : State} {vs : List (Option Value)} {F : Nat → Multiset Nat} (I : Inv s vs F) {x a : Nat}
    (ha : Mem.get s.vars x = some a) (hx : x < vs.length) :
    Inv ⟨s.heap.freeAll (F x), s.vars.set x none⟩ (vs.set x none) (Function.update F x 0) := by
  have c : Chg s.heap (s.heap.freeAll (F x)) (F x) 0 := by
    have := freeAll_chg (h := s.heap) (C := 0) (T := F x) (by rw [zero_add]; exact I.own x)
    rwa [zero_add] at this
  refine I.change c (by simpa using I.len) (fun z hz => ⟨x, hz⟩) (fun y => ?_) (fun y y' z hn hz => by simp at hz)
    (fun z hz => by simp at hz)
  by_cases h : y = x
  · subst h
    refine Or.inr ⟨by simp, fun _ hz => hz, Or.inr ⟨?_, ?_, by simp⟩⟩
    · rw [get_set (get_lt ha), if_pos rfl]
    · rw [get_set hx, if_pos rfl]
  · refine Or.inl ⟨?_, ?_, by rw [Function.update_of_ne h], fun z => I.disj y x z h⟩
    · rw [get_set (get_lt ha), if_neg h]
    · rw [get_set hx, if_neg h]


theorem peek_of_update {w w' : Value} : ∀ (p : List Step) (v : Value), update w p v = .ok w' → ∃ e, peek p v = .ok e
  | [], v, _ => ⟨v, rfl⟩
  | .key k :: p, v, h => by
    unfold update at h
    obtain ⟨x, hx, _⟩ := Out.bind_eq_ok.1 h
    exact peek_of_update' p _ hx
  | .idx i :: p, v, h => by
    unfold update at h
    obtain ⟨l, hl, hs⟩ := Out.bind_eq_ok.1 h
    by_cases hn : i < 0
    · rw [if_pos hn] at hs; cases hs
    rw [if_neg hn] at hs
    obtain ⟨x, hx, _⟩ := Out.bind_eq_ok.1 hs
    by_cases hi : i ≥ (asArr v).length
    · rw [if_pos hi] at hl
      obtain ⟨y, hy, hl⟩ := Out.bind_eq_ok.1 hl
      cases hl
      rw [getD_ext] at hx
      obtain ⟨e, he⟩ := peek_of_update' p _ hx
      refine ⟨e, ?_⟩
      unfold peek
      rw [if_pos hi, hy, Out.ok_bind, if_neg hn]
      exact he
    · rw [if_neg hi] at hl
      cases hl
      obtain ⟨e, he⟩ := peek_of_update' p _ hx
      refine ⟨e, ?_⟩
      unfold peek
      rw [if_neg hi, if_neg hn]
      exact he
where
  peek_of_update' {w w' : Value} (p : List Step) (v : Value) : update w p v = .ok w' → ∃ e, peek p v = .ok e :=
    peek_of_update p v

/-- an access to an element -/
theorem Inv.locate {s : State} {vs : List (Option Value)} {F : Nat → Multiset Nat} (I : Inv s vs F) {y : Nat} {v e : Value}
    {q : List Step} (hv : vvar vs y = .ok v) (he : peek q v = .ok e) :
    ∃ N o b h1 Fb C v', s.var y = .ok o ∧ Mem.get s.vars y = some o ∧ (∀ n ≥ N, Mem.locate n s.heap o q = .ok (b, h1)) ∧
      Rep h1.cell b e Fb ∧ Chg s.heap h1 (F y) (C + Fb) ∧ Hole h1.cell o v q b C ∧ update e q v = .ok v' ∧
      Inv ⟨h1, s.vars⟩ (vs.set y (some v')) (Function.update F y (C + Fb)) := by
  obtain ⟨o, ho, hg, hr, hy⟩ := I.get hv
  obtain ⟨N, b, h1, Fb, C, e1, r1, c1, g1⟩ := locate_rep q hr (I.own y) he
  obtain ⟨v', u1, u2⟩ := g1 h1.cell e Fb (fun _ _ => rfl) r1
  exact ⟨N, o, b, h1, Fb, C, v', ho, hg, e1, r1, c1, g1, u1, I.one c1 hg hy u2⟩

theorem vvar_set {vs : List (Option Value)} {x y : Nat} {v' : Option Value} (hxy : x ≠ y) : vvar (vs.set y v') x = vvar vs x := by
  unfold vvar
  rw [List.getElem?_set_ne hxy.symm]

/-- accesses to elements of two variables -/
theorem Inv.locate2 {s : State} {vs : List (Option Value)} {F : Nat → Multiset Nat} (I : Inv s vs F) {x y : Nat}
    (hxy : x ≠ y) {v e u t : Value} {p q : List Step} (hv : vvar vs y = .ok v) (he : peek q v = .ok e)
    (hu : vvar vs x = .ok u) (ht : peek p u = .ok t) :
    ∃ N oy b h1 ox a h2 Fb Fa C D v' u', s.var y = .ok oy ∧ s.var x = .ok ox ∧ Mem.get s.vars y = some oy ∧
      Mem.get s.vars x = some ox ∧
      (∀ n ≥ N, Mem.locate n s.heap oy q = .ok (b, h1)) ∧ (∀ n ≥ N, Mem.locate n h1 ox p = .ok (a, h2)) ∧
      Rep h2.cell b e Fb ∧ Rep h2.cell a t Fa ∧ Hole h2.cell oy v q b C ∧ Hole h2.cell ox u p a D ∧
      update e q v = .ok v' ∧ update t p u = .ok u' ∧ Own h2 (C + Fb + (D + Fa)) ∧
      Inv ⟨h2, s.vars⟩ ((vs.set y (some v')).set x (some u'))
        (Function.update (Function.update F y (C + Fb)) x (D + Fa)) := by
  obtain ⟨N1, oy, b, h1, Fb, C, v', k1, k1', k2, k3, k4, k5, k6, I1⟩ := I.locate hv he
  obtain ⟨N2, ox, a, h2, Fa, D, u', m1, m1', m2, m3, m4, m5, m6, I2⟩ := I1.locate (y := x) (vs := vs.set y (some v'))
    (by rw [vvar_set hxy]; exact hu) ht
  have hd : ∀ z ∈ C + Fb, h2.cell z = h1.cell z := by
    refine m4.agree (fun z hz => ?_) (fun z hz => I1.lt y z (by simpa using hz))
    exact I1.disj y x z hxy.symm (by simpa using hz)
  have ow := I2.own2 hxy
  rw [Function.update_self, Function.update_of_ne hxy.symm, Function.update_self] at ow
  refine ⟨max N1 N2, oy, b, h1, ox, a, h2, Fb, Fa, C, D, v', u', k1, m1, k1', m1', fun n hn => k2 n (by omega),
    fun n hn => m2 n (by omega), k3.frame fun z hz => hd z (by simp [hz]), m3, ?_, m5, k6, m6, ow, I2⟩
  intro c'' w Fw hc hw
  exact k5 c'' w Fw (fun z hz => by rw [hc z hz, hd z (by simp [hz])]) hw

theorem vvar_set_self {vs : List (Option Value)} {x : Nat} {v : Value} (hx : x < vs.length) : vvar (vs.set x (some v)) x = .ok v := by
  unfold vvar
  rw [List.getElem?_set_self hx]

/-- What is found at one place does not depend on what another place holds. -/
theorem peek_indep {a b : Value} : ∀ (q p : List Step), Diverge q p → ∀ {v va vb : Value}, update a q v = .ok va →
    update b q v = .ok vb → peek p va = peek p vb
  | .key k :: q, .key k' :: p, hd, v, va, vb, ha, hb => by
    obtain ⟨wa, ha', rfl⟩ := update_key ha
    obtain ⟨wb, hb', rfl⟩ := update_key hb
    show peek p (mapAt (put k wa (asObj v)) k') = peek p (mapAt (put k wb (asObj v)) k')
    rw [mapAt_put, mapAt_put]
    by_cases hk : k' = k
    · rw [if_pos hk, if_pos hk]
      rcases hd with hd | hd
      · exact absurd hk.symm hd
      · exact peek_indep q p hd.2 ha' hb'
    · rw [if_neg hk, if_neg hk]
  | .idx i :: q, .idx j :: p, hd, v, va, vb, ha, hb => by
    obtain ⟨e, he⟩ := peek_of_update _ _ ha
    obtain ⟨h0, hbd, _⟩ := peek_idx he
    obtain ⟨wa, ha', rfl⟩ := update_idx_inv h0 hbd ha
    obtain ⟨wb, hb', rfl⟩ := update_idx_inv h0 hbd hb
    have hlt : i.toNat < (extTo i (asArr v)).length := by rw [extTo_length]; omega
    unfold peek
    rw [asArr_arr, asArr_arr, List.length_set, List.length_set]
    by_cases hj : j < 0
    · simp only [if_pos hj]
    simp only [if_neg hj]
    have : peek p (((extTo i (asArr v)).set i.toNat wa).getD j.toNat .null) =
        peek p (((extTo i (asArr v)).set i.toNat wb).getD j.toNat .null) := by
      by_cases hij : i = j
      · subst hij
        rw [getD_set_self _ _ hlt, getD_set_self _ _ hlt]
        rcases hd with hd | hd
        · exact absurd rfl hd
        · exact peek_indep q p hd.2 ha' hb'
      · rw [getD_set_ne _ _ (by omega), getD_set_ne _ _ (by omega)]
    rw [this]
  | [], _, hd, _, _, _, _, _ => by simp [Diverge] at hd
  | .key _ :: _, [], hd, _, _, _, _, _ => by simp [Diverge] at hd
  | .idx _ :: _, [], hd, _, _, _, _, _ => by simp [Diverge] at hd
  | .key _ :: _, .idx _ :: _, hd, _, _, _, _, _ => by simp [Diverge] at hd
  | .idx _ :: _, .key _ :: _, hd, _, _, _, _, _ => by simp [Diverge] at hd

/-- accesses to two elements of a variable -/
theorem Inv.locateTwo {s : State} {vs : List (Option Value)} {F : Nat → Multiset Nat} (I : Inv s vs F) {x : Nat}
    {v e v1 t : Value} {p q : List Step} (hd : Diverge q p) (hv : vvar vs x = .ok v) (he : peek q v = .ok e)
    (hu : update e q v = .ok v1) (ht : peek p v1 = .ok t) :
    ∃ N o b h1 a h2 Fb Fa C v2, s.var x = .ok o ∧ Mem.get s.vars x = some o ∧
      (∀ n ≥ N, Mem.locate n s.heap o q = .ok (b, h1)) ∧ (∀ n ≥ N, Mem.locate n h1 o p = .ok (a, h2)) ∧
      Rep h2.cell b e Fb ∧ Rep h2.cell a t Fa ∧ Hole2 h2.cell o v q p b a C ∧ Own h2 (C + (Fb + Fa)) ∧
      Inv ⟨h2, s.vars⟩ (vs.set x (some v2)) (Function.update F x (C + (Fb + Fa))) := by
  obtain ⟨o, ho, hg, hr, hy⟩ := I.get hv
  obtain ⟨N, b, h1, a, h2, Fb, Fa, F1, C, e1, e2, _, r1, r2, c, hole⟩ := locate_two q p hd he hu ht hr (I.own x)
  obtain ⟨v1', v2, u1, u2, r3⟩ := hole h2.cell e Fb t Fa (fun _ _ => rfl) r1 r2
  exact ⟨N, o, b, h1, a, h2, Fb, Fa, C, v2, ho, hg, e1, e2, r1, r2, hole, c.own (I.own x), I.one c hg hy r3⟩

theorem assign_same {s : State} {vs : List (Option Value)} {F : Nat → Multiset Nat} (I : Inv s vs F) {x : Nat}
    {v e v1 u : Value} {p q : List Step} (hd : Diverge q p) (hv : vvar vs x = .ok v) (he : peek q v = .ok e)
    (hu : update e q v = .ok v1) (hu' : update e p v1 = .ok u) :
    ∃ N s' F', (∀ n ≥ N, step n s (.assign x p x q) = .ok s') ∧ Inv s' (vs.set x (some u)) F' := by
  obtain ⟨t, ht⟩ := peek_of_update p v1 hu'
  obtain ⟨N1, o, b, h1, a, h2, Fb, Fa, C, v2, k1, k2, k3, k4, r1, r2, hole, ow, I2⟩ := I.locateTwo hd hv he hu ht
  obtain ⟨N2, h3, Fa', e3, c3, r3⟩ := assign_rep r2 r1 ow.right
  have ef : ∀ X : Multiset Nat, C + (Fb + X) = C + Fb + X := fun X => by abel
  have ow' := ow
  rw [ef] at ow'
  have c3' := c3.ctx ow'
  have ag := c3.agree ow'.disj ow'.left.lt
  obtain ⟨v1', v2', z1, z2, z3⟩ := hole h3.cell e Fb e Fa' (fun z hz => ag z (by simp [hz]))
    (r1.frame fun z hz => ag z (by simp [hz])) r3
  rw [hu] at z1; cases z1
  rw [hu'] at z2; cases z2
  rw [← ef, ← ef] at c3'
  have I3 := I2.one (x := x) (a := o) (by rw [Function.update_self]; exact c3') k2
    (by simpa using (I.get hv).choose_spec.2.2.2) z3
  rw [List.set_set] at I3
  refine ⟨max N1 N2, _, _, fun n hn => ?_, I3⟩
  simp only [step, k1, Out.ok_bind, k3 n (by omega), k4 n (by omega), e3 n (by omega)]

theorem moveAssign_same {s : State} {vs : List (Option Value)} {F : Nat → Multiset Nat} (I : Inv s vs F) {x : Nat}
    {v e v1 u : Value} {p q : List Step} (hd : Diverge q p) (hv : vvar vs x = .ok v) (he : peek q v = .ok e)
    (hu : update .null q v = .ok v1) (hu' : update e p v1 = .ok u) :
    ∃ N s' F', (∀ n ≥ N, step n s (.moveAssign x p x q) = .ok s') ∧ Inv s' (vs.set x (some u)) F' := by
  obtain ⟨t, ht⟩ := peek_of_update p v1 hu'
  obtain ⟨_, _, _, _, _, _, v0, _, _, _, _, _, _, hu0, _⟩ := I.locate hv he
  have ht0 : peek p v0 = .ok t := by rw [peek_indep q p hd hu0 hu, ht]
  obtain ⟨N1, o, b, h1, a, h2, Fb, Fa, C, v2, k1, k2, k3, k4, r1, r2, hole, ow, I2⟩ := I.locateTwo hd hv he hu0 ht0
  obtain ⟨N2, h3, Fa', e3, c3, r3, r3'⟩ := moveAssign_rep r2 r1 ow.right
  have c3' := c3.ctx ow
  have ag := c3.agree ow.disj ow.left.lt
  obtain ⟨v1', v2', z1, z2, z3⟩ := hole h3.cell .null {b} e Fa' ag r3' r3
  rw [hu] at z1; cases z1
  rw [hu'] at z2; cases z2
  have I3 := I2.one (x := x) (a := o) (by rw [Function.update_self]; exact c3') k2
    (by simpa using (I.get hv).choose_spec.2.2.2) z3
  rw [List.set_set] at I3
  refine ⟨max N1 N2, _, _, fun n hn => ?_, I3⟩
  simp only [step, k1, Out.ok_bind, k3 n (by omega), k4 n (by omega), e3 n (by omega)]

theorem append_same {s : State} {vs : List (Option Value)} {F : Nat → Multiset Nat} (I : Inv s vs F) {x : Nat}
    {v e v1 t u : Value} {p q : List Step} (hd : Diverge q p) (hv : vvar vs x = .ok v) (he : peek q v = .ok e)
    (hu : update e q v = .ok v1) (ht : peek p v1 = .ok t) (hu' : update (Json.append e t) p v1 = .ok u) :
    ∃ N s' F', (∀ n ≥ N, step n s (.append x p x q) = .ok s') ∧ Inv s' (vs.set x (some u)) F' := by
  obtain ⟨N1, o, b, h1, a, h2, Fb, Fa, C, v2, k1, k2, k3, k4, r1, r2, hole, ow, I2⟩ := I.locateTwo hd hv he hu ht
  obtain ⟨N2, h3, Fa', e3, c3, r3⟩ := append_rep r2 r1 ow.right.left.lt ow.right.right
  have ef : ∀ X : Multiset Nat, C + (Fb + X) = C + Fb + X := fun X => by abel
  have ow' := ow
  rw [ef] at ow'
  have c3' := c3.ctx ow'
  have ag := c3.agree ow'.disj ow'.left.lt
  obtain ⟨v1', v2', z1, z2, z3⟩ := hole h3.cell e Fb _ Fa' (fun z hz => ag z (by simp [hz]))
    (r1.frame fun z hz => ag z (by simp [hz])) r3
  rw [hu] at z1; cases z1
  rw [hu'] at z2; cases z2
  rw [← ef, ← ef] at c3'
  have I3 := I2.one (x := x) (a := o) (by rw [Function.update_self]; exact c3') k2
    (by simpa using (I.get hv).choose_spec.2.2.2) z3
  rw [List.set_set] at I3
  refine ⟨max N1 N2, _, _, fun n hn => ?_, I3⟩
  simp only [step, k1, Out.ok_bind, k3 n (by omega), k4 n (by omega), e3 n (by omega)]

theorem step_rep {s : State} {vs vs' : List (Option Value)} {F : Nat → Multiset Nat} (I : Inv s vs F) {c : Stmt}
    (ha : c.Apart) (hv : vstep vs c = .ok vs') : ∃ N s' F', (∀ n ≥ N, step n s c = .ok s') ∧ Inv s' vs' F' := by
  cases c with
  | new =>
    cases hv
    obtain ⟨x1, r1⟩ := default_rep s.heap
    have c1 := x1.chg (F := 0) ((I.own 0).sub (Multiset.zero_le _))
    rw [zero_add] at c1
    exact ⟨0, _, _, fun n _ => rfl, I.push c1 r1⟩
  | copy y q =>
    simp only [vstep] at hv
    obtain ⟨v, hv1, hv⟩ := Out.bind_eq_ok.1 hv
    obtain ⟨e, he, hv⟩ := Out.bind_eq_ok.1 hv
    obtain ⟨v', hv', hv⟩ := Out.bind_eq_ok.1 hv
    cases hv
    obtain ⟨N1, o, b, h1, Fb, C, v1, k1, k1', k2, k3, k4, k5, k6, I1⟩ := I.locate hv1 he
    rw [k6] at hv'; cases hv'
    have o1 := I1.own y
    rw [Function.update_self] at o1
    obtain ⟨N2, a, h2, F2, e2, x2, r2⟩ := copyCtor_rep k3 o1.right.lt
    have c2 := x2.chg (F := 0) (o1.sub (Multiset.zero_le _))
    rw [zero_add] at c2
    refine ⟨max N1 N2, _, _, fun n hn => ?_, I1.push c2 r2⟩
    simp only [step, k1, Out.ok_bind, k2 n (by omega), e2 n (by omega)]
  | move y q =>
    simp only [vstep] at hv
    obtain ⟨v, hv1, hv⟩ := Out.bind_eq_ok.1 hv
    obtain ⟨e, he, hv⟩ := Out.bind_eq_ok.1 hv
    obtain ⟨v', hv', hv⟩ := Out.bind_eq_ok.1 hv
    cases hv
    obtain ⟨N1, o, b, h1, Fb, C, v1, k1, k1', k2, k3, k4, k5, k6, I1⟩ := I.locate hv1 he
    have hy : y < vs.length := (I.get hv1).choose_spec.2.2.2
    have o1 := I1.own y
    rw [Function.update_self] at o1
    obtain ⟨x2, r2⟩ := default_rep h1
    have c2 := x2.chg (F := 0) (o1.sub (Multiset.zero_le _))
    rw [zero_add] at c2
    have I2 := I1.push c2 r2
    rw [List.length_set] at I2
    have hxy : vs.length ≠ y := by omega
    have o2 := I2.own2 hxy
    rw [Function.update_self, Function.update_of_ne hxy.symm, Function.update_self] at o2
    have hlt : ∀ z ∈ C + Fb, z ≠ (default h1).1 := fun z hz => (o1.lt z hz).ne
    have hlt' : ∀ z ∈ C + Fb, (default h1).2.cell z = h1.cell z := fun z hz => x2.same z (by simpa using hlt z hz)
    obtain ⟨ty, d, T, g1, g2, rfl⟩ := k3
    have c3 := put_chg (a := (default h1).1) (.obj ty d) o2 (by simp)
    have o3 := c3.own o2
    have c4 := put_chg (a := b) (.obj .null .nullptr) o3 (by simp)
    have o4 := c4.own o3
    have c5 := c3.trans o2 c4
    have ee : C + ({b} + T) + {(default h1).1} = C + {b} + ({(default h1).1} + T) := by abel
    have hbT : b ∉ T := o1.right.disj b (by simp)
    have hCb : ∀ z ∈ C, z ≠ b := fun z hz hc => o1.disj z hz (by simp [hc])
    have rnew : Rep (((default h1).2.put (default h1).1 (.obj ty d)).put b (.obj .null .nullptr)).cell (default h1).1 e
        ({(default h1).1} + T) := by
      refine Rep.mk (ty := ty) (d := d) ?_ (g2.frame fun z hz => ?_)
      · rw [put_other _ (hlt b (by simp)).symm, put_same']
      · rw [put_other, put_other _ (hlt z (by simp [hz])), hlt' z (by simp [hz])]
        rintro rfl; exact hbT hz
    have rb : Rep (((default h1).2.put (default h1).1 (.obj ty d)).put b (.obj .null .nullptr)).cell b .null {b} :=
      Rep.mk (put_same' _ _ _) (.null _)
    obtain ⟨w', u1, u2⟩ := k5 _ _ _ (fun z hz => by
      rw [put_other _ (hCb z hz), put_other _ (hlt z (by simp [hz])), hlt' z (by simp [hz])]) rb
    rw [hv'] at u1
    cases u1
    have gb : Mem.get (s.vars ++ [some (default h1).1]) y = some o := by
      rw [get_append, if_neg (by rw [I.len]; omega)]
      exact k1'
    have ga : Mem.get (s.vars ++ [some (default h1).1]) vs.length = some (default h1).1 := by
      rw [get_append, if_pos I.len.symm]
    have c6 : Chg (default h1).2 (((default h1).2.put (default h1).1 (.obj ty d)).put b (.obj .null .nullptr))
        (Function.update (Function.update F y (C + ({b} + T))) vs.length {(default h1).1} y +
          Function.update (Function.update F y (C + ({b} + T))) vs.length {(default h1).1} vs.length)
        (C + {b} + ({(default h1).1} + T)) := by
      rw [Function.update_self, Function.update_of_ne hxy.symm, Function.update_self, ← ee]
      exact c5
    have I3 := I2.two hxy c6 ga gb (by simp) (by simp; omega) rnew u2
    have el : ((vs.set y (some v1) ++ [some Value.null]).set y (some v')).set vs.length (some e) =
        vs.set y (some v') ++ [some e] := by
      rw [List.set_append_left _ _ (by simpa using hy), List.set_set, List.set_append_right _ _ (by simp)]
      simp
    rw [el] at I3
    refine ⟨N1, _, _, fun n hn => ?_, I3⟩
    have hm : moveCtor h1 b = .ok ((default h1).1, ((default h1).2.put (default h1).1 (.obj ty d)).put b (.obj .null .nullptr)) := by
      unfold moveCtor
      rw [obj_ok g1, Out.ok_bind]
      show Out.ok (h1.next, _) = Out.ok (h1.next, _)
      congr 2
      simp only [Heap.alloc, Heap.put, default, Heap.mk.injEq, and_true]
      funext z
      split_ifs <;> rfl
    simp only [step, k1, Out.ok_bind, k2 n hn, hm]
  | assign x p y q =>
    simp only [vstep] at hv
    obtain ⟨v, hv1, hv⟩ := Out.bind_eq_ok.1 hv
    obtain ⟨e, he, hv⟩ := Out.bind_eq_ok.1 hv
    obtain ⟨v', hv', hv⟩ := Out.bind_eq_ok.1 hv
    obtain ⟨u, hu, hv⟩ := Out.bind_eq_ok.1 hv
    obtain ⟨u', hu', hv⟩ := Out.bind_eq_ok.1 hv
    cases hv
    have hy := (I.get hv1).choose_spec.2.2.2
    by_cases hxy : x = y
    · subst hxy
      have hd : Diverge q p := ha.resolve_left fun h => h rfl
      rw [vvar_set_self hy] at hu
      cases hu
      rw [List.set_set]
      exact assign_same I hd hv1 he hv' hu'
    replace hxy : x ≠ y := hxy
    rw [vvar_set hxy] at hu
    obtain ⟨t, ht⟩ := peek_of_update p u hu'
    obtain ⟨N1, oy, b, h1, ox, a, h2, Fb, Fa, C, D, v1, u1, l1, l2, l3, l4, l5, l6, r1, r2, g1, g2, w1, w2, ow, I2⟩ :=
      I.locate2 hxy hv1 he hu ht
    rw [hv'] at w1; cases w1
    have ow' : Own h2 (Fb + Fa) := by
      have : C + Fb + (D + Fa) = C + D + (Fb + Fa) := by abel
      rw [this] at ow
      exact ow.right
    obtain ⟨N2, h3, Fa', e3, c3, r3⟩ := assign_rep r2 r1 ow'
    have c3' := c3.ctx ow.right
    obtain ⟨w', z1, z2⟩ := g2 h3.cell _ _ (fun z hz => c3.agree ow.right.disj ow.right.left.lt z hz) r3
    rw [hu'] at z1; cases z1
    have I3 := I2.one (x := x) (a := ox) (by rw [Function.update_self]; exact c3') l4
      (by simpa using (I.get hu).choose_spec.2.2.2) z2
    rw [List.set_set] at I3
    refine ⟨max N1 N2, _, _, fun n hn => ?_, I3⟩
    simp only [step, l1, l2, Out.ok_bind, l5 n (by omega), l6 n (by omega), e3 n (by omega)]
  | moveAssign x p y q =>
    simp only [vstep] at hv
    obtain ⟨v, hv1, hv⟩ := Out.bind_eq_ok.1 hv
    obtain ⟨e, he, hv⟩ := Out.bind_eq_ok.1 hv
    obtain ⟨v', hv', hv⟩ := Out.bind_eq_ok.1 hv
    obtain ⟨u, hu, hv⟩ := Out.bind_eq_ok.1 hv
    obtain ⟨u', hu', hv⟩ := Out.bind_eq_ok.1 hv
    cases hv
    have hy := (I.get hv1).choose_spec.2.2.2
    by_cases hxy : x = y
    · subst hxy
      have hd : Diverge q p := ha.resolve_left fun h => h rfl
      rw [vvar_set_self hy] at hu
      cases hu
      rw [List.set_set]
      exact moveAssign_same I hd hv1 he hv' hu'
    replace hxy : x ≠ y := hxy
    rw [vvar_set hxy] at hu
    obtain ⟨t, ht⟩ := peek_of_update p u hu'
    obtain ⟨N1, oy, b, h1, ox, a, h2, Fb, Fa, C, D, v1, u1, l1, l2, l3, l4, l5, l6, r1, r2, g1, g2, w1, w2, ow, I2⟩ :=
      I.locate2 hxy hv1 he hu ht
    have ef : C + Fb + (D + Fa) = C + D + (Fb + Fa) := by abel
    have ow' := ow
    rw [ef] at ow'
    obtain ⟨N2, h3, Fa', e3, c3, r3, r3'⟩ := moveAssign_rep r2 r1 ow'.right
    have c3' := c3.ctx ow'
    have hag : ∀ z ∈ C + D, h3.cell z = h2.cell z := c3.agree ow'.disj ow'.left.lt
    obtain ⟨w', z1, z2⟩ := g2 h3.cell _ _ (fun z hz => hag z (by simp [hz])) r3
    rw [hu'] at z1; cases z1
    obtain ⟨w', z1, z3⟩ := g1 h3.cell _ _ (fun z hz => hag z (by simp [hz])) r3'
    rw [hv'] at z1; cases z1
    have ef' : C + D + ({b} + Fa') = C + {b} + (D + Fa') := by abel
    rw [ef', ← ef] at c3'
    have I3 := I2.two (x := x) (y := y) (a := ox) (b := oy) hxy
      (by rw [Function.update_self, Function.update_of_ne hxy.symm, Function.update_self]; exact c3') l4 l3
      (by simpa using (I.get hu).choose_spec.2.2.2) (by simpa using (I.get hv1).choose_spec.2.2.2) z2 z3
    rw [List.set_comm _ _ hxy, List.set_set, List.set_set] at I3
    refine ⟨max N1 N2, _, _, fun n hn => ?_, I3⟩
    simp only [step, l1, l2, Out.ok_bind, l5 n (by omega), l6 n (by omega), e3 n (by omega)]
  | scalar x p c =>
    simp only [vstep] at hv
    obtain ⟨u, hu, hv⟩ := Out.bind_eq_ok.1 hv
    obtain ⟨u', hu', hv⟩ := Out.bind_eq_ok.1 hv
    cases hv
    obtain ⟨t, ht⟩ := peek_of_update p u hu'
    obtain ⟨N1, o, a, h1, Fa, C, v1, k1, k1', k2, k3, k4, k5, k6, I1⟩ := I.locate hu ht
    have o1 := I1.own x
    rw [Function.update_self] at o1
    obtain ⟨N2, h2, Fa', e2, c2, r2⟩ := assignScalar_rep c k3 o1.right
    have c2' := c2.ctx o1
    obtain ⟨w', z1, z2⟩ := k5 h2.cell _ _ (fun z hz => c2.agree o1.disj o1.left.lt z hz) r2
    rw [hu'] at z1; cases z1
    have I3 := I1.one (x := x) (a := o) (by rw [Function.update_self]; exact c2') k1'
      (by simpa using (I.get hu).choose_spec.2.2.2) z2
    rw [List.set_set] at I3
    refine ⟨max N1 N2, _, _, fun n hn => ?_, I3⟩
    simp only [step, k1, Out.ok_bind, k2 n (by omega), e2 n (by omega)]
  | append x p y q =>
    simp only [vstep] at hv
    obtain ⟨v, hv1, hv⟩ := Out.bind_eq_ok.1 hv
    obtain ⟨e, he, hv⟩ := Out.bind_eq_ok.1 hv
    obtain ⟨v', hv', hv⟩ := Out.bind_eq_ok.1 hv
    obtain ⟨u, hu, hv⟩ := Out.bind_eq_ok.1 hv
    obtain ⟨t, ht, hv⟩ := Out.bind_eq_ok.1 hv
    obtain ⟨u', hu', hv⟩ := Out.bind_eq_ok.1 hv
    cases hv
    have hy := (I.get hv1).choose_spec.2.2.2
    by_cases hxy : x = y
    · subst hxy
      have hd : Diverge q p := ha.resolve_left fun h => h rfl
      rw [vvar_set_self hy] at hu
      cases hu
      rw [List.set_set]
      exact append_same I hd hv1 he hv' ht hu'
    replace hxy : x ≠ y := hxy
    rw [vvar_set hxy] at hu
    obtain ⟨N1, oy, b, h1, ox, a, h2, Fb, Fa, C, D, v1, u1, l1, l2, l3, l4, l5, l6, r1, r2, g1, g2, w1, w2, ow, I2⟩ :=
      I.locate2 hxy hv1 he hu ht
    rw [hv'] at w1; cases w1
    obtain ⟨N2, h3, Fa', e3, c3, r3⟩ := append_rep r2 r1 ow.left.right.lt ow.right.right
    have c3' := c3.ctx ow.right
    obtain ⟨w', z1, z2⟩ := g2 h3.cell _ _ (fun z hz => c3.agree ow.right.disj ow.right.left.lt z hz) r3
    rw [hu'] at z1; cases z1
    have I3 := I2.one (x := x) (a := ox) (by rw [Function.update_self]; exact c3') l4
      (by simpa using (I.get hu).choose_spec.2.2.2) z2
    rw [List.set_set] at I3
    refine ⟨max N1 N2, _, _, fun n hn => ?_, I3⟩
    simp only [step, l1, l2, Out.ok_bind, l5 n (by omega), l6 n (by omega), e3 n (by omega)]
  | destroy x =>
    simp only [vstep] at hv
    obtain ⟨v, hv1, hv⟩ := Out.bind_eq_ok.1 hv
    cases hv
    obtain ⟨o, ho, hg, hr, hy⟩ := I.get hv1
    obtain ⟨N, hN⟩ := destroy_rep hr (I.nodup x)
    refine ⟨N, _, _, fun n hn => ?_, I.pop hg hy⟩
    simp only [step, ho, Out.ok_bind, hN n hn]

theorem run_rep : ∀ (prog : List Stmt) {s : State} {vs vs' : List (Option Value)} {F : Nat → Multiset Nat}, Inv s vs F →
    (∀ c ∈ prog, c.Apart) → vrun vs prog = .ok vs' → ∃ N s' F', (∀ n ≥ N, run n s prog = .ok s') ∧ Inv s' vs' F'
  | [], s, vs, vs', F, I, _, hv => by
    cases hv
    exact ⟨0, s, F, fun n _ => rfl, I⟩
  | c :: prog, s, vs, vs', F, I, ha, hv => by
    unfold vrun at hv
    obtain ⟨vs1, h1, h2⟩ := Out.bind_eq_ok.1 hv
    obtain ⟨N1, s1, F1, e1, I1⟩ := step_rep I (ha c (by simp)) h1
    obtain ⟨N2, s2, F2, e2, I2⟩ := run_rep prog I1 (fun c' hc => ha c' (by simp [hc])) h2
    refine ⟨max N1 N2, s2, F2, fun n hn => ?_, I2⟩
    unfold run
    rw [e1 n (by omega), Out.ok_bind, e2 n (by omega)]

/-- nothing is in use at the start -/
theorem inv_empty : Inv ⟨Heap.empty, []⟩ [] (fun _ => 0) := by
  refine ⟨rfl, fun x => Or.inr ⟨by simp [get], by simp [get], rfl⟩, fun _ => Multiset.nodup_zero, ?_, ?_, ?_, ?_⟩
  · intro x y z _ h
    simp at h
  · intro x z h
    simp at h
  · intro z _
    rfl
  · intro z h
    exact absurd rfl h


theorem run_append (n : Nat) : ∀ (prog : List Stmt) (s : State) (c : Stmt),
    run n s (prog ++ [c]) = (run n s prog >>= fun s => step n s c)
  | [], s, c => by
    simp only [List.nil_append, run, Out.ok_bind]
    cases step n s c <;> rfl
  | d :: prog, s, c => by
    simp only [List.cons_append, run]
    cases h : step n s d with
    | ok s' => simp only [Out.ok_bind]; exact run_append n prog s' c
    | exit => rfl
    | ub => rfl
    | diverge => rfl

/-- An element is not the object itself. -/
theorem hole_ne {h : Heap} {o b : Nat} {v e : Value} {p : List Step} {C F : Multiset Nat} (hp : p ≠ []) (g : Hole h.cell o v p b C)
    (ow : Own h (C + F)) (hr : Rep h.cell b e F) : o ≠ b := by
  rintro rfl
  have hb : o ∉ C := fun hc => ow.disj o hc hr.self_mem
  have r1 : Rep (h.put o (.obj .null .nullptr)).cell o .null ({o} + 0) := Rep.mk (put_same' _ _ _) (.null _)
  obtain ⟨w', u1, u2⟩ := g (h.put o (.obj .null .nullptr)).cell .null _ (fun z hz => put_other _ (by rintro rfl; exact hb hz)) r1
  obtain ⟨rfl, -⟩ := u2.unique r1
  cases p with
  | nil => exact hp rfl
  | cons st p =>
    cases st with
    | key k =>
      obtain ⟨_, _, h2⟩ := update_key u1
      cases h2
    | idx i =>
      obtain ⟨e, he⟩ := peek_of_update _ _ u1
      obtain ⟨h0, hbd, _⟩ := peek_idx he
      obtain ⟨_, _, h2⟩ := update_idx_inv h0 hbd u1
      cases h2

/-- the objects that own memory -/
def owns : Value → Bool
  | .str _ => true
  | .arr _ => true
  | .obj _ => true
  | _ => false

theorem copyData_dead {n : Nat} {h : Heap} {b : Nat} (hb : h.cell b = none) (hn : n ≥ 1) : copyData n h b = .ub := by
  obtain ⟨n, rfl⟩ : ∃ k, n = k + 1 := ⟨n - 1, by omega⟩
  simp only [copyData, Heap.obj, hb]
  rfl

theorem step_own {s : State} {vs : List (Option Value)} {F : Nat → Multiset Nat} (I : Inv s vs F) {x : Nat} {v e : Value}
    {p : List Step} (hp : p ≠ []) (hv : vvar vs x = .ok v) (he : peek p v = .ok e) :
    ∃ N, ∀ n ≥ N, step n s (.assign x [] x p) = .ub ∧ step n s (.moveAssign x [] x p) = .ub := by
  obtain ⟨N1, o, b, h1, Fb, C, v1, k1, k1', k2, k3, k4, k5, k6, I1⟩ := I.locate hv he
  have o1 := k4.own (I.own x)
  have hne := hole_ne hp k5 o1 k3
  obtain ⟨w', u1, u2⟩ := k5 h1.cell e Fb (fun _ _ => rfl) k3
  obtain ⟨ty, d, T, g1, g2, g3⟩ := u2
  have hbT : b ∈ T := by
    have : b ∈ C + Fb := by simp [k3.self_mem]
    rw [g3] at this
    rcases Multiset.mem_add.1 this with h | h
    · exact absurd (Multiset.mem_singleton.1 h).symm hne
    · exact h
  have hn : T.Nodup := by
    have := o1.nodup
    rw [g3] at this
    exact (Multiset.nodup_add.1 this).2.1
  obtain ⟨N2, e2⟩ := g2.clear hn
  have hdead : (h1.freeAll T).cell b = none := by simp [Heap.freeAll, hbT]
  refine ⟨max N1 N2 + 1, fun n hn => ⟨?_, ?_⟩⟩
  · simp only [step, k1, Out.ok_bind, k2 n (by omega), Mem.locate, assign, e2 n (by omega) h1 o (fun _ _ => rfl) g1,
      copyData_dead hdead (show n ≥ 1 by omega)]
    rfl
  · simp only [step, k1, Out.ok_bind, k2 n (by omega), Mem.locate, moveAssign, e2 n (by omega) h1 o (fun _ _ => rfl) g1]
    simp only [Heap.obj, hdead]
    rfl

theorem step_self {s : State} {vs : List (Option Value)} {F : Nat → Multiset Nat} (I : Inv s vs F) {x : Nat} {v : Value}
    (hv : vvar vs x = .ok v) (ho : owns v = true) : ∃ N, ∀ n ≥ N, step n s (.assign x [] x []) = .ub := by
  obtain ⟨o, k1, k1', hr, hx⟩ := I.get hv
  have hn := I.nodup x
  obtain ⟨ty, d, T, g1, g2, g3⟩ := hr
  rw [g3] at hn
  have hoT : o ∉ T := fun hc => Multiset.disjoint_left.1 (Multiset.nodup_add.1 hn).2.2 (by simp) hc
  obtain ⟨N2, e2⟩ := g2.clear (Multiset.nodup_add.1 hn).2.1
  have g1' : (s.heap.freeAll T).cell o = some (.obj ty d) := by rw [freeAll_other hoT, g1]
  refine ⟨N2 + 1, fun n hn => ?_⟩
  have hcopy : copyData n (s.heap.freeAll T) o = .ub := by
    obtain ⟨n, rfl⟩ : ∃ k, n = k + 1 := ⟨n - 1, by omega⟩
    cases g2 with
    | str hp =>
      rename_i p s'
      have : (s.heap.freeAll {p}).cell p = none := by simp [Heap.freeAll]
      simp only [copyData, obj_ok g1', Out.ok_bind, reduceCtorEq, if_false, if_true, Heap.str, this]
      rfl
    | arr hp h =>
      rename_i p as l G
      have : (s.heap.freeAll ({p} + G)).cell p = none := by simp [Heap.freeAll]
      simp only [copyData, obj_ok g1', Out.ok_bind, reduceCtorEq, if_false, if_true, Heap.list, this]
      rfl
    | obj hp hk hs h =>
      rename_i p as m G
      have : (s.heap.freeAll ({p} + G)).cell p = none := by simp [Heap.freeAll]
      simp only [copyData, obj_ok g1', Out.ok_bind, if_true, Heap.map, this]
      rfl
    | _ => simp [owns] at ho
  simp only [step, k1, Out.ok_bind, Mem.locate, assign, e2 n (by omega) s.heap o (fun _ _ => rfl) g1, hcopy]
  rfl

theorem step_self_scalar {s : State} {vs : List (Option Value)} {F : Nat → Multiset Nat} (I : Inv s vs F) {x : Nat} {v : Value}
    (hv : vvar vs x = .ok v) (ho : owns v = false) :
    ∃ N s', (∀ n ≥ N, step n s (.assign x [] x []) = .ok s') ∧ Inv s' vs F := by
  obtain ⟨o, k1, k1', hr, hx⟩ := I.get hv
  have hr0 := hr
  obtain ⟨ty, d, T, g1, g2, g3⟩ := hr
  obtain ⟨hT, hc, ht⟩ : T = 0 ∧ (∀ n ≥ 1, clearData n s.heap o = .ok s.heap) ∧
      ∀ n ≥ 1, copyData n s.heap o = .ok ((ty, d), s.heap) := by
    cases g2 with
    | str hp => simp [owns] at ho
    | arr hp h => simp [owns] at ho
    | obj hp hk hs h => simp [owns] at ho
    | _ =>
      refine ⟨rfl, fun n hn => ?_, fun n hn => ?_⟩
      all_goals
        obtain ⟨n, rfl⟩ : ∃ k, n = k + 1 := ⟨n - 1, by omega⟩
        simp [clearData, copyData, obj_ok g1]
  have hput : s.heap.put o (.obj ty d) = s.heap := by
    have hcell : (s.heap.put o (.obj ty d)).cell = s.heap.cell := by
      funext z
      by_cases h : z = o
      · subst h; rw [put_same', g1]
      · rw [put_other _ h]
    cases hh : s.heap with
    | mk c nx =>
      rw [hh] at hcell
      simp only [Heap.put] at hcell ⊢
      rw [hcell]
  refine ⟨1, s, fun n hn => ?_, I⟩
  simp only [step, k1, Out.ok_bind, Mem.locate, assign, hc n hn, ht n hn, hput]

theorem step_self_move {s : State} {vs : List (Option Value)} {F : Nat → Multiset Nat} (I : Inv s vs F) {x : Nat} {v : Value}
    (hv : vvar vs x = .ok v) :
    ∃ N s' F', (∀ n ≥ N, step n s (.moveAssign x [] x []) = .ok s') ∧ Inv s' (vs.set x (some .null)) F' := by
  obtain ⟨o, k1, k1', hr, hx⟩ := I.get hv
  have ow := I.own x
  obtain ⟨ty, d, T, g1, g2, g3⟩ := hr
  rw [g3] at ow
  obtain ⟨N2, e2⟩ := g2.clear ow.right.nodup
  have hoT : o ∉ T := ow.disj o (by simp)
  have g1' : (s.heap.freeAll T).cell o = some (.obj ty d) := by rw [freeAll_other hoT, g1]
  have c1 : Chg s.heap (s.heap.freeAll T) ({o} + T) {o} := freeAll_chg ow
  have o1 := c1.own ow
  have c2 := put_chg (a := o) (.obj ty d) o1 (by simp)
  have o2 := c2.own o1
  have c3 := put_chg (a := o) (.obj .null .nullptr) o2 (by simp)
  have hc := (c1.trans ow c2).trans ow c3
  rw [← g3] at hc
  have r : Rep (((s.heap.freeAll T).put o (.obj ty d)).put o (.obj .null .nullptr)).cell o .null ({o} + 0) :=
    Rep.mk (put_same' _ _ _) (.null _)
  rw [add_zero] at r
  refine ⟨N2, _, _, fun n hn => ?_, I.one hc k1' hx r⟩
  simp only [step, k1, Out.ok_bind, Mem.locate, moveAssign, e2 n hn s.heap o (fun _ _ => rfl) g1, obj_ok g1']

end Json.Mem
