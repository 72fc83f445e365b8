import Verif.Proof.JsonHeap

/-! # Lemmas about two elements of one `JSONObject` -/

namespace Json.Mem
open Cpp

mutual

theorem RepD.unique {c : Cells} {ty d v T} (h : RepD c ty d v T) {v' : Value} {T' : Multiset Nat} (h' : RepD c ty d v' T') :
    v = v' ∧ T = T' :=
  match h with
  | .null d => by cases h'; simp
  | .bool b => by cases h'; simp
  | .int i => by cases h'; simp
  | .float q => by cases h'; simp
  | .str hp => by
    cases h' with
    | str hp' =>
      rw [hp] at hp'
      cases hp'
      simp
  | .arr hp h => by
    cases h' with
    | arr hp' h'' =>
      rw [hp] at hp'
      cases hp'
      obtain ⟨rfl, rfl⟩ := h.unique h''
      simp
  | .obj (m := m) hp hk hs h => by
    cases h' with
    | obj hp' hk' hs' h'' =>
      rename_i m' G'
      rw [hp] at hp'
      cases hp'
      obtain ⟨e1, rfl⟩ := h.unique h''
      have e2 := hk.symm.trans hk'
      have : m = m' := by
        have h1 := List.zip_of_prod (l := m.map Prod.fst) (l' := m.map Prod.snd) (xs := m) rfl rfl
        have h2 := List.zip_of_prod (l := m'.map Prod.fst) (l' := m'.map Prod.snd) (xs := m') rfl rfl
        rw [h1, h2, e1, e2]
      subst this
      simp

theorem RepL.unique {c : Cells} {as l G} (h : RepL c as l G) {l' : List Value} {G' : Multiset Nat} (h' : RepL c as l' G') :
    l = l' ∧ G = G' :=
  match h with
  | .nil => by cases h'; simp
  | .cons ha h hl => by
    cases h' with
    | cons ha' h'' hl' =>
      rw [ha] at ha'
      cases ha'
      obtain ⟨rfl, rfl⟩ := h.unique h''
      obtain ⟨rfl, rfl⟩ := hl.unique hl'
      simp

end

theorem Rep.unique {c : Cells} {o v F v' F'} (h : Rep c o v F) (h' : Rep c o v' F') : v = v' ∧ F = F' := by
  obtain ⟨ty, d, T, h1, h2, rfl⟩ := h
  obtain ⟨ty', d', T', h1', h2', rfl⟩ := h'
  rw [h1] at h1'
  cases h1'
  obtain ⟨rfl, rfl⟩ := h2.unique h2'
  simp

/-! ### Two elements of a list -/

theorem RepL.hole2 {c : Cells} : ∀ {as : List Nat} {l : List Value} {G : Multiset Nat}, RepL c as l G →
    ∀ (i j : Nat) (hi : i < as.length) (hj : j < as.length), i ≠ j → ∃ Fa Fb C, Rep c as[i] (l.getD i .null) Fa ∧
      Rep c as[j] (l.getD j .null) Fb ∧ G = C + Fa + Fb ∧
      ∀ (c'' : Cells) w Fw u Fu, (∀ z ∈ C, c'' z = c z) → Rep c'' as[i] w Fw → Rep c'' as[j] u Fu →
        RepL c'' as ((l.set i w).set j u) (C + Fw + Fu)
  | [], l, G, _, i, _, hi, _, _ => by simp at hi
  | a :: as, [], G, h, _, _, _, _, _ => by cases h
  | a :: as, v :: l, G, h, i, j, hi, hj, hij => by
    obtain ⟨F0, G', h1, h2, rfl⟩ := repL_cons_iff h
    cases i with
    | zero =>
      cases j with
      | zero => exact absurd rfl hij
      | succ j =>
        obtain ⟨F1, C, r1, rfl, hh⟩ := h2.hole j (by simpa using hj)
        refine ⟨F0, F1, C, by simpa using h1, by simpa using r1, by abel, fun c'' w Fw u Fu hf hw hu => ?_⟩
        have := RepL.cons' hw (hh c'' u Fu hf (by simpa using hu))
        have e : C + Fw + Fu = Fw + (C + Fu) := by abel
        rw [e]
        simpa using this
    | succ i =>
      cases j with
      | zero =>
        obtain ⟨F1, C, r1, rfl, hh⟩ := h2.hole i (by simpa using hi)
        refine ⟨F1, F0, C, by simpa using r1, by simpa using h1, by abel, fun c'' w Fw u Fu hf hw hu => ?_⟩
        have := RepL.cons' hu (hh c'' w Fw hf (by simpa using hw))
        have e : C + Fw + Fu = Fu + (C + Fw) := by abel
        rw [e]
        simpa using this
      | succ j =>
        obtain ⟨F1, F2, C, r1, r2, rfl, hh⟩ := h2.hole2 i j (by simpa using hi) (by simpa using hj) (by omega)
        refine ⟨F1, F2, F0 + C, by simpa using r1, by simpa using r2, by abel, fun c'' w Fw u Fu hf hw hu => ?_⟩
        have := RepL.cons' (h1.frame fun z hz => hf z (by simp [hz]))
          (hh c'' w Fw u Fu (fun z hz => hf z (by simp [hz])) (by simpa using hw) (by simpa using hu))
        have e : F0 + C + Fw + Fu = F0 + (C + Fw + Fu) := by abel
        rw [e]
        simpa using this

theorem mapAt_cons_ne {k k' : Str} {v : Value} {m : List (Str × Value)} (h : k ≠ k') : mapAt ((k', v) :: m) k = mapAt m k := by
  unfold mapAt
  rw [List.lookup_cons]
  have : (k == k') = false := by simpa using h
  rw [this]

theorem mapAt_put (k k' : Str) (w : Value) (m : List (Str × Value)) : mapAt (put k w m) k' = if k' = k then w else mapAt m k' := by
  unfold mapAt
  rw [lookup_put]
  split_ifs <;> rfl

/-- the address of a key -/
def addr (k : Str) (as : List (Str × Nat)) : Option Nat := (find k as).2.1

theorem addr_cons (k k' : Str) (b : Nat) (as : List (Str × Nat)) :
    addr k ((k', b) :: as) = if k = k' then some b else if k < k' then none else addr k as := by
  unfold addr
  rw [find]
  split_ifs <;> rfl

theorem find_addr {k : Str} {as : List (Str × Nat)} {a : Nat} (h : addr k as = some a) : ∃ x y, find k as = (x, some a, y) :=
  ⟨(find k as).1, (find k as).2.2, by rw [← h]; rfl⟩

theorem addr_insert : ∀ {k : Str} {as x y : List (Str × Nat)} (a : Nat), find k as = (x, none, y) →
    addr k (x ++ (k, a) :: y) = some a ∧ ∀ k0 b, k0 ≠ k → addr k0 as = some b → addr k0 (x ++ (k, a) :: y) = some b
  | k, [], x, y, a, h => by
    simp only [find, Prod.mk.injEq, true_and] at h
    obtain ⟨rfl, rfl⟩ := h
    refine ⟨by simp [addr_cons], fun k0 b _ h => ?_⟩
    simp [addr, find] at h
  | k, (k', c) :: as, x, y, a, h => by
    unfold find at h
    by_cases e1 : k = k'
    · rw [if_pos e1] at h; simp at h
    rw [if_neg e1] at h
    by_cases e2 : k < k'
    · rw [if_pos e2] at h
      simp only [Prod.mk.injEq, true_and] at h
      obtain ⟨rfl, rfl⟩ := h
      refine ⟨by simp [addr_cons], fun k0 b hk h => ?_⟩
      rw [List.nil_append, addr_cons, if_neg hk, if_neg, h]
      intro hlt
      rw [addr_cons] at h
      have h3 := List.lt_trans hlt e2
      rw [if_neg, if_pos h3] at h
      · cases h
      · rintro rfl; exact List.lt_irrefl _ h3
    · rw [if_neg e2] at h
      rcases hff : find k as with ⟨x', r, y'⟩
      rw [hff] at h
      simp only [Prod.mk.injEq] at h
      obtain ⟨rfl, rfl, rfl⟩ := h
      obtain ⟨g1, g2⟩ := addr_insert a hff
      refine ⟨by rw [List.cons_append, addr_cons, if_neg e1, if_neg e2, g1], fun k0 b hk h => ?_⟩
      rw [addr_cons] at h
      rw [List.cons_append, addr_cons]
      split_ifs at h ⊢ with h1 h2
      · exact h
      · exact g2 k0 b hk h

theorem find_two {c : Cells} {k k' : Str} (hkk : k ≠ k') : ∀ {as : List (Str × Nat)} {m : List (Str × Value)} {G : Multiset Nat}
    {a a' : Nat}, RepL c (as.map Prod.snd) (m.map Prod.snd) G → as.map Prod.fst = m.map Prod.fst →
    addr k as = some a → addr k' as = some a' → ∃ Fa Fb C, Rep c a (mapAt m k) Fa ∧ Rep c a' (mapAt m k') Fb ∧
      G = C + Fa + Fb ∧
      ∀ (c'' : Cells) w Fw u Fu, (∀ z ∈ C, c'' z = c z) → Rep c'' a w Fw → Rep c'' a' u Fu →
        RepL c'' (as.map Prod.snd) ((put k' u (put k w m)).map Prod.snd) (C + Fw + Fu) ∧
        (put k' u (put k w m)).map Prod.fst = m.map Prod.fst
  | [], m, G, a, a', _, _, hf, _ => by simp [addr, find] at hf
  | (k0, b) :: as, [], G, a, a', h, _, _, _ => by cases h
  | (k0, b) :: as, (k1, v) :: m, G, a, a', h, hk, hf, hf' => by
    simp only [List.map_cons, List.cons.injEq] at hk
    obtain ⟨rfl, hk⟩ := hk
    obtain ⟨F0, G', h1, h2, rfl⟩ := repL_cons_iff h
    rw [addr_cons] at hf hf'
    by_cases e1 : k = k0
    · subst e1
      rw [if_pos rfl] at hf
      cases hf
      rw [if_neg (Ne.symm hkk)] at hf'
      by_cases e2 : k' < k
      · rw [if_pos e2] at hf'; cases hf'
      rw [if_neg e2] at hf'
      obtain ⟨x, y, hx⟩ := find_addr hf'
      obtain ⟨F1, C, r1, rfl, hh⟩ := find_some h2 hk hx
      refine ⟨F0, F1, C, by simpa [mapAt] using h1, by rw [mapAt_cons_ne (Ne.symm hkk)]; exact r1, by abel,
        fun c'' w Fw u Fu hc hw hu => ?_⟩
      obtain ⟨g1, g2⟩ := hh c'' u Fu hc hu
      simp only [put, if_true, if_neg (Ne.symm hkk), if_neg e2, List.map_cons, g2]
      refine ⟨?_, trivial⟩
      have e : C + Fw + Fu = Fw + (C + Fu) := by abel
      rw [e]
      exact RepL.cons' hw g1
    · rw [if_neg e1] at hf
      by_cases e2 : k < k0
      · rw [if_pos e2] at hf; cases hf
      rw [if_neg e2] at hf
      by_cases e3 : k' = k0
      · subst e3
        rw [if_pos rfl] at hf'
        cases hf'
        obtain ⟨x, y, hx⟩ := find_addr hf
        obtain ⟨F1, C, r1, rfl, hh⟩ := find_some h2 hk hx
        refine ⟨F1, F0, C, by rw [mapAt_cons_ne hkk]; exact r1, by simpa [mapAt] using h1, by abel,
          fun c'' w Fw u Fu hc hw hu => ?_⟩
        obtain ⟨g1, g2⟩ := hh c'' w Fw hc hw
        simp only [put, if_true, if_neg e1, if_neg e2, List.map_cons, g2]
        refine ⟨?_, trivial⟩
        have e : C + Fw + Fu = Fu + (C + Fw) := by abel
        rw [e]
        exact RepL.cons' hu g1
      · rw [if_neg e3] at hf'
        by_cases e4 : k' < k0
        · rw [if_pos e4] at hf'; cases hf'
        rw [if_neg e4] at hf'
        obtain ⟨F1, F2, C, r1, r2, rfl, hh⟩ := find_two hkk h2 hk hf hf'
        refine ⟨F1, F2, F0 + C, by rw [mapAt_cons_ne e1]; exact r1, by rw [mapAt_cons_ne e3]; exact r2, by abel,
          fun c'' w Fw u Fu hc hw hu => ?_⟩
        obtain ⟨g1, g2⟩ := hh c'' w Fw u Fu (fun z hz => hc z (by simp [hz])) hw hu
        simp only [put, if_neg e1, if_neg e2, if_neg e3, if_neg e4, List.map_cons, g2]
        refine ⟨?_, trivial⟩
        have e : F0 + C + Fw + Fu = F0 + (C + Fw + Fu) := by abel
        rw [e]
        exact RepL.cons' (h1.frame fun z hz => hc z (by simp [hz])) g1

/-! ### The subscript of an object -/

/-- `o` is an object with the map `m`. -/
structure IsObj (c : Cells) (o : Nat) (m : List (Str × Value)) (p : Nat) (as : List (Str × Nat)) (G : Multiset Nat) : Prop where
  obj : c o = some (.obj .object (.ptr p))
  map : c p = some (.map as)
  keys : as.map Prod.fst = m.map Prod.fst
  sorted : m.Pairwise fun a b => a.1 < b.1
  rep : RepL c (as.map Prod.snd) (m.map Prod.snd) G

theorem IsObj.toRep {c : Cells} {o m p as G} (h : IsObj c o m p as G) : Rep c o (.obj m) ({o} + ({p} + G)) :=
  Rep.mk h.obj (.obj h.map h.keys ((sorted_iff m).2 h.sorted) h.rep)

theorem Rep.toIsObj {c : Cells} {o m F} (h : Rep c o (.obj m) F) : ∃ p as G, IsObj c o m p as G ∧ F = {o} + ({p} + G) := by
  obtain ⟨p, as, G, q1, q2, q3, q4, q5, rfl⟩ := rep_obj h
  exact ⟨p, as, G, ⟨q1, q2, q3, (sorted_iff m).1 q4, q5⟩, rfl⟩

theorem IsObj.frame {c c' : Cells} {o m p as G} (h : IsObj c o m p as G) (hc : ∀ z ∈ ({o} + ({p} + G) : Multiset Nat), c' z = c z) :
    IsObj c' o m p as G :=
  ⟨by rw [hc o (by simp), h.obj], by rw [hc p (by simp), h.map], h.keys, h.sorted, h.rep.frame fun z hz => hc z (by simp [hz])⟩

theorem setType_same {n : Nat} {h : Heap} {o : Nat} {ty : Ty} {d : Data} (ho : h.cell o = some (.obj ty d)) :
    setType n h o ty = .ok h := by
  unfold setType
  rw [obj_ok ho, Out.ok_bind]
  simp only [if_true]

theorem key_isObj {h : Heap} {o p : Nat} {as : List (Str × Nat)} (k : Str) (n : Nat)
    (ho : h.cell o = some (.obj .object (.ptr p))) (hp : h.cell p = some (.map as)) :
    key n h o k = .ok (entry h p k (find k as)) := by
  simp only [key, setType_same ho, Out.ok_bind, obj_ok ho, map_ok hp]

theorem key_obj {h : Heap} {o p : Nat} {m : List (Str × Value)} {as : List (Str × Nat)} {G : Multiset Nat} (k : Str)
    (hi : IsObj h.cell o m p as G) (ow : Own h ({o} + ({p} + G))) :
    ∃ a h' as' G', (∀ n, key n h o k = .ok (a, h')) ∧ IsObj h'.cell o (put k (mapAt m k) m) p as' G' ∧
      Chg h h' ({o} + ({p} + G)) ({o} + ({p} + G')) ∧ addr k as' = some a ∧
      (∀ k0 b, k0 ≠ k → addr k0 as = some b → addr k0 as' = some b) ∧ ∀ z ∈ G, h'.cell z = h.cell z := by
  have hop : p ≠ o := by
    rintro rfl
    exact ow.disj p (by simp) (by simp)
  have hpG : p ∉ G := ow.right.disj p (by simp)
  have hk := fun n => key_isObj k n hi.obj hi.map
  rcases hf : find k as with ⟨x, r, y⟩
  rw [hf] at hk
  cases r with
  | some a =>
    obtain ⟨Fa, C, g1, g0, g2⟩ := find_some hi.rep hi.keys hf
    obtain ⟨k1, k2⟩ := g2 h.cell _ _ (fun _ _ => rfl) g1
    have ha : addr k as = some a := by unfold addr; rw [hf]
    refine ⟨a, h, as, G, hk, ⟨hi.obj, hi.map, hi.keys.trans k2.symm, put_sorted _ _ hi.sorted, ?_⟩, Chg.refl ow, ha,
      fun _ _ _ h => h, fun _ _ => rfl⟩
    rw [g0]
    exact k1
  | none =>
    obtain ⟨g1, g2⟩ := find_none hi.rep hi.keys ((sorted_iff m).2 hi.sorted) hf
    obtain ⟨x2, r2⟩ := default_rep h
    have c2 := x2.chg ow
    have o2 := c2.own ow
    have c3 := put_chg (a := p) (.map (x ++ (k, (default h).1) :: y)) o2 (by simp)
    have hne : ∀ z ∈ ({o} + ({p} + G) : Multiset Nat), z ≠ (default h).1 := fun z hz => (ow.lt z hz).ne
    have hG : ∀ z ∈ G, ((default h).2.put p (.map (x ++ (k, (default h).1) :: y))).cell z = h.cell z := fun z hz => by
      rw [put_other, x2.same]
      · simpa using hne z (by simp [hz])
      · rintro rfl; exact hpG hz
    have rn : Rep ((default h).2.put p (.map (x ++ (k, (default h).1) :: y))).cell (default h).1 .null {(default h).1} := by
      refine r2.frame fun z hz => put_other _ ?_
      rw [Multiset.mem_singleton.1 hz]
      exact (hne p (by simp)).symm
    obtain ⟨k1, k2⟩ := g2 _ _ _ _ hG rn
    have ef : ({o} + ({p} + G) + {(default h).1} : Multiset Nat) = {o} + ({p} + (G + {(default h).1})) := by abel
    rw [ef] at c2 c3
    obtain ⟨i1, i2⟩ := addr_insert (default h).1 hf
    refine ⟨(default h).1, (default h).2.put p (.map (x ++ (k, (default h).1) :: y)), x ++ (k, (default h).1) :: y,
      G + {(default h).1}, hk, ⟨?_, put_same' _ _ _, ?_, put_sorted _ _ hi.sorted, ?_⟩, c2.trans ow c3, i1, i2, hG⟩
    · rw [put_other _ hop.symm, x2.same, hi.obj]
      simpa using hne o (by simp)
    · rw [g1]; exact k2
    · rw [g1]; exact k1

/-- finding a key that is there -/
theorem key_again {h : Heap} {o p : Nat} {as : List (Str × Nat)} {k : Str} {a : Nat} (n : Nat)
    (ho : h.cell o = some (.obj .object (.ptr p))) (hp : h.cell p = some (.map as)) (ha : addr k as = some a) :
    key n h o k = .ok (a, h) := by
  obtain ⟨x, y, hf⟩ := find_addr ha
  rw [key_isObj k n ho hp, hf]
  rfl

theorem key_full {h : Heap} {o : Nat} {v : Value} {F : Multiset Nat} (k : Str) (hr : Rep h.cell o v F) (ow : Own h F) :
    ∃ N a h' p as G, (∀ n ≥ N, key n h o k = .ok (a, h')) ∧
      IsObj h'.cell o (put k (mapAt (asObj v) k) (asObj v)) p as G ∧ Chg h h' F ({o} + ({p} + G)) ∧ addr k as = some a := by
  obtain ⟨N, h1, F1, e1, c1, r1⟩ := setType_rep .object hr ow
  rw [ite_obj] at r1
  have o1 := c1.own ow
  obtain ⟨p, as, G, hi, rfl⟩ := r1.toIsObj
  obtain ⟨a, h2, as', G', g1, g2, g3, g4, _, _⟩ := key_obj k hi o1
  refine ⟨N, a, h2, p, as', G', fun n hn => ?_, g2, c1.trans ow g3, g4⟩
  rw [← g1 n]
  simp only [key, e1 n hn, setType_same hi.obj, Out.ok_bind]

theorem asObj_sorted {c : Cells} {o v F} (h : Rep c o v F) : (asObj v).Pairwise fun a b => a.1 < b.1 := by
  cases v with
  | obj m =>
    obtain ⟨_, _, _, hi, _⟩ := h.toIsObj
    exact hi.sorted
  | _ => exact List.Pairwise.nil

theorem put_put {k : Str} {u w : Value} {m : List (Str × Value)} (hs : m.Pairwise fun a b => a.1 < b.1) :
    put k w (put k u m) = put k w m := by
  refine sorted_ext (put_sorted _ _ (put_sorted _ _ hs)) (put_sorted _ _ hs) fun k0 v0 => ?_
  rw [put_mem _ _ (put_sorted _ _ hs), put_mem _ _ hs, put_mem _ _ hs]
  tauto

/-! ### The subscript of an array -/

structure IsArr (c : Cells) (o : Nat) (l : List Value) (p : Nat) (as : List Nat) (G : Multiset Nat) : Prop where
  obj : c o = some (.obj .array (.ptr p))
  list : c p = some (.list as)
  rep : RepL c as l G

theorem IsArr.toRep {c : Cells} {o m p as G} (h : IsArr c o m p as G) : Rep c o (.arr m) ({o} + ({p} + G)) :=
  Rep.mk h.obj (.arr h.list h.rep)

theorem Rep.toIsArr {c : Cells} {o m F} (h : Rep c o (.arr m) F) : ∃ p as G, IsArr c o m p as G ∧ F = {o} + ({p} + G) := by
  obtain ⟨p, as, G, q1, q2, q5, rfl⟩ := rep_arr h
  exact ⟨p, as, G, ⟨q1, q2, q5⟩, rfl⟩

theorem index_arr {h : Heap} {o p : Nat} {l : List Value} {as : List Nat} {G : Multiset Nat} (i : Int) (h0 : 0 ≤ i)
    (hb : i ≥ l.length → Cpp.int (i + 1) = .ok (i + 1))
    (hi : IsArr h.cell o l p as G) (ow : Own h ({o} + ({p} + G))) :
    ∃ a h' as' G', (∀ n, index n h o i = .ok (a, h')) ∧ IsArr h'.cell o (extTo i l) p as' G' ∧
      Chg h h' ({o} + ({p} + G)) ({o} + ({p} + G')) ∧ as'[i.toNat]? = some a ∧
      (∀ (j : Nat) b, as[j]? = some b → as'[j]? = some b) ∧ ∀ z ∈ G, h'.cell z = h.cell z := by
  have hop : p ≠ o := by
    rintro rfl
    exact ow.disj p (by simp) (by simp)
  have hpG : p ∉ G := ow.right.disj p (by simp)
  have hlen := hi.rep.length
  by_cases hc : i ≥ as.length
  · obtain ⟨T, x2, r2⟩ := defaults_rep ((i + 1).toNat - as.length) h
    have c2 := x2.chg ow
    have o2 := c2.own ow
    have c3 := put_chg (a := p) (.list (as ++ (defaults ((i + 1).toNat - as.length) h).1)) o2 (by simp)
    have hne : ∀ z ∈ ({o} + ({p} + G) : Multiset Nat), z ∉ T := o2.disj
    have hl2 := r2.length
    rw [List.length_replicate] at hl2
    have hin : i.toNat < (as ++ (defaults ((i + 1).toNat - as.length) h).1).length := by
      rw [List.length_append]; omega
    have ef : ({o} + ({p} + G) + T : Multiset Nat) = {o} + ({p} + (G + T)) := by abel
    rw [ef] at c2 c3
    have hG : ∀ z ∈ G, ((defaults ((i + 1).toNat - as.length) h).2.put p
        (.list (as ++ (defaults ((i + 1).toNat - as.length) h).1))).cell z = h.cell z := fun z hz => by
      rw [put_other, x2.same _ (hne z (by simp [hz]))]
      rintro rfl; exact hpG hz
    refine ⟨(as ++ (defaults ((i + 1).toNat - as.length) h).1)[i.toNat], (defaults ((i + 1).toNat - as.length) h).2.put p
        (.list (as ++ (defaults ((i + 1).toNat - as.length) h).1)), as ++ (defaults ((i + 1).toNat - as.length) h).1,
        G + T, fun n => ?_, ⟨?_, put_same' _ _ _, ?_⟩, c2.trans ow c3, List.getElem?_eq_getElem hin, ?_, hG⟩
    · have hb' := hb (by omega)
      simp only [index, setType_same hi.obj, Out.ok_bind, obj_ok hi.obj, list_ok hi.list, if_pos hc, hb']
      rw [if_neg (by omega), dif_pos hin]
    · rw [put_other _ hop.symm, x2.same _ (hne o (by simp)), hi.obj]
    · unfold extTo
      rw [if_pos (by omega), ← hlen]
      refine RepL.append (hi.rep.frame hG) (r2.frame fun z hz => put_other _ ?_)
      rintro rfl; exact hne z (by simp) hz
    · intro j b hj
      have hlt : j < as.length := by
        by_contra hcc
        rw [List.getElem?_eq_none (by omega)] at hj
        cases hj
      rw [List.getElem?_append_left hlt, hj]
  · have hin : i.toNat < as.length := by omega
    refine ⟨as[i.toNat], h, as, G, fun n => ?_, ⟨hi.obj, hi.list, ?_⟩, Chg.refl ow, List.getElem?_eq_getElem hin,
      fun _ _ h => h, fun _ _ => rfl⟩
    · simp only [index, setType_same hi.obj, Out.ok_bind, obj_ok hi.obj, list_ok hi.list, if_neg hc]
      rw [if_neg (by omega), dif_pos hin]
    · unfold extTo
      rw [if_neg (by omega)]
      exact hi.rep

theorem index_again {h : Heap} {o p : Nat} {as : List Nat} {i : Int} {a : Nat} (n : Nat) (h0 : 0 ≤ i)
    (ho : h.cell o = some (.obj .array (.ptr p))) (hp : h.cell p = some (.list as)) (ha : as[i.toNat]? = some a) :
    index n h o i = .ok (a, h) := by
  have hlt : i.toNat < as.length := by
    by_contra hcc
    rw [List.getElem?_eq_none (by omega)] at ha
    cases ha
  rw [List.getElem?_eq_getElem hlt] at ha
  cases ha
  simp only [index, setType_same ho, Out.ok_bind, obj_ok ho, list_ok hp]
  rw [if_neg (by omega)]
  simp only [Out.ok_bind]
  rw [if_neg (by omega), dif_pos hlt]

theorem index_full {h : Heap} {o : Nat} {v : Value} {F : Multiset Nat} (i : Int) (h0 : 0 ≤ i)
    (hb : i ≥ (asArr v).length → Cpp.int (i + 1) = .ok (i + 1)) (hr : Rep h.cell o v F) (ow : Own h F) :
    ∃ N a h' p as G, (∀ n ≥ N, index n h o i = .ok (a, h')) ∧
      IsArr h'.cell o (extTo i (asArr v)) p as G ∧ Chg h h' F ({o} + ({p} + G)) ∧ as[i.toNat]? = some a := by
  obtain ⟨N, h1, F1, e1, c1, r1⟩ := setType_rep .array hr ow
  rw [ite_arr] at r1
  have o1 := c1.own ow
  obtain ⟨p, as, G, hi, rfl⟩ := r1.toIsArr
  obtain ⟨a, h2, as', G', g1, g2, g3, g4, _, _⟩ := index_arr i h0 hb hi o1
  refine ⟨N, a, h2, p, as', G', fun n hn => ?_, g2, c1.trans ow g3, g4⟩
  rw [← g1 n]
  simp only [index, e1 n hn, setType_same hi.obj, Out.ok_bind]


/-! ### Two elements -/

/-- Two places inside an object. -/
def Hole2 (c : Cells) (o : Nat) (v : Value) (q p : List Step) (b a : Nat) (C : Multiset Nat) : Prop :=
  ∀ (c'' : Cells) wb Fb wa Fa, (∀ z ∈ C, c'' z = c z) → Rep c'' b wb Fb → Rep c'' a wa Fa →
    ∃ v1 v2, update wb q v = .ok v1 ∧ update wa p v1 = .ok v2 ∧ Rep c'' o v2 (C + (Fb + Fa))

/-- What two accesses, first `q` and then `p`, do. -/
def Two (h : Heap) (o : Nat) (v : Value) (q p : List Step) (e t : Value) (F : Multiset Nat) : Prop :=
  ∃ N b h1 a h2 Fb Fa F1 C, (∀ n ≥ N, locate n h o q = .ok (b, h1)) ∧ (∀ n ≥ N, locate n h1 o p = .ok (a, h2)) ∧
    Chg h h1 F F1 ∧ Rep h2.cell b e Fb ∧ Rep h2.cell a t Fa ∧ Chg h h2 F (C + (Fb + Fa)) ∧ Hole2 h2.cell o v q p b a C

theorem two_keys {h : Heap} {o : Nat} {v e t w : Value} {F : Multiset Nat} {k k' : Str} {q p : List Step} (hk : k ≠ k')
    (hr : Rep h.cell o v F) (ow : Own h F) (he : peek q (mapAt (asObj v) k) = .ok e)
    (hw : update e q (mapAt (asObj v) k) = .ok w) (ht : peek p (mapAt (asObj v) k') = .ok t) :
    Two h o v (.key k :: q) (.key k' :: p) e t F := by
  have hs := asObj_sorted hr
  obtain ⟨N1, a1, h1, r, as, G, e1, i1, c1, d1⟩ := key_full k hr ow
  have o1 := c1.own ow
  generalize hm : asObj v = m at *
  obtain ⟨x1, y1, f1⟩ := find_addr d1
  obtain ⟨F1, C1, g1, rfl, g2⟩ := find_some i1.rep i1.keys f1
  rw [mapAt_put, if_pos rfl] at g1
  have ef1 : ({o} + ({r} + (C1 + F1)) : Multiset Nat) = {o} + {r} + C1 + F1 := by abel
  have o1' := o1
  rw [ef1] at o1'
  obtain ⟨N2, b, h2, Fb, C2, e2, r2, c2, hole2⟩ := locate_rep q g1 o1'.right he
  have c2' := c2.ctx o1'
  have o2 := c2'.own o1'
  obtain ⟨w', u1, r2'⟩ := hole2 h2.cell e Fb (fun _ _ => rfl) r2
  rw [hw] at u1
  cases u1
  have ag2 : ∀ z ∈ ({o} + {r} + C1 : Multiset Nat), h2.cell z = h1.cell z := c2.agree o1'.disj o1'.left.lt
  obtain ⟨k1, k2⟩ := g2 h2.cell w _ (fun z hz => ag2 z (by simp [hz])) r2'
  have i2 : IsObj h2.cell o (put k w (put k (mapAt m k) m)) r as (C1 + (C2 + Fb)) :=
    ⟨by rw [ag2 o (by simp), i1.obj], by rw [ag2 r (by simp), i1.map], i1.keys.trans k2.symm,
      put_sorted _ _ (put_sorted _ _ hs), k1⟩
  rw [put_put hs] at i2
  have ef2 : ({o} + {r} + C1 + (C2 + Fb) : Multiset Nat) = {o} + ({r} + (C1 + (C2 + Fb))) := by abel
  have o2' := o2
  rw [ef2] at o2'
  obtain ⟨a2, h3, as3, G3, e3, i3, c3, d3, d3', ag3⟩ := key_obj k' i2 o2'
  have o3 := c3.own o2'
  rw [mapAt_put, if_neg (Ne.symm hk)] at i3
  obtain ⟨Fa1, Fa2, Cc, t1, t2, rfl, t3⟩ := find_two hk i3.rep i3.keys (d3' k a1 hk d1) d3
  rw [mapAt_put, if_neg hk, mapAt_put, if_pos rfl] at t1
  rw [mapAt_put, if_pos rfl] at t2
  have r3 : Rep h3.cell a1 w (C2 + Fb) := r2'.frame fun z hz => ag3 z (by simp at hz ⊢; tauto)
  obtain ⟨-, rfl⟩ := t1.unique r3
  have ef3 : ({o} + ({r} + (Cc + (C2 + Fb) + Fa2)) : Multiset Nat) = {o} + {r} + Cc + C2 + Fb + Fa2 := by abel
  have o3' := o3
  rw [ef3] at o3'
  obtain ⟨N4, a, h4, Fa, C4, e4, r4, c4, hole4⟩ := locate_rep p t2 o3'.right ht
  have c4' := c4.ctx o3'
  have o4 := c4'.own o3'
  have ag4 : ∀ z ∈ ({o} + {r} + Cc + C2 + Fb : Multiset Nat), h4.cell z = h3.cell z := c4.agree o3'.disj o3'.left.lt
  have ag23 : ∀ z ∈ C2 + Fb, h3.cell z = h2.cell z := fun z hz => ag3 z (by simp at hz ⊢; tauto)
  have ef4 : ({o} + {r} + Cc + C2 + Fb + (C4 + Fa) : Multiset Nat) = {o} + {r} + Cc + C2 + C4 + (Fb + Fa) := by abel
  refine ⟨max N1 (max N2 N4), b, h2, a, h4, Fb, Fa, {o} + {r} + C1 + (C2 + Fb), {o} + {r} + Cc + C2 + C4, fun n hn => ?_,
    fun n hn => ?_, ?_, ?_, r4, ?_, ?_⟩
  · unfold locate
    rw [e1 n (by omega), Out.ok_bind]
    exact e2 n (by omega)
  · unfold locate
    rw [e3 n, Out.ok_bind]
    exact e4 n (by omega)
  · rw [ef1] at c1
    exact c1.trans ow c2'
  · exact r2.frame fun z hz => by
      rw [ag4 z (by simp [hz]), ag23 z (by simp [hz])]
  · rw [ef1] at c1
    rw [← ef2, ef3] at c3
    rw [ef4] at c4'
    exact ((c1.trans ow c2').trans ow c3).trans ow c4'
  · intro c'' wb Fwb wa Fwa hc hb ha
    obtain ⟨w1, u1, s1⟩ := hole2 c'' wb Fwb (fun z hz => by
      rw [hc z (by simp [hz]), ag4 z (by simp [hz]), ag23 z (by simp [hz])]) hb
    obtain ⟨w2, u2, s2⟩ := hole4 c'' wa Fwa (fun z hz => hc z (by simp [hz])) ha
    obtain ⟨s3, s4⟩ := t3 c'' w1 _ w2 _ (fun z hz => by rw [hc z (by simp [hz]), ag4 z (by simp [hz])]) s1 s2
    have hs3 := i3.sorted
    have em : put k' w2 (put k w1 (put k' (mapAt m k') (put k w m))) = put k' w2 (put k w1 m) := by
      refine sorted_ext (put_sorted _ _ (put_sorted _ _ hs3)) (put_sorted _ _ (put_sorted _ _ hs)) fun k0 v0 => ?_
      rw [put_mem _ _ (put_sorted _ _ hs3), put_mem _ _ hs3, put_mem _ _ (put_sorted _ _ hs), put_mem _ _ hs,
        put_mem _ _ (put_sorted _ _ hs), put_mem _ _ hs]
      tauto
    refine ⟨.obj (put k w1 m), .obj (put k' w2 (put k w1 m)), ?_, ?_, ?_⟩
    · unfold update
      rw [hm, u1]
      rfl
    · unfold update
      simp only [asObj]
      rw [mapAt_put, if_neg (Ne.symm hk), u2]
      rfl
    · have ee : ({o} + {r} + Cc + C2 + C4 + (Fwb + Fwa) : Multiset Nat) = {o} + ({r} + (Cc + (C2 + Fwb) + (C4 + Fwa))) := by
        abel
      rw [ee, ← em]
      refine IsObj.toRep (as := as3) ⟨?_, ?_, i3.keys.trans s4.symm, ?_, s3⟩
      · rw [hc o (by simp), ag4 o (by simp), i3.obj]
      · rw [hc r (by simp), ag4 r (by simp), i3.map]
      · exact put_sorted _ _ (put_sorted _ _ hs3)

theorem extTo_length (i : Int) (l : List Value) : (extTo i l).length = max l.length (i + 1).toNat := by
  unfold extTo
  split_ifs <;> simp <;> omega

theorem extTo_set (j : Int) (l : List Value) (i : Nat) (w : Value) (hi : i < l.length) :
    extTo j (l.set i w) = (extTo j l).set i w := by
  unfold extTo
  rw [List.length_set]
  split_ifs
  · rw [List.set_append_left _ _ hi]
  · rfl

theorem getD_set_ne (l : List Value) {i j : Nat} (w : Value) (h : i ≠ j) : (l.set i w).getD j .null = l.getD j .null := by
  rw [List.getD_eq_getElem?_getD, List.getD_eq_getElem?_getD, List.getElem?_set_ne h]

theorem getD_set_self (l : List Value) {i : Nat} (w : Value) (h : i < l.length) : (l.set i w).getD i .null = w := by
  rw [List.getD_eq_getElem?_getD, List.getElem?_set_self h]
  rfl

theorem asArr_arr (l : List Value) : asArr (.arr l) = l := rfl

theorem two_idx {h : Heap} {o : Nat} {v e t w : Value} {F : Multiset Nat} {i j : Int} {q p : List Step} (hij : i ≠ j)
    (h0 : 0 ≤ i) (h0' : 0 ≤ j) (hb : i ≥ (asArr v).length → Cpp.int (i + 1) = .ok (i + 1))
    (hb' : j ≥ (extTo i (asArr v)).length → Cpp.int (j + 1) = .ok (j + 1))
    (hr : Rep h.cell o v F) (ow : Own h F) (he : peek q ((asArr v).getD i.toNat .null) = .ok e)
    (hw : update e q ((asArr v).getD i.toNat .null) = .ok w) (ht : peek p ((asArr v).getD j.toNat .null) = .ok t) :
    Two h o v (.idx i :: q) (.idx j :: p) e t F := by
  obtain ⟨N1, a1, h1, r, as, G, e1, i1, c1, d1⟩ := index_full i h0 hb hr ow
  have o1 := c1.own ow
  generalize hm : asArr v = l at *
  have hil : i.toNat < as.length := by
    by_contra hcc
    rw [List.getElem?_eq_none (by omega)] at d1
    cases d1
  have hil' : i.toNat < (extTo i l).length := by rw [← i1.rep.length]; exact hil
  have hij' : i.toNat ≠ j.toNat := by omega
  obtain ⟨F1, C1, g1, rfl, g2⟩ := i1.rep.hole i.toNat hil
  rw [List.getElem?_eq_getElem hil] at d1
  cases d1
  rw [getD_extTo] at g1
  have ef1 : ({o} + ({r} + (C1 + F1)) : Multiset Nat) = {o} + {r} + C1 + F1 := by abel
  have o1' := o1
  rw [ef1] at o1'
  obtain ⟨N2, b, h2, Fb, C2, e2, r2, c2, hole2⟩ := locate_rep q g1 o1'.right he
  have c2' := c2.ctx o1'
  have o2 := c2'.own o1'
  obtain ⟨w', u1, r2'⟩ := hole2 h2.cell e Fb (fun _ _ => rfl) r2
  rw [hw] at u1
  cases u1
  have ag2 : ∀ z ∈ ({o} + {r} + C1 : Multiset Nat), h2.cell z = h1.cell z := c2.agree o1'.disj o1'.left.lt
  have k1 := g2 h2.cell w _ (fun z hz => ag2 z (by simp [hz])) r2'
  have i2 : IsArr h2.cell o ((extTo i l).set i.toNat w) r as (C1 + (C2 + Fb)) :=
    ⟨by rw [ag2 o (by simp), i1.obj], by rw [ag2 r (by simp), i1.list], k1⟩
  have ef2 : ({o} + {r} + C1 + (C2 + Fb) : Multiset Nat) = {o} + ({r} + (C1 + (C2 + Fb))) := by abel
  have o2' := o2
  rw [ef2] at o2'
  obtain ⟨a2, h3, as3, G3, e3, i3, c3, d3, d3', ag3⟩ := index_arr j h0' (by rw [List.length_set]; exact hb') i2 o2'
  have o3 := c3.own o2'
  rw [extTo_set _ _ _ _ hil'] at i3
  have d1 := d3' i.toNat _ (List.getElem?_eq_getElem hil)
  have hjl : j.toNat < as3.length := by
    by_contra hcc
    rw [List.getElem?_eq_none (by omega)] at d3
    cases d3
  have hil3 : i.toNat < as3.length := by
    by_contra hcc
    rw [List.getElem?_eq_none (by omega)] at d1
    cases d1
  have hlen3 : i.toNat < (extTo j (extTo i l)).length := by
    rw [extTo_length]
    omega
  obtain ⟨Fa1, Fa2, Cc, t1, t2, rfl, t3⟩ := i3.rep.hole2 i.toNat j.toNat hil3 hjl hij'
  rw [List.getElem?_eq_getElem hil3] at d1
  rw [List.getElem?_eq_getElem hjl] at d3
  simp only [Option.some.injEq] at d1 d3
  rw [d1] at t1 t3
  rw [d3] at t2 t3
  rw [getD_set_self _ _ hlen3] at t1
  rw [getD_set_ne _ _ hij', getD_extTo, getD_extTo] at t2
  have r3 : Rep h3.cell as[i.toNat] w (C2 + Fb) := r2'.frame fun z hz => ag3 z (by simp at hz ⊢; tauto)
  obtain ⟨-, rfl⟩ := t1.unique r3
  have ef3 : ({o} + ({r} + (Cc + (C2 + Fb) + Fa2)) : Multiset Nat) = {o} + {r} + Cc + C2 + Fb + Fa2 := by abel
  have o3' := o3
  rw [ef3] at o3'
  obtain ⟨N4, a, h4, Fa, C4, e4, r4, c4, hole4⟩ := locate_rep p t2 o3'.right ht
  have c4' := c4.ctx o3'
  have o4 := c4'.own o3'
  have ag4 : ∀ z ∈ ({o} + {r} + Cc + C2 + Fb : Multiset Nat), h4.cell z = h3.cell z := c4.agree o3'.disj o3'.left.lt
  have ag23 : ∀ z ∈ C2 + Fb, h3.cell z = h2.cell z := fun z hz => ag3 z (by simp at hz ⊢; tauto)
  have ef4 : ({o} + {r} + Cc + C2 + Fb + (C4 + Fa) : Multiset Nat) = {o} + {r} + Cc + C2 + C4 + (Fb + Fa) := by abel
  refine ⟨max N1 (max N2 N4), b, h2, a, h4, Fb, Fa, {o} + {r} + C1 + (C2 + Fb), {o} + {r} + Cc + C2 + C4, fun n hn => ?_,
    fun n hn => ?_, ?_, ?_, r4, ?_, ?_⟩
  · unfold locate
    rw [e1 n (by omega), Out.ok_bind]
    exact e2 n (by omega)
  · unfold locate
    rw [e3 n, Out.ok_bind]
    exact e4 n (by omega)
  · rw [ef1] at c1
    exact c1.trans ow c2'
  · exact r2.frame fun z hz => by
      rw [ag4 z (by simp [hz]), ag23 z (by simp [hz])]
  · rw [ef1] at c1
    rw [← ef2, ef3] at c3
    rw [ef4] at c4'
    exact ((c1.trans ow c2').trans ow c3).trans ow c4'
  · intro c'' wb Fwb wa Fwa hc hwb hwa
    obtain ⟨w1, u1, s1⟩ := hole2 c'' wb Fwb (fun z hz => by
      rw [hc z (by simp [hz]), ag4 z (by simp [hz]), ag23 z (by simp [hz])]) hwb
    obtain ⟨w2, u2, s2⟩ := hole4 c'' wa Fwa (fun z hz => hc z (by simp [hz])) hwa
    have s3 := t3 c'' w1 _ w2 _ (fun z hz => by rw [hc z (by simp [hz]), ag4 z (by simp [hz])]) s1 s2
    rw [List.set_set] at s3
    refine ⟨.arr ((extTo i l).set i.toNat w1), .arr ((extTo j ((extTo i l).set i.toNat w1)).set j.toNat w2), ?_, ?_, ?_⟩
    · have := update_idx (v := v) h0 (by rw [hm]; exact hb) (by rw [hm]; exact u1)
      rw [hm] at this
      exact this
    · refine update_idx (v := .arr _) h0' (by rw [asArr_arr, List.length_set]; exact hb') ?_
      rw [asArr_arr, getD_set_ne _ _ hij', getD_extTo]
      exact u2
    · have ee : ({o} + {r} + Cc + C2 + C4 + (Fwb + Fwa) : Multiset Nat) = {o} + ({r} + (Cc + (C2 + Fwb) + (C4 + Fwa))) := by
        abel
      rw [ee, extTo_set _ _ _ _ hil']
      refine IsArr.toRep (as := as3) ⟨?_, ?_, s3⟩
      · rw [hc o (by simp), ag4 o (by simp), i3.obj]
      · rw [hc r (by simp), ag4 r (by simp), i3.list]

theorem update_key {k : Str} {p : List Step} {v w v1 : Value} (h : update w (.key k :: p) v = .ok v1) :
    ∃ w', update w p (mapAt (asObj v) k) = .ok w' ∧ v1 = .obj (put k w' (asObj v)) := by
  unfold update at h
  obtain ⟨w', h1, h2⟩ := Out.bind_eq_ok.1 h
  cases h2
  exact ⟨w', h1, rfl⟩

theorem update_idx_inv {i : Int} {p : List Step} {v w v1 : Value} (h0 : 0 ≤ i)
    (hb : i ≥ (asArr v).length → Cpp.int (i + 1) = .ok (i + 1)) (h : update w (.idx i :: p) v = .ok v1) :
    ∃ w', update w p ((asArr v).getD i.toNat .null) = .ok w' ∧ v1 = .arr ((extTo i (asArr v)).set i.toNat w') := by
  unfold update at h
  have e := getD_extTo i (asArr v) i.toNat
  unfold extTo at e ⊢
  by_cases hi : i ≥ (asArr v).length
  · simp only [if_pos hi] at e ⊢ h
    simp only [hb hi, Out.ok_bind] at h
    rw [if_neg (by omega), e] at h
    obtain ⟨w', h1, h2⟩ := Out.bind_eq_ok.1 h
    cases h2
    exact ⟨w', h1, rfl⟩
  · simp only [if_neg hi] at e ⊢ h
    simp only [Out.ok_bind] at h
    rw [if_neg (by omega)] at h
    obtain ⟨w', h1, h2⟩ := Out.bind_eq_ok.1 h
    cases h2
    exact ⟨w', h1, rfl⟩

/-- an access below a key, and another one below it -/
theorem two_below_key {h : Heap} {o : Nat} {v e t : Value} {F : Multiset Nat} {k : Str} {q p : List Step}
    (hr : Rep h.cell o v F) (ow : Own h F)
    (ih : ∀ {h : Heap} {o : Nat} {F : Multiset Nat}, Rep h.cell o (mapAt (asObj v) k) F → Own h F →
      Two h o (mapAt (asObj v) k) q p e t F) : Two h o v (.key k :: q) (.key k :: p) e t F := by
  have hs := asObj_sorted hr
  obtain ⟨N1, a1, h1, r, as, G, e1, i1, c1, d1⟩ := key_full k hr ow
  have o1 := c1.own ow
  obtain ⟨x1, y1, f1⟩ := find_addr d1
  obtain ⟨F1, C1, g1, rfl, g2⟩ := find_some i1.rep i1.keys f1
  rw [mapAt_put, if_pos rfl] at g1
  have ef1 : ({o} + ({r} + (C1 + F1)) : Multiset Nat) = {o} + {r} + C1 + F1 := by abel
  rw [ef1] at o1 c1
  obtain ⟨N2, b, h2, a, h3, Fb, Fa, F2, C2, e2, e3, c2, r2, r3, c3, hole⟩ := ih g1 o1.right
  have c2' := c2.ctx o1
  have c3' := c3.ctx o1
  have ag2 : ∀ z ∈ ({o} + {r} + C1 : Multiset Nat), h2.cell z = h1.cell z := c2.agree o1.disj o1.left.lt
  have ag3 : ∀ z ∈ ({o} + {r} + C1 : Multiset Nat), h3.cell z = h1.cell z := c3.agree o1.disj o1.left.lt
  have ef3 : ({o} + {r} + C1 + (C2 + (Fb + Fa)) : Multiset Nat) = {o} + {r} + C1 + C2 + (Fb + Fa) := by abel
  refine ⟨max N1 N2, b, h2, a, h3, Fb, Fa, {o} + {r} + C1 + F2, {o} + {r} + C1 + C2, fun n hn => ?_, fun n hn => ?_,
    c1.trans ow c2', r2, r3, ef3 ▸ c1.trans ow c3', fun c'' wb Fwb wa Fwa hc hb ha => ?_⟩
  · unfold locate
    rw [e1 n (by omega), Out.ok_bind]
    exact e2 n (by omega)
  · unfold locate
    rw [key_again n (by rw [ag2 o (by simp), i1.obj]) (by rw [ag2 r (by simp), i1.map]) d1, Out.ok_bind]
    exact e3 n (by omega)
  · obtain ⟨w1, w2, u1, u2, s⟩ := hole c'' wb Fwb wa Fwa (fun z hz => hc z (by simp [hz])) hb ha
    obtain ⟨s3, s4⟩ := g2 c'' w2 _ (fun z hz => by rw [hc z (by simp [hz]), ag3 z (by simp [hz])]) s
    refine ⟨.obj (put k w1 (asObj v)), .obj (put k w2 (put k w1 (asObj v))), ?_, ?_, ?_⟩
    · unfold update
      rw [u1]
      rfl
    · unfold update
      simp only [asObj]
      rw [mapAt_put, if_pos rfl, u2]
      rfl
    · have ee : ({o} + {r} + C1 + C2 + (Fwb + Fwa) : Multiset Nat) = {o} + ({r} + (C1 + (C2 + (Fwb + Fwa)))) := by abel
      rw [put_put hs] at s3 s4
      rw [ee, put_put hs]
      refine IsObj.toRep (as := as) ⟨?_, ?_, i1.keys.trans s4.symm, put_sorted _ _ hs, s3⟩
      · rw [hc o (by simp), ag3 o (by simp), i1.obj]
      · rw [hc r (by simp), ag3 r (by simp), i1.map]

theorem two_below_idx {h : Heap} {o : Nat} {v e t : Value} {F : Multiset Nat} {i : Int} {q p : List Step}
    (h0 : 0 ≤ i) (hb : i ≥ (asArr v).length → Cpp.int (i + 1) = .ok (i + 1))
    (hr : Rep h.cell o v F) (ow : Own h F)
    (ih : ∀ {h : Heap} {o : Nat} {F : Multiset Nat}, Rep h.cell o ((asArr v).getD i.toNat .null) F → Own h F →
      Two h o ((asArr v).getD i.toNat .null) q p e t F) : Two h o v (.idx i :: q) (.idx i :: p) e t F := by
  obtain ⟨N1, a1, h1, r, as, G, e1, i1, c1, d1⟩ := index_full i h0 hb hr ow
  have o1 := c1.own ow
  have hil : i.toNat < as.length := by
    by_contra hcc
    rw [List.getElem?_eq_none (by omega)] at d1
    cases d1
  have hil' : i.toNat < (extTo i (asArr v)).length := by rw [← i1.rep.length]; exact hil
  obtain ⟨F1, C1, g1, rfl, g2⟩ := i1.rep.hole i.toNat hil
  have d1' := d1
  rw [List.getElem?_eq_getElem hil] at d1
  cases d1
  rw [getD_extTo] at g1
  have ef1 : ({o} + ({r} + (C1 + F1)) : Multiset Nat) = {o} + {r} + C1 + F1 := by abel
  rw [ef1] at o1 c1
  obtain ⟨N2, b, h2, a, h3, Fb, Fa, F2, C2, e2, e3, c2, r2, r3, c3, hole⟩ := ih g1 o1.right
  have c2' := c2.ctx o1
  have c3' := c3.ctx o1
  have ag2 : ∀ z ∈ ({o} + {r} + C1 : Multiset Nat), h2.cell z = h1.cell z := c2.agree o1.disj o1.left.lt
  have ag3 : ∀ z ∈ ({o} + {r} + C1 : Multiset Nat), h3.cell z = h1.cell z := c3.agree o1.disj o1.left.lt
  have ef3 : ({o} + {r} + C1 + (C2 + (Fb + Fa)) : Multiset Nat) = {o} + {r} + C1 + C2 + (Fb + Fa) := by abel
  refine ⟨max N1 N2, b, h2, a, h3, Fb, Fa, {o} + {r} + C1 + F2, {o} + {r} + C1 + C2, fun n hn => ?_, fun n hn => ?_,
    c1.trans ow c2', r2, r3, ef3 ▸ c1.trans ow c3', fun c'' wb Fwb wa Fwa hc hwb hwa => ?_⟩
  · unfold locate
    rw [e1 n (by omega), Out.ok_bind]
    exact e2 n (by omega)
  · unfold locate
    rw [index_again n h0 (by rw [ag2 o (by simp), i1.obj]) (by rw [ag2 r (by simp), i1.list]) d1', Out.ok_bind]
    exact e3 n (by omega)
  · obtain ⟨w1, w2, u1, u2, s⟩ := hole c'' wb Fwb wa Fwa (fun z hz => hc z (by simp [hz])) hwb hwa
    have s3 := g2 c'' w2 _ (fun z hz => by rw [hc z (by simp [hz]), ag3 z (by simp [hz])]) s
    refine ⟨.arr ((extTo i (asArr v)).set i.toNat w1), .arr ((extTo i (asArr v)).set i.toNat w2), update_idx h0 hb u1, ?_, ?_⟩
    · have hlt : (i + 1).toNat ≤ ((extTo i (asArr v)).set i.toNat w1).length := by
        rw [List.length_set, extTo_length]; omega
      have := update_idx (w := wa) (w' := w2) (p := p) (v := .arr ((extTo i (asArr v)).set i.toNat w1)) h0
        (fun hc => by rw [asArr_arr] at hc; omega) (by
          rw [asArr_arr, getD_set_self _ _ hil']
          exact u2)
      rw [this, asArr_arr]
      have hself : extTo i ((extTo i (asArr v)).set i.toNat w1) = (extTo i (asArr v)).set i.toNat w1 := by
        generalize (extTo i (asArr v)).set i.toNat w1 = L at hlt
        unfold extTo
        rw [if_neg (by omega)]
      rw [hself, List.set_set]
    · have ee : ({o} + {r} + C1 + C2 + (Fwb + Fwa) : Multiset Nat) = {o} + ({r} + (C1 + (C2 + (Fwb + Fwa)))) := by abel
      rw [ee]
      refine IsArr.toRep (as := as) ⟨?_, ?_, s3⟩
      · rw [hc o (by simp), ag3 o (by simp), i1.obj]
      · rw [hc r (by simp), ag3 r (by simp), i1.list]

theorem locate_two : ∀ (q p : List Step), Diverge q p → ∀ {v e v1 t : Value}, peek q v = .ok e → update e q v = .ok v1 →
    peek p v1 = .ok t → ∀ {h : Heap} {o : Nat} {F : Multiset Nat}, Rep h.cell o v F → Own h F → Two h o v q p e t F
  | .key k :: q, .key k' :: p, hd, v, e, v1, t, he, hw, ht, h, o, F, hr, ow => by
    obtain ⟨w', hw', rfl⟩ := update_key hw
    have ht' : peek p (mapAt (put k w' (asObj v)) k') = .ok t := ht
    rw [mapAt_put] at ht'
    by_cases hk : k = k'
    · subst hk
      rw [if_pos rfl] at ht'
      have hd' : Diverge q p := by
        rcases hd with hd | hd
        · exact absurd rfl hd
        · exact hd.2
      exact two_below_key hr ow fun hr' ow' => locate_two q p hd' he hw' ht' hr' ow'
    · rw [if_neg (Ne.symm hk)] at ht'
      exact two_keys hk hr ow he hw' ht'
  | .idx i :: q, .idx j :: p, hd, v, e, v1, t, he, hw, ht, h, o, F, hr, ow => by
    obtain ⟨h0, hb, he'⟩ := peek_idx he
    obtain ⟨w', hw', rfl⟩ := update_idx_inv h0 hb hw
    obtain ⟨h0', hb', ht'⟩ := peek_idx ht
    rw [asArr_arr] at hb' ht'
    rw [List.length_set] at hb'
    have hlt : i.toNat < (extTo i (asArr v)).length := by rw [extTo_length]; omega
    by_cases hk : i = j
    · subst hk
      rw [getD_set_self _ _ hlt] at ht'
      have hd' : Diverge q p := by
        rcases hd with hd | hd
        · exact absurd rfl hd
        · exact hd.2
      exact two_below_idx h0 hb hr ow fun hr' ow' => locate_two q p hd' he' hw' ht' hr' ow'
    · rw [getD_set_ne _ _ (by omega), getD_extTo] at ht'
      exact two_idx hk h0 h0' hb hb' hr ow he' hw' ht'
  | [], _, hd, _, _, _, _, _, _, _, _, _, _, _, _ => by simp [Diverge] at hd
  | .key _ :: _, [], hd, _, _, _, _, _, _, _, _, _, _, _, _ => by simp [Diverge] at hd
  | .idx _ :: _, [], hd, _, _, _, _, _, _, _, _, _, _, _, _ => by simp [Diverge] at hd
  | .key _ :: _, .idx _ :: _, hd, _, _, _, _, _, _, _, _, _, _, _, _ => by simp [Diverge] at hd
  | .idx _ :: _, .key _ :: _, hd, _, _, _, _, _, _, _, _, _, _, _, _ => by simp [Diverge] at hd

end Json.Mem
