import Verif.Proof.TrieInsert

/-! # Moving the children of a node -/

namespace Trie
open Cpp

variable {A : Byte → Prop} {code : Byte → Int}

theorem mem_snoc {J1 : List Int} {s c j : Int} (h : s = c + j) : s - c ∈ J1 ++ [j] := by
  rw [h, show c + j - c = j by omega]; simp

/-- The tables after the arcs `J` of the node `m` were moved from the base `ob` to `nb`. -/
def movedB (b : Int → Int) (m ob nb : Int) (J : List Int) (s : Int) : Int :=
  if s = m then nb else if s - nb ∈ J then b (s - nb + ob) else if s - ob ∈ J then -1 else b s

def movedK (k : Int → Int) (m ob nb : Int) (J : List Int) (s : Int) : Int :=
  if s - nb ∈ J then m else if s - ob ∈ J then -1 else if k s - ob ∈ J then k s - ob + nb else k s

/-- what is known about the arcs being moved -/
structure MoveCtx (A : Byte → Prop) (b k : Int → Int) (T : Int → Str) (m nb : Int) (J : List Int) : Prop where
  core : Core A b k T
  hm : m = 0 ∨ k m ≠ -1
  hb : 0 ≤ b m
  hnb : 0 ≤ nb
  arcs : ∀ j ∈ J, 1 ≤ j ∧ j ≤ 27 ∧ k (b m + j) = m
  free : ∀ j ∈ J, k (nb + j) = -1

section
variable {b k : Int → Int} {T : Int → Str} {m nb : Int} {J : List Int}

theorem MoveCtx.m_ne (M : MoveCtx A b k T m nb J) : k m ≠ m := by
  rcases M.hm with h | h
  · rw [h, M.core.k0]; omega
  · exact M.core.self m h

theorem MoveCtx.m0 (M : MoveCtx A b k T m nb J) : 0 ≤ m := M.core.nonneg M.hm

theorem MoveCtx.old (M : MoveCtx A b k T m nb J) {s : Int} (h : s - b m ∈ J) : k s = m := by
  have := (M.arcs _ h).2.2
  rwa [show b m + (s - b m) = s by omega] at this

theorem MoveCtx.new (M : MoveCtx A b k T m nb J) {s : Int} (h : s - nb ∈ J) : k s = -1 := by
  have := M.free _ h
  rwa [show nb + (s - nb) = s by omega] at this

theorem MoveCtx.m_new (M : MoveCtx A b k T m nb J) : ¬ m - nb ∈ J := by
  intro h
  rcases M.hm with h' | h'
  · have := (M.arcs _ h).1; have := M.hnb; omega
  · exact h' (M.new h)

/-- one more arc -/
theorem movedB_snoc (M : MoveCtx A b k T m nb J) {J1 : List Int} {j : Int} (hJ : ∀ i ∈ J1, i ∈ J) (hj : j ∈ J) (s : Int) :
    movedB b m (b m) nb (J1 ++ [j]) s =
      if s = b m + j then -1 else if s = nb + j then b (b m + j) else movedB b m (b m) nb J1 s := by
  unfold movedB
  have hko : k (b m + j) = m := (M.arcs j hj).2.2
  have hkn : k (nb + j) = -1 := M.free j hj
  have hm0 := M.m0
  have hmne := M.m_ne
  by_cases e1 : s = b m + j
  · rw [if_pos e1, if_neg, if_neg, if_pos]
    · exact mem_snoc e1
    · intro h
      have : k s = -1 := M.new (by
        rcases List.mem_append.1 h with h | h
        · exact hJ _ h
        · rw [List.mem_singleton] at h; rw [h]; exact hj)
      rw [e1] at this; omega
    · rintro rfl; rw [← e1] at hko; exact hmne hko
  · rw [if_neg e1]
    by_cases e2 : s = nb + j
    · have : s ≠ m := by
        rintro rfl
        exact M.m_new (by rw [e2, show nb + j - nb = j by omega]; exact hj)
      rw [if_pos e2, if_neg this, if_pos (mem_snoc e2)]
      congr 1; omega
    · rw [if_neg e2]
      have h1 : s - nb ∈ J1 ++ [j] ↔ s - nb ∈ J1 := by
        simp only [List.mem_append, List.mem_singleton, or_iff_left_iff_imp]; intro h; omega
      have h2 : s - b m ∈ J1 ++ [j] ↔ s - b m ∈ J1 := by
        simp only [List.mem_append, List.mem_singleton, or_iff_left_iff_imp]; intro h; omega
      simp only [h1, h2]

theorem movedK_snoc (M : MoveCtx A b k T m nb J) {J1 : List Int} {j : Int} (hJ : ∀ i ∈ J1, i ∈ J) (hj : j ∈ J) (s : Int) :
    movedK k m (b m) nb (J1 ++ [j]) s =
      if s = b m + j then -1 else if k s = b m + j then nb + j else if s = nb + j then m else movedK k m (b m) nb J1 s := by
  unfold movedK
  have hko : k (b m + j) = m := (M.arcs j hj).2.2
  have hkn : k (nb + j) = -1 := M.free j hj
  have hm0 := M.m0
  have hmne := M.m_ne
  have hJ' : ∀ i ∈ J1 ++ [j], i ∈ J := by
    intro i h
    rcases List.mem_append.1 h with h | h
    · exact hJ _ h
    · rw [List.mem_singleton] at h; rw [h]; exact hj
  have hbm := M.hb
  have hj1 := (M.arcs j hj).1
  by_cases e1 : s = b m + j
  · rw [if_pos e1, if_neg, if_pos]
    · exact mem_snoc e1
    · intro h
      have := M.new (hJ' _ h)
      rw [e1] at this; omega
  · rw [if_neg e1]
    by_cases e3 : k s = b m + j
    · rw [if_pos e3, if_neg, if_neg, if_pos]
      · rw [e3]; omega
      · exact mem_snoc e3
      · intro h
        have h2 := M.old (hJ' _ h)
        rw [h2] at e3
        rw [← e3] at hko
        exact hmne hko
      · intro h
        have := M.new (hJ' _ h)
        omega
    · rw [if_neg e3]
      by_cases e2 : s = nb + j
      · rw [if_pos e2, if_pos (mem_snoc e2)]
      · rw [if_neg e2]
        have h1 : s - nb ∈ J1 ++ [j] ↔ s - nb ∈ J1 := by
          simp only [List.mem_append, List.mem_singleton, or_iff_left_iff_imp]; intro h; omega
        have h2 : s - b m ∈ J1 ++ [j] ↔ s - b m ∈ J1 := by
          simp only [List.mem_append, List.mem_singleton, or_iff_left_iff_imp]; intro h; omega
        have h3 : k s - b m ∈ J1 ++ [j] ↔ k s - b m ∈ J1 := by
          simp only [List.mem_append, List.mem_singleton, or_iff_left_iff_imp]; intro h; omega
        simp only [h1, h2, h3]

/-- the present values at an arc which was not moved yet -/
theorem moved_old (M : MoveCtx A b k T m nb J) {J1 : List Int} {j : Int} (hJ : ∀ i ∈ J1, i ∈ J) (hj : j ∈ J) (hn : j ∉ J1) :
    movedB b m (b m) nb J1 (b m + j) = b (b m + j) ∧ movedK k m (b m) nb J1 (b m + j) = m := by
  have hko : k (b m + j) = m := (M.arcs j hj).2.2
  have hm0 := M.m0
  have h1 : b m + j - nb ∉ J1 := by
    intro h
    have := M.new (hJ _ h)
    omega
  have h2 : b m + j - b m ∉ J1 := by rw [show b m + j - b m = j by omega]; exact hn
  constructor
  · unfold movedB
    rw [if_neg, if_neg h1, if_neg h2]
    intro e
    rw [e] at hko
    exact M.m_ne hko
  · unfold movedK
    rw [if_neg h1, if_neg h2, hko, if_neg]
    intro h
    exact M.m_ne (M.old (hJ _ h))

/-- the children of a node which was not moved yet -/
theorem moved_child (M : MoveCtx A b k T m nb J) {J1 : List Int} {j : Int} (hJ : ∀ i ∈ J1, i ∈ J) (hj : j ∈ J) (hn : j ∉ J1)
    (s : Int) : movedK k m (b m) nb J1 s = b m + j ↔ k s = b m + j := by
  have hko : k (b m + j) = m := (M.arcs j hj).2.2
  have hm0 := M.m0
  have hj1 := (M.arcs j hj).1
  have hbm := M.hb
  have hmo : m ≠ b m + j := by
    intro e
    rw [← e] at hko
    exact M.m_ne hko
  unfold movedK
  by_cases h1 : s - nb ∈ J1
  · rw [if_pos h1]
    have := M.new (hJ _ h1)
    constructor <;> intro h <;> omega
  · rw [if_neg h1]
    by_cases h2 : s - b m ∈ J1
    · rw [if_pos h2]
      have := M.old (hJ _ h2)
      constructor <;> intro h <;> omega
    · rw [if_neg h2]
      by_cases h3 : k s - b m ∈ J1
      · rw [if_pos h3]
        constructor
        · intro h
          have h4 := M.free _ (hJ _ h3)
          rw [show nb + (k s - b m) = b m + j by omega, hko] at h4
          omega
        · intro h
          rw [h, show b m + j - b m = j by omega] at h3
          exact absurd h3 hn
      · rw [if_neg h3]

end

/-- The state while arcs are being moved. -/
structure Moving (b k : Int → Int) (st0 : St) (m nb n : Int) (J1 : List Int) (s : St × Int) : Prop where
  hb : ∀ p, s.1.b p = movedB b m (b m) nb J1 p
  hk : ∀ p, s.1.k p = movedK k m (b m) nb J1 p
  bsz : st0.base.size ≤ s.1.base.size
  ksz : st0.check.size ≤ s.1.check.size
  new : ∀ j ∈ J1, nb + j < s.1.base.size ∧ nb + j < s.1.check.size
  kd : s.1.check.dflt = -1
  tail : s.1.tail = st0.tail
  pos : s.1.pos = st0.pos
  tl : s.1.tailList = st0.tailList
  size : s.1.size = st0.size
  node : s.2 = if n - b m ∈ J1 then n - b m + nb else n

theorem childFold (base : AA Int) {old new : Int} (h0 : 0 ≤ old) (hs : old < base.size) (hb : 0 ≤ base.at old) :
    ∀ (l : List Int) (st : St), st.base = base → (∀ i ∈ l, 1 ≤ i) →
    ∃ check : AA Int, l.foldlM (fun st k => do setCheck st ((← st.base.get old) + k) new) st = Out.ok { st with check := check } ∧
      (∀ p, check.at p = if p - base.at old ∈ l then new else st.check.at p) ∧ st.check.size ≤ check.size ∧
      check.dflt = st.check.dflt := by
  intro l
  induction l with
  | nil => intro st _ _; exact ⟨st.check, rfl, fun p => by simp, Int.le_refl _, rfl⟩
  | cons i l ih =>
    intro st e hl
    have hi := hl i (by simp)
    have hg : st.base.get old = .ok (base.at old) := by rw [e]; exact AA.get_ok _ h0 hs
    rw [List.foldlM_cons, hg]
    simp only [Out.ok_bind]
    rw [setCheck_ok _ (by omega)]
    simp only [Out.ok_bind]
    obtain ⟨check, e1, h1, h2, h3⟩ := ih { st with check := st.check.put (base.at old + i) new } e
      (fun i hi => hl i (by simp [hi]))
    have hsz := AA.size_put st.check (base.at old + i) new
    refine ⟨check, e1, fun p => ?_, by dsimp only at h2; omega, h3⟩
    rw [h1 p]
    dsimp only
    rw [AA.at_put]
    by_cases e2 : p - base.at old ∈ l
    · rw [if_pos e2, if_pos (by simp [e2])]
    · rw [if_neg e2]
      by_cases e3 : p = base.at old + i
      · rw [if_pos e3, if_pos (by rw [e3, show base.at old + i - base.at old = i by omega]; simp)]
      · rw [if_neg e3, if_neg]
        rw [List.mem_cons, not_or]
        exact ⟨by omega, e2⟩

theorem moveArc_ok {st0 : St} (I : Inv A st0) {m nb n : Int} {J : List Int}
    (M : MoveCtx A st0.b st0.k st0.T m nb J) {J1 : List Int} (hJ : ∀ i ∈ J1, i ∈ J) {j : Int} (hj : j ∈ J) (hn : j ∉ J1)
    (_hna : n = 0 ∨ st0.k n ≠ -1)
    {s : St × Int} (S : Moving st0.b st0.k st0 m nb n J1 s) :
    ∃ s', moveArc (st0.b m) nb s j = .ok s' ∧ Moving st0.b st0.k st0 m nb n (J1 ++ [j]) s' := by
  obtain ⟨st, no⟩ := s
  have C := I.core
  have hko : st0.k (st0.b m + j) = m := (M.arcs j hj).2.2
  have hkn : st0.k (nb + j) = -1 := M.free j hj
  have hm0 := M.m0
  have hbm := M.hb
  have hnb := M.hnb
  have hj1 := (M.arcs j hj).1
  have hka : st0.k (st0.b m + j) ≠ -1 := by omega
  have ho1 := I.bsz (.inr hka)
  have ho2 := I.lens.ksz _ hka
  have hS1 := S.bsz
  have hS2 := S.ksz
  dsimp only at hS1 hS2
  have hon : st0.b m + j ≠ nb + j := by intro e; rw [e] at hko; omega
  obtain ⟨hvb, hvk⟩ := moved_old M hJ hj hn
  generalize hold : st0.b m + j = old at *
  generalize hnew : nb + j = new at *
  unfold moveArc
  dsimp only
  simp only [hold, hnew]
  rw [AA.get_ok _ (by omega) (by omega)]
  simp only [Out.ok_bind]
  rw [show st.base.at old = st0.b old from (S.hb old).trans hvb, setBase_ok _ (by omega)]
  simp only [Out.ok_bind]
  rw [AA.get_ok _ (by omega) (by omega)]
  simp only [Out.ok_bind]
  rw [show st.check.at old = m from (S.hk old).trans hvk, setCheck_ok _ (by omega)]
  simp only [Out.ok_bind]
  have hz1 := AA.size_put st.base new (st0.b old)
  have hz2 := AA.size_put st.check new m
  rw [AA.get_ok _ (by omega) (by omega)]
  simp only [Out.ok_bind]
  have hb1 : (st.base.put new (st0.b old)).at old = st0.b old := by
    rw [AA.at_put, if_neg hon]; exact (S.hb old).trans hvb
  rw [hb1]
  -- the children of the moved node
  obtain ⟨check, he, hc1, hc2, hc3⟩ : ∃ check : AA Int,
      (if st0.b old > -1 then do
        (← outArcs { st with base := st.base.put new (st0.b old), check := st.check.put new m } old).foldlM
          (fun st k => do setCheck st ((← st.base.get old) + k) new)
          { st with base := st.base.put new (st0.b old), check := st.check.put new m }
      else .ok { st with base := st.base.put new (st0.b old), check := st.check.put new m }) =
        Out.ok { st with base := st.base.put new (st0.b old), check := check } ∧
      (∀ p, check.at p = if st0.k p = old then new else if p = new then m else st.k p) ∧
      (st.check.put new m).size ≤ check.size ∧ check.dflt = -1 := by
    have hk1 : ∀ p, (st.check.put new m).at p = if p = new then m else st.k p := fun p => AA.at_put _ _ _ _
    have hmo : m ≠ old := by
      rintro rfl
      exact M.m_ne hko
    have hk2 : ∀ p, (st.check.put new m).at p = old ↔ st0.k p = old := by
      intro p
      rw [hk1]
      by_cases e : p = new
      · rw [if_pos e, e, hkn]
        constructor <;> intro h <;> omega
      · rw [if_neg e, S.hk p, ← hold]
        exact moved_child M hJ hj hn p
    by_cases hpos : st0.b old > -1
    · rw [if_pos hpos]
      obtain ⟨l, hl1, _, hl2⟩ := outArcs_ok { st with base := st.base.put new (st0.b old), check := st.check.put new m }
        (n := old) (by omega) (by dsimp only; omega) (by show 0 ≤ (st.base.put new (st0.b old)).at old; rw [hb1]; omega)
      rw [hl1]
      simp only [Out.ok_bind]
      obtain ⟨check, e1, h1, h2, h3⟩ := childFold (st.base.put new (st0.b old)) (old := old) (new := new) (by omega)
        (by omega) (by rw [hb1]; omega) l { st with base := st.base.put new (st0.b old), check := st.check.put new m } rfl
        (fun i hi => ((hl2 i).1 hi).1)
      refine ⟨check, e1, fun p => ?_, h2, by rw [h3]; exact S.kd⟩
      rw [h1 p]
      have hiff : p - (st.base.put new (st0.b old)).at old ∈ l ↔ st0.k p = old := by
        rw [hl2]
        show _ ∧ _ ∧ (st.check.put new m).at ((st.base.put new (st0.b old)).at old + _) = old ↔ _
        rw [hb1, show st0.b old + (p - st0.b old) = p by omega, hk2]
        constructor
        · intro h; exact h.2.2
        · intro h
          have hne : st0.k p ≠ -1 := by omega
          have := C.off p hne
          rw [h] at this
          exact ⟨this.1, this.2, h⟩
      by_cases e : st0.k p = old
      · rw [if_pos (hiff.2 e), if_pos e]
      · rw [if_neg (fun h => e (hiff.1 h)), if_neg e]
        exact hk1 p
    · rw [if_neg hpos]
      refine ⟨st.check.put new m, rfl, fun p => ?_, Int.le_refl _, S.kd⟩
      have : st0.k p ≠ old := by
        by_cases h : st0.k p = -1
        · omega
        · exact C.not_child h (by omega)
      rw [if_neg this]
      exact hk1 p
  rw [he]
  simp only [Out.ok_bind]
  rw [setBase_ok _ (by omega)]
  simp only [Out.ok_bind]
  rw [setCheck_ok _ (by omega)]
  simp only [Out.ok_bind]
  have hz3 := AA.size_put (st.base.put new (st0.b old)) old (-1)
  have hz4 := AA.size_put check old (-1)
  refine ⟨_, rfl, ⟨?_, ?_, ?_, ?_, ?_, hc3, S.tail, S.pos, S.tl, S.size, ?_⟩⟩
  · intro p
    rw [movedB_snoc M hJ hj, hold, hnew]
    show ((st.base.put new (st0.b old)).put old (-1)).at p = _
    rw [AA.at_put, AA.at_put, show st.base.at p = _ from S.hb p]
  · intro p
    rw [movedK_snoc M hJ hj, hold, hnew]
    show (check.put old (-1)).at p = _
    rw [AA.at_put, hc1 p, S.hk p]
  · dsimp only; omega
  · dsimp only; omega
  · intro i hi
    rcases List.mem_append.1 hi with h | h
    · have := S.new i h
      dsimp only at this ⊢
      omega
    · rw [List.mem_singleton] at h
      rw [h, hnew]
      dsimp only
      omega
  · have hno := S.node
    dsimp only at hno ⊢
    rw [hno]
    by_cases e : n - st0.b m ∈ J1
    · have e' : n - st0.b m ∈ J1 ++ [j] := List.mem_append_left _ e
      rw [if_pos e, if_pos e', if_neg]
      intro h
      have := M.free _ (hJ _ e)
      rw [show nb + (n - st0.b m) = old by omega] at this
      omega
    · rw [if_neg e]
      by_cases e2 : old = n
      · rw [if_pos e2, if_pos]
        · omega
        · simp; omega
      · rw [if_neg e2, if_neg]
        simp only [List.mem_append, List.mem_singleton, not_or]
        exact ⟨e, by omega⟩

theorem moveFold_ok {st0 : St} (I : Inv A st0) {m nb n : Int} {J : List Int}
    (M : MoveCtx A st0.b st0.k st0.T m nb J) (hna : n = 0 ∨ st0.k n ≠ -1) :
    ∀ (J2 J1 : List Int) (s : St × Int), J = J1 ++ J2 → J.Nodup → Moving st0.b st0.k st0 m nb n J1 s →
    ∃ s', J2.foldlM (moveArc (st0.b m) nb) s = .ok s' ∧ Moving st0.b st0.k st0 m nb n J s' := by
  intro J2
  induction J2 with
  | nil => intro J1 s e _ S; exact ⟨s, rfl, by rw [e]; simpa using S⟩
  | cons j J2 ih =>
    intro J1 s e nd S
    obtain ⟨s1, e1, S1⟩ := moveArc_ok I M (J1 := J1) (fun i hi => by rw [e]; simp [hi]) (j := j) (by rw [e]; simp)
      (by
        rw [e, List.nodup_append] at nd
        intro h
        exact nd.2.2 j h j (by simp) rfl) hna S
    obtain ⟨s2, e2, S2⟩ := ih (J1 ++ [j]) s1 (by rw [e]; simp) nd S1
    refine ⟨s2, ?_, S2⟩
    rw [List.foldlM_cons, e1]
    simp only [Out.ok_bind]
    exact e2

theorem relocate_ok (al : Alpha A code) {st : St} (I : Inv A st) {n : Int} {c : Byte} {rest v : Str}
    (hp : Path A code st.b st.k v n) (hbn : 0 ≤ st.b n) (hw : Term A (c :: rest))
    (hk : st.k (st.b n + code c) ≠ -1) (hkn : st.k (st.b n + code c) ≠ n) :
    ∃ st', relocate st n (st.b n + code c) (code c) rest = .ok st' ∧ Inv A st' ∧ st'.size = st.size ∧
      (∀ u, st'.Word A code u ↔ st.Word A code u ∨ u = v ++ c :: rest) ∧
      ∀ u, st'.Inner A code u ↔ st.Inner A code u := by
  have C := I.core
  have hc : Valid A c := by rcases hw.cons_inv with h | h; exacts [.inl h.1, .inr h.1]
  have hr := al.range' hc
  have hna := hp.alloc C
  have hn0 := C.nonneg hna
  have hoa := C.par _ hk
  have hob := C.parb _ hk
  have hoo := C.off _ hk
  have hksz := I.lens.ksz _ hk
  obtain ⟨lN, hlN, ndN, memN⟩ := outArcs_ok st hn0 (I.bsz hna) hbn
  obtain ⟨lC, hlC, ndC, memC⟩ := outArcs_ok st (C.nonneg hoa) (I.bsz hoa) hob
  unfold relocate
  rw [hlN]
  simp only [Out.ok_bind]
  rw [AA.get_ok _ (by omega) hksz]
  simp only [Out.ok_bind]
  rw [show outArcs st (st.check.at (st.b n + code c)) = _ from hlC]
  simp only [Out.ok_bind]
  -- which node is moved
  obtain ⟨m, J, nb, ech, M, ndJ, memJ, hfree⟩ : ∃ (m : Int) (J : List Int) (nb : Int),
      (if lN.length + 1 < lC.length then do
        .ok (n, lN, ← checkAvailable st (lN ++ [code c]))
      else do .ok (st.check.at (st.b n + code c), lC, ← checkAvailable st lC)) = Out.ok (m, J, nb) ∧
      MoveCtx A st.b st.k st.T m nb J ∧ J.Nodup ∧
      (∀ j, j ∈ J ↔ 1 ≤ j ∧ j ≤ 27 ∧ st.k (st.b m + j) = m) ∧
      ((m = n ∧ st.k (nb + code c) = -1 ∧ code c ∉ J) ∨ (m = st.k (st.b n + code c) ∧ m ≠ n)) := by
    by_cases hlen : lN.length + 1 < lC.length
    · rw [if_pos hlen]
      obtain ⟨q, hq1, hq2, hq3⟩ := checkAvailable_ok st I.lens.kd (lN ++ [code c]) (by
        intro i hi
        rcases List.mem_append.1 hi with h | h
        · have := ((memN i).1 h).1; omega
        · rw [List.mem_singleton] at h; omega)
      rw [hq1]
      simp only [Out.ok_bind]
      exact ⟨n, lN, q, rfl, ⟨C, hna, hbn, hq2, fun j hj => (memN j).1 hj, fun j hj => hq3 j (by simp [hj])⟩, ndN, memN,
        .inl ⟨rfl, hq3 _ (by simp), fun h => hkn ((memN _).1 h).2.2⟩⟩
    · rw [if_neg hlen]
      obtain ⟨q, hq1, hq2, hq3⟩ := checkAvailable_ok st I.lens.kd lC (by
        intro i hi
        have := ((memC i).1 hi).1; omega)
      rw [hq1]
      simp only [Out.ok_bind]
      exact ⟨_, lC, q, rfl, ⟨C, hoa, hob, hq2, fun j hj => (memC j).1 hj, hq3⟩, ndC, memC, .inr ⟨rfl, hkn⟩⟩
  rw [ech]
  simp only [Out.ok_bind]
  have hm0 := M.m0
  have hnb := M.hnb
  rw [AA.get_ok _ hm0 (I.bsz M.hm)]
  simp only [Out.ok_bind]
  rw [setBase_ok _ hm0]
  simp only [Out.ok_bind]
  have hz := AA.size_put st.base m nb
  have S0 : Moving st.b st.k st m nb n [] ({ st with base := st.base.put m nb }, n) := by
    refine ⟨fun p => ?_, fun p => ?_, hz.1, Int.le_refl _, by simp, I.lens.kd, rfl, rfl, rfl, rfl, by simp⟩
    · show (st.base.put m nb).at p = _
      rw [AA.at_put]
      unfold movedB
      simp [St.b]
    · unfold movedK
      simp [St.k]
  obtain ⟨⟨st1, no⟩, e1, S⟩ := moveFold_ok I M hna J [] _ rfl ndJ S0
  rw [show st.base.at m = st.b m from rfl, e1]
  simp only [Out.ok_bind]
  obtain ⟨C', hP, hW, hsurj, himg⟩ := moveAll (code := code) C (b' := st1.b) (k' := st1.k) M.hm M.hb hnb memJ M.free S.hb S.hk
  dsimp only at hP hW hsurj himg
  have hno : no = if n - st.b m ∈ J then n - st.b m + nb else n := S.node
  -- the invariant after the move
  have I1 : Inv A st1 := by
    refine ⟨?_, ?_, ?_⟩
    · rw [show st1.T = st.T by unfold St.T; rw [show st1.tail = st.tail from S.tail]]
      exact C'
    · rw [show st1.pos = st.pos from S.pos, show st1.tailList = st.tailList from S.tl]
      refine ⟨?_, ?_, I.tails.nodup, I.tails.bound, I.tails.pos0⟩
      · intro t ht hb
        obtain ⟨s, hs, _, h⟩ := hsurj t ht
        rw [← h hb]
        exact I.tails.used s hs (by rw [h hb]; exact hb)
      · intro t t' ht ht' hb he
        obtain ⟨s, hs, e, h⟩ := hsurj t ht
        obtain ⟨s', hs', e', h'⟩ := hsurj t' ht'
        have : s = s' := I.tails.inj s s' hs hs' (by rw [h hb]; exact hb) (by rw [h hb, h' (by omega)]; exact he)
        rw [← e, ← e', this]
    · have hb1 := S.bsz
      have hb2 := S.ksz
      dsimp only at hb1 hb2
      refine ⟨S.kd, ?_, ?_, ?_⟩
      · intro t ht _
        rcases ht with rfl | ht
        · have := I.bsz (s := 0) (.inl rfl); omega
        · obtain ⟨s, hs, e, _⟩ := hsurj t ht
          rw [← e]
          by_cases hmem : s - st.b m ∈ J
          · rw [if_pos hmem]
            have := (S.new _ hmem).1
            dsimp only at this; omega
          · rw [if_neg hmem]
            have := I.bsz (.inr hs); omega
      · intro t ht
        obtain ⟨s, hs, e, _⟩ := hsurj t ht
        rw [← e]
        by_cases hmem : s - st.b m ∈ J
        · rw [if_pos hmem]
          have := (S.new _ hmem).2
          dsimp only at this; omega
        · rw [if_neg hmem]
          have := I.lens.ksz s hs; omega
      · rw [show st1.pos = st.pos from S.pos, show st1.tail = st.tail from S.tail]
        exact I.lens.tsz
  have hpno : Path A code st1.b st1.k v no := by
    rw [hno]
    exact ((hP v n).2 hp).1
  have hnoa := hpno.alloc I1.core
  have hno0 := I1.core.nonneg hnoa
  obtain ⟨hbno, hkno⟩ : 0 ≤ st1.b no ∧ st1.k (st1.b no + code c) = -1 := by
    rcases hfree with ⟨rfl, hf, hcJ⟩ | ⟨hm, hmn⟩
    · have hmJ : ¬ m - st.b m ∈ J := fun h => M.m_ne (M.old h)
      have hno' : no = m := by rw [hno, if_neg hmJ]
      have hb1 : st1.b m = nb := by rw [S.hb]; unfold movedB; rw [if_pos rfl]
      rw [hno', hb1]
      refine ⟨hnb, ?_⟩
      rw [S.hk]
      unfold movedK
      rw [if_neg (by rw [show nb + code c - nb = code c by omega]; exact hcJ), if_neg, hf, if_neg]
      · intro h; have := (M.arcs _ h).1; have := M.hb; omega
      · intro h
        have := M.old h
        omega
    · have h1 := (himg n hna).2 (Ne.symm hmn)
      rw [← hno] at h1
      rw [h1]
      refine ⟨hbn, ?_⟩
      rw [S.hk]
      unfold movedK
      rw [if_neg, if_pos]
      · rw [memJ]
        rw [← hm] at hoo
        exact ⟨hoo.1, hoo.2, by rw [show st.b m + (st.b n + code c - st.b m) = st.b n + code c by omega, hm]⟩
      · intro h
        exact hk (M.new h)
  rw [AA.get_ok _ hno0 (I1.bsz hnoa)]
  simp only [Out.ok_bind]
  have hsz : st1.size = st.size := S.size
  rw [show st1.base.at no = st1.b no from rfl]
  have hwords : ∀ u, st1.Word A code u ↔ st.Word A code u := by
    intro u
    unfold St.Word
    rw [show st1.T = st.T by unfold St.T; rw [show st1.tail = st.tail from S.tail]]
    exact hW u
  have hinner : ∀ u, st1.Inner A code u ↔ st.Inner A code u := by
    refine fun u => ⟨?_, ?_⟩
    rotate_left
    · rintro ⟨s, hps, hbs⟩
      have hs := hps.alloc C
      refine ⟨_, ((hP u s).2 hps).1, ?_⟩
      by_cases hsm : s = m
      · subst hsm
        rw [if_neg (fun h => M.m_ne (M.old h)), S.hb]
        unfold movedB
        rw [if_pos rfl]
        exact hnb
      · rw [(himg s hs).2 hsm]; exact hbs
    rintro ⟨t, hpt, hbt⟩
    obtain ⟨s, hs, e⟩ : ∃ s, (s = 0 ∨ st.k s ≠ -1) ∧ (if s - st.b m ∈ J then s - st.b m + nb else s) = t := by
      rcases hpt.alloc I1.core with h | h
      · refine ⟨0, .inl rfl, ?_⟩
        rw [h, if_neg]
        intro h'
        have := M.old h'
        rw [C.k0] at this
        omega
      · obtain ⟨s, hs, e, _⟩ := hsurj t h
        exact ⟨s, .inr hs, e⟩
    rw [← e] at hpt hbt
    refine ⟨s, (hP u s).1 ⟨hpt, hs⟩, ?_⟩
    by_cases hsm : s = m
    · rw [hsm]; exact M.hb
    · rw [← (himg s hs).2 hsm]; exact hbt
  by_cases hi : code c = 1
  · have hc1 := (al.one hc).1 hi
    have hrest : rest = [] := by
      rcases hw.cons_inv with h | h
      · exact h.2
      · exact absurd (hc1 ▸ h.1) al.not_end
    have Q := addEnd al I1 hnoa hbno (by rw [hi] at hkno; exact hkno)
    rw [if_pos hi, hi, setBase_ok _ (by omega)]
    simp only [Out.ok_bind]
    rw [setCheck_ok _ (by omega)]
    refine ⟨_, rfl, Q.1, hsz, fun u => ?_, fun u => (Q.2.2 u).trans (hinner u)⟩
    rw [Q.2.1 u, hwords u]
    refine or_congr_right ?_
    rw [hc1, hrest]
    constructor
    · rintro ⟨v0, h0, h⟩; rw [h, h0.unique al I1.core hpno]
    · rintro rfl; exact ⟨v, hpno, rfl⟩
  · obtain ⟨p, pos, tl, en, hp0, I4, hW4, hI4⟩ := addTail al I1 hnoa hbno hw hkno
    rw [if_neg hi, en]
    dsimp only
    rw [setBase_ok _ (by omega)]
    simp only [Out.ok_bind]
    rw [setTailAt_ok _ hp0]
    simp only [Out.ok_bind]
    rw [setCheck_ok _ (by omega)]
    refine ⟨_, rfl, I4, hsz, fun u => ?_, fun u => (hI4 u).trans (hinner u)⟩
    rw [hW4 u, hwords u]
    refine or_congr_right ?_
    constructor
    · rintro ⟨v0, h0, h⟩; rw [h, h0.unique al I1.core hpno]
    · rintro rfl; exact ⟨v, hpno, rfl⟩

/-! ### `insert`, `remove` -/

theorem insertGo_ok (al : Alpha A code) {st : St} (I : Inv A st) {ms mo : Mapper} (hms : Maps A code ms)
    (hmo : Maps A code mo) : ∀ (w v : Str) (n : Int), Term A w → Path A code st.b st.k v n → 0 ≤ st.b n →
      ¬ st.Word A code (v ++ w) →
      ∃ st', insertGo ms mo st n w = .ok st' ∧ Inv A st' ∧ st'.size = st.size ∧
        (∀ u, st'.Word A code u ↔ st.Word A code u ∨ u = v ++ w) ∧
        (∀ u, st'.Inner A code u → st.Inner A code u ∨ (u <+: v ++ w ∧ ∃ x, st.Word A code x ∧ u <+: x)) ∧
        ∀ u, st.Inner A code u → st'.Inner A code u := by
  intro w
  induction w with
  | nil => intro v n h; exact absurd h Term.nil_not
  | cons c rest ih =>
    intro v n hw hp hb hnot
    have C := I.core
    have hc : Valid A c := by rcases hw.cons_inv with h | h; exacts [.inl h.1, .inr h.1]
    have hr := al.range' hc
    have hna := hp.alloc C
    have hn0 := C.nonneg hna
    have hws := word_step (T := st.T) hp hb hc rest
    unfold insertGo
    rw [hms c hc]
    simp only [Out.ok_bind]
    rw [AA.get_ok _ hn0 (I.bsz hna)]
    simp only [Out.ok_bind]
    rw [AA.getc_ok _ (show 0 ≤ st.base.at n + code c by unfold St.b at hb; omega)]
    simp only [Out.ok_bind]
    rw [show st.base.at n = st.b n from rfl, show st.check.at (st.b n + code c) = st.k (st.b n + code c) from rfl]
    by_cases hfree : st.k (st.b n + code c) = -1
    · rw [if_pos hfree]
      obtain ⟨st', e, I', hs, hW, hI⟩ := setTail_ok al I hp hb hw hfree
      exact ⟨st', e, I', hs, hW, fun u h => .inl ((hI u).1 h), fun u => (hI u).2⟩
    · rw [if_neg hfree, AA.get_ok _ (by omega) (I.lens.ksz _ hfree)]
      simp only [Out.ok_bind]
      rw [show st.check.at (st.b n + code c) = st.k (st.b n + code c) from rfl]
      by_cases hk : st.k (st.b n + code c) = n
      · rw [if_pos hk, AA.get_ok _ (by omega) (I.bsz (.inr hfree))]
        simp only [Out.ok_bind]
        rw [show st.base.at (st.b n + code c) = st.b (st.b n + code c) from rfl]
        have hp' := Path.step c hp hb hc hk
        have hoff : st.b n + code c - st.b (st.k (st.b n + code c)) = code c := by rw [hk]; omega
        rcases hw.cons_inv with ⟨rfl, rfl⟩ | ⟨hA, hT⟩
        · exfalso
          apply hnot
          refine hws.2 ⟨hk, ?_⟩
          rcases C.leafEnd _ hfree (by rw [hoff]; exact al.end_) with h | h
          · exact .inr (.inl ⟨h, rfl⟩)
          · exact .inl ⟨h.1, h.2.symm⟩
        · have hne : st.b n + code c - st.b (st.k (st.b n + code c)) ≠ 1 := by have := al.range c hA; omega
          by_cases hbt : st.b (st.b n + code c) < -1
          · rw [if_pos hbt]
            obtain ⟨st', e, I', hs, hW, hI, hK⟩ := split_ok al hms hmo I hfree hbt hne hp' hT (fun e =>
              hnot (hws.2 ⟨hk, .inl ⟨hbt, e⟩⟩))
            refine ⟨st', e, I', hs, fun u => by rw [hW u]; simp, fun u h => ?_, hK⟩
            rcases hI u h with h | ⟨h1, h2⟩
            · exact .inl h
            · exact .inr ⟨by simpa using h1, _, ⟨_, _, hp', by simp, .inl ⟨hbt, rfl⟩⟩, h2⟩
          · rw [if_neg hbt]
            have hbt' : 0 ≤ st.b (st.b n + code c) := by rcases C.leafLet _ hfree hne with h | h <;> omega
            obtain ⟨st', e, I', hs, hW, hI, hK⟩ := ih (v ++ [c]) _ hT hp' hbt' (fun h => hnot (hws.2 ⟨hk, .inr (.inr ⟨hbt', h⟩)⟩))
            exact ⟨st', e, I', hs, fun u => by rw [hW u]; simp, fun u h => by simpa using hI u h, hK⟩
      · rw [if_neg hk]
        obtain ⟨st', e, I', hs, hW, hI⟩ := relocate_ok al I hp hb hw hfree hk
        exact ⟨st', e, I', hs, hW, fun u h => .inl ((hI u).1 h), fun u => (hI u).2⟩

/-- a leaf is deleted -/
theorem dropLeafSt {st : St} (I : Inv A st) {s0 : Int} (hs : st.k s0 ≠ -1) (hb : st.b s0 < 0) (base : AA Int)
    (hbase : ∀ s, s ≠ s0 → base.at s = st.b s) (hsz : st.base.size ≤ base.size) :
    let st' : St := { st with base := base, check := st.check.put s0 (-1) }
    Inv A st' ∧ (∀ u, st'.Inner A code u ↔ st.Inner A code u) ∧ ∀ u, st'.Word A code u ↔ st.Word A code u ∧ ¬ ∃ v0, Path A code st.b st.k v0 s0 ∧
      ((st.b s0 < -1 ∧ u = v0 ++ st.T (-st.b s0 - 2)) ∨ (st.b s0 = -1 ∧ u = v0)) := by
  intro st'
  have hk' : ∀ s, st'.k s = if s = s0 then -1 else st.k s := fun s => AA.at_put _ _ _ _
  obtain ⟨C', hP, hW⟩ := dropLeaf (code := code) I.core hs hb hbase hk'
  have hk2 : ∀ s, st'.k s ≠ -1 → s ≠ s0 ∧ st.k s ≠ -1 := by
    intro s h
    rw [hk'] at h
    by_cases e : s = s0
    · rw [if_pos e] at h; exact absurd rfl h
    · rw [if_neg e] at h; exact ⟨e, h⟩
  refine ⟨⟨C', ?_, ?_⟩, fun u => ?_, hW⟩
  rotate_left 2
  · constructor
    · rintro ⟨s, h1, h2⟩
      obtain ⟨h3, h4⟩ := (hP u s).1 h1
      exact ⟨s, h3, by rw [← hbase s h4]; exact h2⟩
    · rintro ⟨s, h1, h2⟩
      have h4 : s ≠ s0 := by rintro rfl; omega
      exact ⟨s, (hP u s).2 ⟨h1, h4⟩, by show 0 ≤ base.at s; rw [hbase s h4]; exact h2⟩
  · exact I.tails.sub fun s h1 _ => ⟨(hk2 s h1).2, hbase s (hk2 s h1).1⟩
  · have h2 := AA.size_put st.check s0 (-1)
    refine ⟨I.lens.kd, ?_, ?_, I.lens.tsz⟩
    · intro s h _
      have := I.bsz (s := s) (h.imp id fun h => (hk2 s h).2)
      show s < base.size
      omega
    · intro s h
      have := I.lens.ksz s (hk2 s h).2
      show s < (st.check.put _ _).size
      omega

theorem removeGo_ok (al : Alpha A code) {st : St} (I : Inv A st) {ms : Mapper} (hms : Maps A code ms) :
    ∀ (w v : Str) (n : Int), Term A w → Path A code st.b st.k v n → 0 ≤ st.b n →
      (st.Word A code (v ++ w) → ∃ st', removeGo ms st n w = .ok (st', true) ∧ Inv A st' ∧ st'.size = st.size ∧
        (∀ u, st'.Inner A code u ↔ st.Inner A code u) ∧ ∀ u, st'.Word A code u ↔ st.Word A code u ∧ u ≠ v ++ w) ∧
      (¬ st.Word A code (v ++ w) → removeGo ms st n w = .ub ∨ removeGo ms st n w = .ok (st, false)) := by
  intro w
  induction w with
  | nil => intro v n h; exact absurd h Term.nil_not
  | cons c rest ih =>
    intro v n hw hp hb
    have C := I.core
    have hc : Valid A c := by rcases hw.cons_inv with h | h; exacts [.inl h.1, .inr h.1]
    have hr := al.range' hc
    have hna := hp.alloc C
    have hn0 := C.nonneg hna
    have hws := word_step (T := st.T) hp hb hc rest
    unfold removeGo
    rw [hms c hc]
    simp only [Out.ok_bind]
    rw [AA.get_ok _ hn0 (I.bsz hna)]
    simp only [Out.ok_bind]
    rw [show st.base.at n = st.b n from rfl]
    by_cases hfree : st.k (st.b n + code c) = -1
    · have hno : ¬ st.Word A code (v ++ c :: rest) := fun h => by have := (hws.1 h).1; omega
      refine ⟨fun h => absurd h hno, fun _ => ?_⟩
      by_cases hsz : st.b n + code c < st.check.size
      · right
        rw [AA.get_ok _ (by omega) hsz]
        simp only [Out.ok_bind]
        rw [if_pos]
        show st.k (st.b n + code c) ≠ n
        omega
      · left
        unfold AA.get
        rw [if_neg (by omega)]
        rfl
    · rw [AA.get_ok _ (by omega) (I.lens.ksz _ hfree)]
      simp only [Out.ok_bind]
      rw [show st.check.at (st.b n + code c) = st.k (st.b n + code c) from rfl]
      by_cases hk : st.k (st.b n + code c) = n
      · rw [if_neg (by simpa using hk), AA.get_ok _ (by omega) (I.bsz (.inr hfree))]
        simp only [Out.ok_bind]
        rw [show st.base.at (st.b n + code c) = st.b (st.b n + code c) from rfl]
        have hp' := Path.step c hp hb hc hk
        have hoff : st.b n + code c - st.b (st.k (st.b n + code c)) = code c := by rw [hk]; omega
        by_cases hbt : st.b (st.b n + code c) < -1
        · rw [if_pos hbt, AA.getc_ok _ (by omega)]
          simp only [Out.ok_bind]
          rw [show st.tail.at (-st.b (st.b n + code c) - 2) = st.T (-st.b (st.b n + code c) - 2) from rfl]
          by_cases hT : st.T (-st.b (st.b n + code c) - 2) = rest
          · rw [if_pos hT]
            refine ⟨fun _ => ?_, fun h => absurd (hws.2 ⟨hk, .inl ⟨hbt, hT.symm⟩⟩) h⟩
            rw [setBase_ok _ (by omega)]
            simp only [Out.ok_bind]
            rw [setCheck_ok _ (by omega)]
            simp only [Out.ok_bind]
            obtain ⟨I', hI, hW⟩ := dropLeafSt (code := code) I hfree (by omega) (st.base.put (st.b n + code c) (-1)) (fun s h => by
              rw [AA.at_put, if_neg h]; rfl) (AA.size_put _ _ _).1
            refine ⟨_, rfl, I', rfl, hI, fun u => ?_⟩
            rw [hW u]
            refine and_congr_right fun _ => ?_
            constructor
            · rintro h rfl
              exact h ⟨v ++ [c], hp', .inl ⟨hbt, by rw [hT]; simp⟩⟩
            · rintro h ⟨v0, h0, h1 | h1⟩
              · apply h
                rw [h1.2, h0.unique al C hp', hT]; simp
              · omega
          · rw [if_neg hT]
            refine ⟨fun h => ?_, fun _ => .inr rfl⟩
            rcases (hws.1 h).2 with h | h | h
            · exact absurd h.2.symm hT
            · omega
            · omega
        · rw [if_neg hbt]
          rcases hw.cons_inv with ⟨rfl, rfl⟩ | ⟨hA, hT⟩
          · have hb1 : st.b (st.b n + code 1) = -1 := by
              rcases C.leafEnd _ hfree (by rw [hoff]; exact al.end_) with h | h
              · exact h
              · omega
            refine ⟨fun _ => ?_, fun h => absurd (hws.2 ⟨hk, .inr (.inl ⟨hb1, rfl⟩)⟩) h⟩
            unfold removeGo
            rw [setCheck_ok _ (by omega)]
            simp only [Out.ok_bind]
            obtain ⟨I', hI, hW⟩ := dropLeafSt (code := code) I hfree (by omega) st.base (fun s h => rfl) (Int.le_refl _)
            refine ⟨_, rfl, I', rfl, hI, fun u => ?_⟩
            rw [hW u]
            refine and_congr_right fun _ => ?_
            constructor
            · rintro h rfl
              exact h ⟨v ++ [1], hp', .inr ⟨hb1, rfl⟩⟩
            · rintro h ⟨v0, h0, h1 | h1⟩
              · omega
              · exact h (by rw [h1.2, h0.unique al C hp'])
          · have hne : st.b n + code c - st.b (st.k (st.b n + code c)) ≠ 1 := by have := al.range c hA; omega
            have hbt' : 0 ≤ st.b (st.b n + code c) := by rcases C.leafLet _ hfree hne with h | h <;> omega
            have hI := ih (v ++ [c]) _ hT hp' hbt'
            rw [show (v ++ [c]) ++ rest = v ++ c :: rest by simp] at hI
            exact hI
      · rw [if_pos (by simpa using hk)]
        refine ⟨fun h => absurd (hws.1 h).1 hk, fun _ => .inr rfl⟩

end Trie
