import Verif.Proof.TrieBasic
import Mathlib.Order.Basic
import Mathlib.Tactic.Ring

/-! # How far the tables of a trie grow -/

namespace Trie
open Cpp

/-- `base` and `check` have at most `M` entries, and at most `K` tails have been used. -/
structure Bd (M K : Int) (st : St) : Prop where
  m0 : 0 ≤ M
  bi : st.base.init = 26
  ki : st.check.init = 26
  ti : st.tail.init = 0
  bd : st.base.dflt = -1
  kd : st.check.dflt = -1
  bs : st.base.size ≤ M
  ks : st.check.size ≤ M
  ts : st.tail.size ≤ st.pos
  p0 : 0 ≤ st.pos
  pK : st.pos ≤ K
  tl : ∀ t ∈ st.tailList, 0 ≤ t ∧ t < st.pos
  bv : ∀ p, 0 ≤ p → p < st.base.size → -st.pos - 1 ≤ st.base.val p ∧ st.base.val p ≤ M

theorem Bd.mono {M K M' K' : Int} {st : St} (h : Bd M K st) (hM : M ≤ M') (hK : K ≤ K') : Bd M' K' st where
  m0 := le_trans h.m0 hM
  bi := h.bi
  ki := h.ki
  ti := h.ti
  bd := h.bd
  kd := h.kd
  bs := le_trans h.bs hM
  ks := le_trans h.ks hM
  ts := h.ts
  p0 := h.p0
  pK := le_trans h.pK hK
  tl := h.tl
  bv p h1 h2 := ⟨(h.bv p h1 h2).1, le_trans (h.bv p h1 h2).2 hM⟩

theorem AA.get_inv {a : AA α} {p : Int} {v : α} (h : a.get p = .ok v) : 0 ≤ p ∧ p < a.size ∧ a.val p = v := by
  unfold AA.get at h
  split at h
  · rename_i hp
    injection h with h
    exact ⟨hp.1, hp.2, h⟩
  · cases h

theorem Bd.get {M K : Int} {st : St} (h : Bd M K st) {p v : Int} (e : st.base.get p = .ok v) :
    0 ≤ p ∧ p < st.base.size ∧ -st.pos - 1 ≤ v ∧ v ≤ M := by
  obtain ⟨h1, h2, rfl⟩ := AA.get_inv e
  exact ⟨h1, h2, h.bv p h1 h2⟩

theorem setBase_bd {M M' K : Int} {st st' : St} (h : Bd M K st) {p v : Int} (e : setBase st p v = .ok st')
    (hp : p < st.base.size ∨ p + 27 ≤ M') (hM : M ≤ M') (h1 : -st.pos - 1 ≤ v) (h2 : v ≤ M') :
    Bd M' K st' ∧ st'.pos = st.pos ∧ st'.tail = st.tail ∧ st'.base.val p = v := by
  unfold setBase AA.set at e
  split at e
  · rename_i hp0
    simp only [Out.ok_bind] at e
    injection e with e
    subst e
    refine ⟨⟨le_trans h.m0 hM, h.bi, h.ki, h.ti, h.bd, h.kd, ?_, le_trans h.ks hM, h.ts, h.p0, h.pK, h.tl, ?_⟩, rfl, rfl, if_pos rfl⟩
    · dsimp only
      have := h.bi
      have := h.bs
      split <;> omega
    · intro q hq _
      dsimp only
      have := h.p0
      have := h.m0
      split
      · exact ⟨h1, h2⟩
      · split
        · rename_i hh
          exact ⟨(h.bv q hq hh).1, le_trans (h.bv q hq hh).2 hM⟩
        · rw [h.bd]; omega
  · cases e

theorem setCheck_bd {M M' K : Int} {st st' : St} (h : Bd M K st) {p v : Int} (e : setCheck st p v = .ok st')
    (hp : p < st.check.size ∨ p + 27 ≤ M') (hM : M ≤ M') :
    Bd M' K st' ∧ st'.pos = st.pos ∧ st'.tail = st.tail ∧ st'.base = st.base := by
  unfold setCheck AA.set at e
  split at e
  · simp only [Out.ok_bind] at e
    injection e with e
    subst e
    refine ⟨⟨le_trans h.m0 hM, h.bi, h.ki, h.ti, h.bd, h.kd, le_trans h.bs hM, ?_, h.ts, h.p0, h.pK, h.tl,
      fun p h1 h2 => ⟨(h.bv p h1 h2).1, le_trans (h.bv p h1 h2).2 hM⟩⟩, rfl, rfl, rfl⟩
    dsimp only
    have := h.ki
    have := h.ks
    split <;> omega
  · cases e

theorem setTailAt_bd {M K : Int} {st st' : St} (h : Bd M K st) {p : Int} {v : Str} (e : setTailAt st p v = .ok st')
    (hp : p < st.pos) : Bd M K st' ∧ st'.pos = st.pos ∧ st'.base = st.base ∧ st'.check = st.check := by
  unfold setTailAt AA.set at e
  split at e
  · simp only [Out.ok_bind] at e
    injection e with e
    subst e
    refine ⟨⟨h.m0, h.bi, h.ki, h.ti, h.bd, h.kd, h.bs, h.ks, ?_, h.p0, h.pK, h.tl, h.bv⟩, rfl, rfl, rfl⟩
    dsimp only
    have := h.ti
    have := h.ts
    split <;> omega
  · cases e

theorem nextTail_bd {M K : Int} {st : St} (h : Bd M K st) :
    Bd M (K + 1) (nextTail st).2 ∧ 0 ≤ (nextTail st).1 ∧ (nextTail st).1 < (nextTail st).2.pos ∧
      st.pos ≤ (nextTail st).2.pos ∧ (nextTail st).2.base = st.base ∧ (nextTail st).2.check = st.check := by
  have h0 := h.p0
  have hK := h.pK
  have hts := h.ts
  unfold nextTail
  split
  · refine ⟨⟨h.m0, h.bi, h.ki, h.ti, h.bd, h.kd, h.bs, h.ks, ?_, ?_, ?_, ?_, fun p h1 h2 => ?_⟩, h.p0, ?_, ?_, rfl, rfl⟩
    · show st.tail.size ≤ st.pos + 1; omega
    · show 0 ≤ st.pos + 1; omega
    · show st.pos + 1 ≤ K + 1; omega
    · intro t ht
      have := h.tl t ht
      show 0 ≤ t ∧ t < st.pos + 1
      omega
    · have := h.bv p h1 h2
      show -(st.pos + 1) - 1 ≤ st.base.val p ∧ _
      exact ⟨by omega, this.2⟩
    · show st.pos < st.pos + 1; omega
    · show st.pos ≤ st.pos + 1; omega
  · rename_i t l hl
    have ht := h.tl t (by rw [hl]; simp)
    exact ⟨⟨h.m0, h.bi, h.ki, h.ti, h.bd, h.kd, h.bs, h.ks, h.ts, h.p0, by show st.pos ≤ K + 1; omega,
      fun u hu => h.tl u (by rw [hl]; simp [hu]), h.bv⟩, ht.1, ht.2, le_refl _, rfl, rfl⟩

theorem checkAvailableFrom_le (check : AA Int) (list : List Int) : ∀ (fuel : Nat) (q r : Int),
    checkAvailableFrom check list fuel q = .ok r → r < q + fuel
  | 0, _, _, h => by cases h
  | fuel + 1, q, r, h => by
    unfold checkAvailableFrom at h
    obtain ⟨free, -, h⟩ := Out.bind_eq_ok.1 h
    split at h
    · injection h with h; omega
    · have := checkAvailableFrom_le check list fuel (q + 1) r h
      push_cast
      omega

theorem checkAvailableFrom_ge (check : AA Int) (list : List Int) : ∀ (fuel : Nat) (q r : Int),
    checkAvailableFrom check list fuel q = .ok r → q ≤ r
  | 0, _, _, h => by cases h
  | fuel + 1, q, r, h => by
    unfold checkAvailableFrom at h
    obtain ⟨free, -, h⟩ := Out.bind_eq_ok.1 h
    split at h
    · injection h with h; omega
    · have := checkAvailableFrom_ge check list fuel (q + 1) r h
      omega

theorem checkAvailable_le {M K : Int} {st : St} (h : Bd M K st) {list : List Int} {q : Int}
    (e : checkAvailable st list = .ok q) : 0 ≤ q ∧ q ≤ M := by
  have := checkAvailableFrom_ge _ _ _ _ _ e
  have := checkAvailableFrom_le _ _ _ _ _ e
  have := h.ks
  have := h.m0
  omega

/-- the characters have numbers up to 27 -/
def Small (m : Mapper) : Prop := ∀ c i, m c = .ok i → i ≤ 27

theorem mapChar_small : Small mapChar := by
  intro c i h
  unfold mapChar at h
  split at h
  · injection h with h; omega
  · split at h
    · cases h
    · injection h with h; omega

theorem chain_bd {ms : Mapper} (hm : Small ms) : ∀ (cs : Str) {M K : Int} {st st' : St} {next next' : Int}, Bd M K st →
    next < st.base.size ∨ next + 27 ≤ M → chain ms st next cs = .ok (st', next') →
    Bd (M + 54 * cs.length) K st' ∧ st'.pos = st.pos ∧ st'.tail = st.tail ∧
      (next' < st'.base.size ∨ next' + 27 ≤ M + 54 * cs.length)
  | [], M, K, st, st', next, next', h, hn, e => by
    unfold chain at e
    injection e with e
    injection e with e1 e2
    subst e1 e2
    simp only [List.length_nil, Nat.cast_zero, mul_zero, add_zero]
    exact ⟨h, trivial, trivial, hn⟩
  | c :: cs, M, K, st, st', next, next', h, hn, e => by
    unfold chain at e
    obtain ⟨j, hj, e⟩ := Out.bind_eq_ok.1 e
    obtain ⟨q, hq, e⟩ := Out.bind_eq_ok.1 e
    obtain ⟨st1, h1, e⟩ := Out.bind_eq_ok.1 e
    obtain ⟨st2, h2, e⟩ := Out.bind_eq_ok.1 e
    obtain ⟨b, hb, e⟩ := Out.bind_eq_ok.1 e
    have hj := hm _ _ hj
    obtain ⟨hq0, hq⟩ := checkAvailable_le h hq
    have hM := h.m0
    have hp := h.p0
    obtain ⟨B1, p1, t1, v1⟩ := setBase_bd (M' := M) h h1 hn (le_refl _) (by omega) hq
    obtain ⟨B2, p2, t2, v2⟩ := setCheck_bd (M' := M + 54) B1 h2 (by omega) (by omega)
    have hb' := (AA.get_inv hb).2.2
    rw [v2, v1] at hb'
    obtain ⟨B3, p3, t3, v3⟩ := chain_bd hm cs B2 (by omega) e
    simp only [List.length_cons]
    push_cast
    rw [show M + 54 * ((cs.length : Int) + 1) = M + 54 + 54 * cs.length by ring]
    exact ⟨B3, by omega, by rw [t3, t2, t1], v3⟩

theorem firstDiff_lt : ∀ (s t : Str) (i j : Nat), firstDiff s t i = some j → j < i + s.length
  | [], _, _, _, h => by cases h
  | _ :: _, [], _, _, h => by cases h
  | a :: s, b :: t, i, j, h => by
    unfold firstDiff at h
    split at h
    · injection h with h; simp only [List.length_cons]; omega
    · have := firstDiff_lt s t (i + 1) j h
      simp only [List.length_cons]; omega

theorem commonPrefix_le (s t : Str) : (commonPrefix s t).length ≤ s.length := by
  unfold commonPrefix
  split
  rename_i a b hab
  have ha : a.length ≤ s.length := by
    split at hab
    · injection hab with h1 h2; subst h1; omega
    · injection hab with h1 h2; subst h1; omega
  split
  · simp only [List.length_take]; omega
  · split
    · simp
    · exact ha

theorem outArcs_mem {M K : Int} {st : St} (h : Bd M K st) {n b : Int} (hb : st.base.get n = .ok b) {l : List Int}
    (e : outArcs st n = .ok l) : ∀ k ∈ l, k ≤ 27 ∧ b + k < st.check.size := by
  unfold outArcs at e
  rw [hb] at e
  simp only [Out.ok_bind] at e
  have hn := (AA.get_inv hb).1
  have key : ∀ (is acc : List Int) (l : List Int), (∀ i ∈ is, i ≤ 27) → (∀ k ∈ acc, k ≤ 27 ∧ b + k < st.check.size) →
      is.foldlM (fun l i => do if (← st.check.getc (b + i)) = n then .ok (l ++ [i]) else .ok l) acc = Out.ok l →
      ∀ k ∈ l, k ≤ 27 ∧ b + k < st.check.size := by
    intro is
    induction is with
    | nil =>
      intro acc l _ ha e
      injection e with e
      subst e
      exact ha
    | cons i is ih =>
      intro acc l hi ha e
      rw [List.foldlM_cons] at e
      obtain ⟨acc', e1, e⟩ := Out.bind_eq_ok.1 e
      refine ih acc' l (fun j hj => hi j (by simp [hj])) ?_ e
      obtain ⟨c, hc, e1⟩ := Out.bind_eq_ok.1 e1
      split at e1
      · rename_i hcn
        injection e1 with e1
        subst e1
        intro k hk
        rcases List.mem_append.1 hk with hk | hk
        · exact ha k hk
        · rw [List.mem_singleton] at hk
          subst hk
          refine ⟨hi k (by simp), ?_⟩
          unfold AA.getc at hc
          split at hc
          · assumption
          · injection hc with hc
            rw [h.kd] at hc
            omega
      · injection e1 with e1
        subst e1
        exact ha
  refine key _ _ _ ?_ (by simp) e
  intro i hi
  obtain ⟨j, hj, rfl⟩ := List.mem_map.1 hi
  have := List.mem_range.1 hj
  omega

theorem setTail_bd {M K : Int} {st st' : St} (h : Bd M K st) {n next : Int} {rest : Str} (hn : next ≤ M + 27)
    (e : setTail st n next rest = .ok st') : Bd (M + 54) (K + 1) st' := by
  unfold setTail at e
  obtain ⟨B1, q0, q1, p1, b1, c1⟩ := nextTail_bd h
  generalize hnt : nextTail st = r at *
  obtain ⟨p, st1⟩ := r
  dsimp only at e B1 q0 q1 p1 b1 c1
  obtain ⟨st2, h2, e⟩ := Out.bind_eq_ok.1 e
  obtain ⟨st3, h3, e⟩ := Out.bind_eq_ok.1 e
  obtain ⟨B2, p2, b2, c2⟩ := setTailAt_bd B1 h2 q1
  have := B2.m0
  obtain ⟨B3, -⟩ := setBase_bd (M' := M + 54) B2 h3 (by omega) (by omega) (by omega) (by omega)
  exact (setCheck_bd (M' := M + 54) B3 e (by omega) (le_refl _)).1

theorem Bd.free {M K : Int} {st : St} (h : Bd M K st) {t : Int} (h0 : 0 ≤ t) (h1 : t < st.pos) :
    Bd M K { st with tailList := st.tailList ++ [t] } where
  m0 := h.m0
  bi := h.bi
  ki := h.ki
  ti := h.ti
  bd := h.bd
  kd := h.kd
  bs := h.bs
  ks := h.ks
  ts := h.ts
  p0 := h.p0
  pK := h.pK
  bv := h.bv
  tl u hu := by
    rcases List.mem_append.1 hu with hu | hu
    · exact h.tl u hu
    · rw [List.mem_singleton] at hu
      subst hu
      exact ⟨h0, h1⟩

theorem split_bd {ms mo : Mapper} (hm : Small ms) (ho : Small mo) {M K : Int} {st st' : St} (h : Bd M K st) {next : Int}
    {rest : Str} (e : split ms mo st next rest = .ok st') : Bd (M + 54 * (rest.length + 1)) (K + 1) st' := by
  unfold split at e
  obtain ⟨b, hb, e⟩ := Out.bind_eq_ok.1 e
  obtain ⟨tt, htt, e⟩ := Out.bind_eq_ok.1 e
  obtain ⟨b0, b1, b2, b3⟩ := h.get hb
  obtain ⟨t0, t1, -⟩ := AA.get_inv htt
  have hts := h.ts
  obtain ⟨⟨st1, next1⟩, hc, e⟩ := Out.bind_eq_ok.1 e
  dsimp only at e
  obtain ⟨B1, p1, -, n1⟩ := chain_bd hm _ h (Or.inl b1) hc
  have hpl : (commonPrefix rest tt).length ≤ rest.length := commonPrefix_le rest tt
  generalize (commonPrefix rest tt).length = pl at *
  obtain ⟨ct, -, e⟩ := Out.bind_eq_ok.1 e
  obtain ⟨ctv, hctv, e⟩ := Out.bind_eq_ok.1 e
  obtain ⟨cn, -, e⟩ := Out.bind_eq_ok.1 e
  obtain ⟨cnv, hcnv, e⟩ := Out.bind_eq_ok.1 e
  obtain ⟨q, hq, e⟩ := Out.bind_eq_ok.1 e
  have hctv := ho _ _ hctv
  have hcnv := ho _ _ hcnv
  obtain ⟨q0, hq⟩ := checkAvailable_le B1 hq
  have hm0 := B1.m0
  have hp0 := B1.p0
  obtain ⟨st2, h2, e⟩ := Out.bind_eq_ok.1 e
  obtain ⟨B2, p2, -⟩ := setBase_bd (M' := M + 54 * pl) B1 h2 n1 (le_refl _) (by omega) hq
  obtain ⟨st3, h3, e⟩ := Out.bind_eq_ok.1 e
  generalize hM' : M + 54 * (pl : Int) = M' at *
  have key3 : Bd (M' + 54) K st3 ∧ st3.pos = st2.pos := by
    split at h3
    · obtain ⟨st3', h3', h3⟩ := Out.bind_eq_ok.1 h3
      obtain ⟨B, pp, -⟩ := setBase_bd (M' := M' + 54) B2 h3' (by omega) (by omega) (by omega) (by omega)
      injection h3 with h3
      subst h3
      exact ⟨B.free t0 (by omega), pp⟩
    · obtain ⟨st3', h3', h3⟩ := Out.bind_eq_ok.1 h3
      obtain ⟨B, pp, -⟩ := setBase_bd (M' := M' + 54) B2 h3' (by omega) (by omega) (by omega) (by omega)
      obtain ⟨B', pp', -⟩ := setTailAt_bd B h3 (by omega)
      exact ⟨B', by omega⟩
  obtain ⟨B3, p3⟩ := key3
  obtain ⟨st4, h4, e⟩ := Out.bind_eq_ok.1 e
  obtain ⟨B4, p4, -⟩ := setCheck_bd (M' := M' + 54) B3 h4 (by omega) (by omega)
  obtain ⟨st5, h5, e⟩ := Out.bind_eq_ok.1 e
  have key5 : Bd (M' + 54) (K + 1) st5 := by
    split at h5
    · exact (setBase_bd (M' := M' + 54) B4 h5 (by omega) (by omega) (by omega) (by omega)).1.mono (le_refl _) (by omega)
    · obtain ⟨C1, r0, r1, s1, d1, f1⟩ := nextTail_bd B4
      generalize hnt : nextTail st4 = r at *
      obtain ⟨p, st4'⟩ := r
      dsimp only at h5 C1 r0 r1 s1 d1 f1
      obtain ⟨st5', h5', h5⟩ := Out.bind_eq_ok.1 h5
      obtain ⟨C2, u2, -⟩ := setBase_bd (M' := M' + 54) C1 h5' (by omega) (by omega) (by omega) (by omega)
      exact (setTailAt_bd C2 h5 (by omega)).1
  exact (setCheck_bd (M' := M' + 54) key5 e (by omega) (le_refl _)).1.mono (by omega) (le_refl _)

theorem setCheck_size {st st' : St} {p v : Int} (e : setCheck st p v = .ok st') (hk : st.check.init = 26) :
    st.check.size ≤ st'.check.size := by
  unfold setCheck AA.set at e
  split at e
  · simp only [Out.ok_bind] at e
    injection e with e
    subst e
    dsimp only
    split <;> omega
  · cases e

theorem setBase_size {st st' : St} {p v : Int} (e : setBase st p v = .ok st') (hk : st.base.init = 26) :
    st.base.size ≤ st'.base.size ∧ st'.check = st.check ∧ p < st'.base.size := by
  unfold setBase AA.set at e
  split at e
  · simp only [Out.ok_bind] at e
    injection e with e
    subst e
    dsimp only
    refine ⟨?_, rfl, ?_⟩ <;> split <;> omega
  · cases e

theorem moveArc_bd {M K : Int} {st st' : St} (h : Bd M K st) {tb nb other other' j : Int} (hj : nb + j + 27 ≤ M)
    (e : moveArc tb nb (st, other) j = .ok (st', other')) : Bd M K st' := by
  unfold moveArc at e
  dsimp only at e
  obtain ⟨b, hb, e⟩ := Out.bind_eq_ok.1 e
  obtain ⟨b0, b1, b2, b3⟩ := h.get hb
  obtain ⟨st1, h1, e⟩ := Out.bind_eq_ok.1 e
  obtain ⟨B1, p1, -⟩ := setBase_bd (M' := M) h h1 (by omega) (le_refl _) (by omega) (by omega)
  obtain ⟨c, hc, e⟩ := Out.bind_eq_ok.1 e
  have hc' := AA.get_inv hc
  obtain ⟨st2, h2, e⟩ := Out.bind_eq_ok.1 e
  obtain ⟨B2, p2, -, v2⟩ := setCheck_bd (M' := M) B1 h2 (by omega) (le_refl _)
  have k2 := setCheck_size h2 B1.ki
  obtain ⟨b', hb', e⟩ := Out.bind_eq_ok.1 e
  obtain ⟨st3, h3, e⟩ := Out.bind_eq_ok.1 e
  have p0 := B2.p0
  have m0 := B2.m0
  have key3 : Bd M K st3 ∧ st3.base = st2.base ∧ st2.check.size ≤ st3.check.size := by
    split at h3
    · obtain ⟨l, hl, h3⟩ := Out.bind_eq_ok.1 h3
      have hlm := outArcs_mem B2 hb' hl
      have gen : ∀ (l : List Int) (s s' : St), (∀ k ∈ l, b' + k < s.check.size) → s.base = st2.base → Bd M K s →
          l.foldlM (fun st k => do setCheck st ((← st.base.get (tb + j)) + k) (nb + j)) s = Out.ok s' →
          Bd M K s' ∧ s'.base = st2.base ∧ s.check.size ≤ s'.check.size := by
        intro l
        induction l with
        | nil =>
          intro s s' _ hs B e
          injection e with e
          subst e
          exact ⟨B, hs, le_refl _⟩
        | cons k l ih =>
          intro s s' hk hs B e
          rw [List.foldlM_cons] at e
          obtain ⟨s1, e1, e⟩ := Out.bind_eq_ok.1 e
          rw [hs, hb'] at e1
          simp only [Out.ok_bind] at e1
          have hsz := setCheck_size e1 B.ki
          obtain ⟨B', -, -, hs'⟩ := setCheck_bd (M' := M) B e1 (Or.inl (hk k (by simp))) (le_refl _)
          obtain ⟨r1, r2, r3⟩ := ih s1 s' (fun k' hk' => by have := hk k' (by simp [hk']); omega) (hs'.trans hs) B' e
          exact ⟨r1, r2, by omega⟩
      exact gen l st2 st3 (fun k hk => (hlm k hk).2) rfl B2 h3
    · injection h3 with h3
      subst h3
      exact ⟨B2, rfl, le_refl _⟩
  obtain ⟨B3, v3, k3⟩ := key3
  have p03 := B3.p0
  obtain ⟨st4, h4, e⟩ := Out.bind_eq_ok.1 e
  have hbig := (AA.get_inv hb').2.1
  rw [← v3] at hbig
  obtain ⟨B4, -⟩ := setBase_bd (M' := M) B3 h4 (Or.inl hbig) (le_refl _) (by omega) (by omega)
  have k4 := (setBase_size h4 B3.bi).2.1
  have k1 := (setBase_size h1 h.bi).2.1
  obtain ⟨st5, h5, e⟩ := Out.bind_eq_ok.1 e
  injection e with e
  injection e with e1 e2
  subst e1
  exact (setCheck_bd (M' := M) B4 h5 (Or.inl (by rw [k4]; omega)) (le_refl _)).1

theorem moveArcs_bd {M K : Int} {tb nb : Int} : ∀ (l : List Int) {st st' : St} {other other' : Int}, Bd M K st →
    (∀ j ∈ l, nb + j + 27 ≤ M) → l.foldlM (moveArc tb nb) (st, other) = .ok (st', other') → Bd M K st'
  | [], _, _, _, _, h, _, e => by
    injection e with e
    injection e with e1 e2
    subst e1
    exact h
  | j :: l, _, _, _, _, h, hj, e => by
    rw [List.foldlM_cons] at e
    obtain ⟨⟨s, o⟩, e1, e⟩ := Out.bind_eq_ok.1 e
    exact moveArcs_bd l (moveArc_bd h (hj j (by simp)) e1) (fun j hj' => hj j (by simp [hj'])) e

theorem relocate_bd {M K : Int} {st st' : St} (h : Bd M K st) {n next i b : Int} {rest : Str}
    (hb : st.base.get n = .ok b) (hi : i ≤ 27)
    (e : relocate st n next i rest = .ok st') : Bd (M + 108) (K + 1) st' := by
  unfold relocate at e
  obtain ⟨listN, hN, e⟩ := Out.bind_eq_ok.1 e
  obtain ⟨other, hother, e⟩ := Out.bind_eq_ok.1 e
  obtain ⟨listC, hC, e⟩ := Out.bind_eq_ok.1 e
  obtain ⟨⟨node, list, nb⟩, hsel, e⟩ := Out.bind_eq_ok.1 e
  dsimp only at e
  obtain ⟨tb, htb, e⟩ := Out.bind_eq_ok.1 e
  have hobs : ∃ bo, st.base.get other = .ok bo := by
    unfold outArcs at hC
    obtain ⟨bo, hbo, -⟩ := Out.bind_eq_ok.1 hC
    exact ⟨bo, hbo⟩
  obtain ⟨bo, hbo⟩ := hobs
  have sel : (0 ≤ nb ∧ nb ≤ M) ∧ ∀ j ∈ list, j ≤ 27 := by
    split at hsel
    · obtain ⟨q, hq, hsel⟩ := Out.bind_eq_ok.1 hsel
      injection hsel with hsel
      injection hsel with h1 h2
      injection h2 with h2 h3
      subst h1 h2 h3
      exact ⟨checkAvailable_le h hq, fun j hj => (outArcs_mem h hb hN j hj).1⟩
    · obtain ⟨q, hq, hsel⟩ := Out.bind_eq_ok.1 hsel
      injection hsel with hsel
      injection hsel with h1 h2
      injection h2 with h2 h3
      subst h1 h2 h3
      exact ⟨checkAvailable_le h hq, fun j hj => (outArcs_mem h hbo hC j hj).1⟩
  obtain ⟨⟨nb0, nb1⟩, hl⟩ := sel
  obtain ⟨st1, h1, e⟩ := Out.bind_eq_ok.1 e
  have := h.p0
  have := h.m0
  obtain ⟨B1, -⟩ := setBase_bd (M' := M + 54) h h1 (Or.inl (AA.get_inv htb).2.1) (by omega) (by omega) (by omega)
  obtain ⟨⟨st2, no⟩, h2, e⟩ := Out.bind_eq_ok.1 e
  dsimp only at e
  have B2 := moveArcs_bd list B1 (fun j hj => by have := hl j hj; omega) h2
  obtain ⟨bn, hbn, e⟩ := Out.bind_eq_ok.1 e
  obtain ⟨n0, n1, n2, n3⟩ := B2.get hbn
  obtain ⟨st3, h3, e⟩ := Out.bind_eq_ok.1 e
  have := B2.p0
  have B3 : Bd (M + 108) (K + 1) st3 := by
    split at h3
    · exact (setBase_bd (M' := M + 108) B2 h3 (by omega) (by omega) (by omega) (by omega)).1.mono (le_refl _) (by omega)
    · obtain ⟨C1, r0, r1, s1, d1, f1⟩ := nextTail_bd B2
      generalize hnt : nextTail st2 = r at *
      obtain ⟨p, st2'⟩ := r
      dsimp only at h3 C1 r0 r1 s1 d1 f1
      obtain ⟨st3', h3', h3⟩ := Out.bind_eq_ok.1 h3
      obtain ⟨C2, u2, -⟩ := setBase_bd (M' := M + 108) C1 h3' (by omega) (by omega) (by omega) (by omega)
      exact (setTailAt_bd C2 h3 (by omega)).1
  exact (setCheck_bd (M' := M + 108) B3 e (by omega) (le_refl _)).1

theorem insertGo_bd {ms mo : Mapper} (hm : Small ms) (ho : Small mo) : ∀ (w : Str) {M K : Int} {st st' : St} {n : Int},
    Bd M K st → insertGo ms mo st n w = .ok st' → Bd (M + 54 * (w.length + 1)) (K + 1) st'
  | [], M, K, st, st', n, h, e => by
    unfold insertGo at e
    injection e with e
    subst e
    exact h.mono (by simp) (by omega)
  | c :: rest, M, K, st, st', n, h, e => by
    unfold insertGo at e
    obtain ⟨i, hi, e⟩ := Out.bind_eq_ok.1 e
    obtain ⟨b, hb, e⟩ := Out.bind_eq_ok.1 e
    dsimp only at e
    obtain ⟨k, hk, e⟩ := Out.bind_eq_ok.1 e
    have hi := hm _ _ hi
    obtain ⟨b0, b1, b2, b3⟩ := h.get hb
    simp only [List.length_cons]
    push_cast
    split at e
    · exact (setTail_bd h (by omega) e).mono (by omega) (le_refl _)
    · obtain ⟨k', hk', e⟩ := Out.bind_eq_ok.1 e
      split at e
      · obtain ⟨b', hb', e⟩ := Out.bind_eq_ok.1 e
        split at e
        · exact (split_bd hm ho h e).mono (by omega) (le_refl _)
        · exact (insertGo_bd hm ho rest h e).mono (by omega) (le_refl _)
      · exact (relocate_bd h hb hi e).mono (by omega) (le_refl _)

theorem insert_bd {ms mo : Mapper} (hm : Small ms) (ho : Small mo) {M K : Int} {st st' : St} {w : Str} (h : Bd M K st)
    (e : insert ms mo st w = .ok st') : Bd (M + 54 * (w.length + 2)) (K + 1) st' := by
  unfold insert at e
  obtain ⟨r, -, e⟩ := Out.bind_eq_ok.1 e
  split at e
  · injection e with e
    subst e
    exact h.mono (by omega) (by omega)
  · obtain ⟨st1, h1, e⟩ := Out.bind_eq_ok.1 e
    injection e with e
    subst e
    have B := insertGo_bd hm ho _ h h1
    simp only [List.length_append, List.length_singleton] at B
    push_cast at B
    rw [show M + 54 * ((w.length : Int) + 1 + 1) = M + 54 * (w.length + 2) by ring] at B
    exact ⟨B.m0, B.bi, B.ki, B.ti, B.bd, B.kd, B.bs, B.ks, B.ts, B.p0, B.pK, B.tl, B.bv⟩

theorem removeGo_bd {ms : Mapper} : ∀ (w : Str) {M K : Int} {st st' : St} {n : Int} {r : Bool},
    Bd M K st → (w = [] → n < st.check.size) → removeGo ms st n w = .ok (st', r) → Bd M K st'
  | [], M, K, st, st', n, r, h, hn, e => by
    unfold removeGo at e
    obtain ⟨st1, h1, e⟩ := Out.bind_eq_ok.1 e
    injection e with e
    injection e with e1 e2
    subst e1
    exact (setCheck_bd (M' := M) h h1 (Or.inl (hn rfl)) (le_refl _)).1
  | c :: rest, M, K, st, st', n, r, h, hn, e => by
    unfold removeGo at e
    obtain ⟨i, hi, e⟩ := Out.bind_eq_ok.1 e
    obtain ⟨b, hb, e⟩ := Out.bind_eq_ok.1 e
    dsimp only at e
    obtain ⟨k, hk, e⟩ := Out.bind_eq_ok.1 e
    have hk := AA.get_inv hk
    have p0 := h.p0
    have m0 := h.m0
    split at e
    · injection e with e
      injection e with e1 e2
      subst e1
      exact h
    · obtain ⟨b', hb', e⟩ := Out.bind_eq_ok.1 e
      split at e
      · obtain ⟨t, ht, e⟩ := Out.bind_eq_ok.1 e
        obtain ⟨t', ht', e⟩ := Out.bind_eq_ok.1 e
        split at e
        · obtain ⟨st1, h1, e⟩ := Out.bind_eq_ok.1 e
          obtain ⟨st2, h2, e⟩ := Out.bind_eq_ok.1 e
          injection e with e
          injection e with e1 e2
          subst e1
          obtain ⟨B1, -⟩ := setBase_bd (M' := M) h h1 (Or.inl (AA.get_inv hb').2.1) (le_refl _) (by omega) (by omega)
          have k1 := (setBase_size h1 h.bi).2.1
          exact (setCheck_bd (M' := M) B1 h2 (Or.inl (by rw [k1]; exact hk.2.1)) (le_refl _)).1
        · injection e with e
          injection e with e1 e2
          subst e1
          exact h
      · exact removeGo_bd rest h (fun _ => hk.2.1) e

theorem remove_bd {ms : Mapper} {M K : Int} {st st' : St} {w : Str} (h : Bd M K st)
    (e : remove ms st w = .ok st') : Bd M K st' := by
  unfold remove at e
  obtain ⟨⟨st1, r⟩, h1, e⟩ := Out.bind_eq_ok.1 e
  have B := removeGo_bd _ h (by simp) h1
  injection e with e
  subst e
  split
  · exact ⟨B.m0, B.bi, B.ki, B.ti, B.bd, B.kd, B.bs, B.ks, B.ts, B.p0, B.pK, B.tl, B.bv⟩
  · exact B

theorem new_bd {st : St} (e : new = .ok st) : Bd 26 0 st := by
  unfold new AA.set AA.new at e
  simp only [le_refl, if_true, Out.ok_bind] at e
  injection e with e
  subst e
  refine ⟨by omega, rfl, rfl, rfl, rfl, rfl, by simp, by simp, by simp, le_refl _, le_refl _, by simp, ?_⟩
  intro p h1 h2
  dsimp only
  split
  · omega
  · split <;> omega

theorem run_bd {ops : List (Bool × Str)} {st : St} (e : run ops = .ok st) :
    Bd (26 + 54 * ((ops.filter (·.1)).map fun op => (op.2.length : Int) + 2).sum) (ops.filter (·.1)).length st := by
  unfold run at e
  obtain ⟨st0, h0, e⟩ := Out.bind_eq_ok.1 e
  have gen : ∀ (ops : List (Bool × Str)) (M K : Int) (s : St), Bd M K s →
      ops.foldlM (fun st op => if op.1 then insert mapChar mapChar st op.2 else remove mapChar st op.2) s = Out.ok st →
      Bd (M + 54 * ((ops.filter (·.1)).map fun op => (op.2.length : Int) + 2).sum) (K + (ops.filter (·.1)).length) st := by
    intro ops
    induction ops with
    | nil =>
      intro M K s B e
      injection e with e
      subst e
      simpa using B
    | cons op ops ih =>
      obtain ⟨ins, w⟩ := op
      intro M K s B e
      rw [List.foldlM_cons] at e
      obtain ⟨s1, e1, e2⟩ := Out.bind_eq_ok.1 e
      cases ins with
      | true =>
        have B' := ih _ _ s1 (insert_bd mapChar_small mapChar_small B e1) e2
        exact B'.mono (by simp; omega) (by simp; omega)
      | false =>
        have B' := ih _ _ s1 (remove_bd B e1) e2
        exact B'.mono (by simp) (by simp)
  have := gen ops 26 0 st0 (new_bd h0) e
  simpa using this

/-! ### tails which are never used again -/

/-- nothing is stored, and `n` tails have been used up -/
structure Leak (n : Nat) (st : St) : Prop where
  b0 : st.base.at 0 = 0
  bs : 26 ≤ st.base.size
  k0 : ∀ p, st.check.at p = -1
  ks : 26 ≤ st.check.size
  tl : st.tailList = []
  po : st.pos = n
  ts : st.tail.size = n
  ti : st.tail.init = 0
  sz : st.size = 0

theorem new_leak {st : St} (e : new = .ok st) : Leak 0 st := by
  unfold new AA.set AA.new at e
  simp only [le_refl, if_true, Out.ok_bind] at e
  injection e with e
  subst e
  refine ⟨?_, ?_, ?_, ?_, rfl, rfl, rfl, rfl, rfl⟩
  · simp [AA.at]
  · simp
  · intro p; simp [AA.at]
  · simp

theorem leak_step {n : Nat} {st : St} (h : Leak n st) :
    ∃ st1 st2, insert mapChar mapChar st [97] = .ok st1 ∧ remove mapChar st1 [97] = .ok st2 ∧ Leak (n + 1) st2 := by
  have hbs := h.bs
  have hks := h.ks
  have m97 : mapChar 97 = .ok 2 := by decide +kernel
  have hb : st.base.get 0 = .ok 0 := by rw [AA.get_ok _ (le_refl _) (by omega), h.b0]
  have hk : st.check.getc 2 = .ok (-1) := by rw [AA.getc_ok _ (by omega), h.k0]
  have hc : contain mapChar st [97] = .ok false := by
    simp [contain, retrieve, m97, hb, hk]
  have hn : nextTail st = ((n : Int), { st with pos := (n : Int) + 1 }) := by
    unfold nextTail; rw [h.tl, h.po]
  have hi : insert mapChar mapChar st [97] = .ok { st with
      base := st.base.put 2 (-(n : Int) - 2), check := st.check.put 2 0, tail := st.tail.put n [1],
      pos := (n : Int) + 1, size := 1 } := by
    simp [insert, hc, insertGo, m97, hb, hk, setTail, hn, setTailAt, setBase, setCheck, AA.set_ok, endChar, h.sz]
  refine ⟨_, { st with
      base := (st.base.put 2 (-(n : Int) - 2)).put 2 (-1), check := (st.check.put 2 0).put 2 (-1),
      tail := st.tail.put n [1], pos := (n : Int) + 1, size := 0 }, hi, ?_, ?_⟩
  · have s1 := AA.size_put st.base 2 (-(n : Int) - 2)
    have s2 := AA.size_put st.check 2 0
    have g1 : (st.base.put 2 (-(n : Int) - 2)).get 0 = .ok 0 := by
      rw [AA.get_ok _ (le_refl _) (by omega), AA.at_put, if_neg (by omega), h.b0]
    have g2 : (st.base.put 2 (-(n : Int) - 2)).get 2 = .ok (-(n : Int) - 2) := by
      rw [AA.get_ok _ (by omega) (by omega), AA.at_put, if_pos rfl]
    have g3 : (st.check.put 2 0).get 2 = .ok 0 := by
      rw [AA.get_ok _ (by omega) (by omega), AA.at_put, if_pos rfl]
    have g4 : (st.tail.put n [1]).getc n = .ok [1] := by
      rw [AA.getc_ok _ (by omega), AA.at_put, if_pos rfl]
    have g5 : -(n : Int) - 2 < -1 := by omega
    simp [remove, removeGo, m97, g1, g2, g3, g4, g5, endChar, setBase, setCheck, AA.set_ok]
  · have s1 := AA.size_put st.base 2 (-(n : Int) - 2)
    have s2 := AA.size_put st.check 2 0
    have s3 := AA.size_put (st.base.put 2 (-(n : Int) - 2)) 2 (-1)
    have s4 := AA.size_put (st.check.put 2 0) 2 (-1)
    refine ⟨?_, ?_, ?_, ?_, h.tl, ?_, ?_, h.ti, rfl⟩
    · show ((st.base.put 2 (-(n : Int) - 2)).put 2 (-1)).at 0 = 0
      rw [AA.at_put, if_neg (by omega), AA.at_put, if_neg (by omega), h.b0]
    · show 26 ≤ ((st.base.put 2 (-(n : Int) - 2)).put 2 (-1)).size
      omega
    · intro p
      show ((st.check.put 2 0).put 2 (-1)).at p = -1
      rw [AA.at_put, AA.at_put]
      split
      · rfl
      · exact h.k0 p
    · show 26 ≤ ((st.check.put 2 0).put 2 (-1)).size
      omega
    · simp
    · have := h.ts
      have := h.ti
      simp only [AA.put]
      rw [if_pos (by omega), h.ti]
      simp

theorem run_leak (n : Nat) : ∃ st, run (List.replicate n [(true, [97]), (false, [97])]).flatten = .ok st ∧ Leak n st := by
  have h0 : ∃ st0, new = .ok st0 := ⟨_, by unfold new; rw [AA.set_ok _ (le_refl _)]; rfl⟩
  obtain ⟨st0, h0⟩ := h0
  induction n with
  | zero => exact ⟨st0, by simp [run, h0], new_leak h0⟩
  | succ n ih =>
    obtain ⟨st, e, L⟩ := ih
    obtain ⟨st1, st2, e1, e2, L'⟩ := leak_step L
    refine ⟨st2, ?_, L'⟩
    rw [List.replicate_succ', List.flatten_append]
    unfold run at e ⊢
    rw [h0] at e ⊢
    simp only [Out.ok_bind] at e ⊢
    rw [List.foldlM_append, e]
    simp [e1, e2]

end Trie
