import Verif.Proof.TrieBasic

/-! # Insertion into the trie -/

namespace Trie
open Cpp

variable {A : Byte → Prop} {code : Byte → Int}

theorem AA.put_put (a : AA α) (p : Int) (v w : α) : (a.put p v).put p w = a.put p w := by
  unfold AA.put
  have := Int.natCast_nonneg a.init
  congr 1
  · dsimp only
    by_cases h : p ≥ a.size
    · rw [if_pos h, if_neg (by omega)]
    · rw [if_neg h, if_neg h]
  · funext q
    dsimp only
    by_cases e : q = p
    · rw [if_pos e, if_pos e]
    · rw [if_neg e, if_neg e, if_neg e]
      by_cases h : q < a.size
      · rw [if_pos h, if_pos (by split <;> omega)]
      · rw [if_neg h]; simp

theorem St.b_put (st : St) (base : AA Int) (p v : Int) (h : st.base = base.put p v) (q : Int) :
    st.b q = if q = p then v else base.at q := by
  unfold St.b; rw [h, AA.at_put]

/-- A new leaf (or childless inner node) in a free slot. -/
theorem addLeafSt (al : Alpha A code) {st : St} (I : Inv A st) {n x pos : Int} {tl : List Int} {ta : AA Str} {c : Byte}
    (hn : n = 0 ∨ st.k n ≠ -1) (hbn : 0 ≤ st.b n) (hc : Valid A c) (hfree : st.k (st.b n + code c) = -1)
    (hta : ∀ s, st.k s ≠ -1 → st.b s < -1 → ta.at (-st.b s - 2) = st.T (-st.b s - 2))
    (tails : Tails st.b st.k pos tl)
    (hx : x < -1 → -x - 2 < pos ∧ -x - 2 ∉ tl ∧ ∀ s, st.k s ≠ -1 → st.b s ≠ x) (hsz : pos ≤ ta.size)
    (hx1 : c = 1 → x = -1 ∨ (x < -1 ∧ ta.at (-x - 2) = []))
    (hx2 : c ≠ 1 → 0 ≤ x ∨ (x < -1 ∧ Term A (ta.at (-x - 2)))) (size : Int) :
    let st' : St := ⟨st.base.put (st.b n + code c) x, st.check.put (st.b n + code c) n, ta, pos, tl, size⟩
    Inv A st' ∧
    (∀ v s, Path A code st'.b st'.k v s ↔ Path A code st.b st.k v s ∨
      (s = st.b n + code c ∧ ∃ v0, Path A code st.b st.k v0 n ∧ v = v0 ++ [c])) ∧
    (∀ u, st'.Word A code u ↔ st.Word A code u ∨ ∃ v0, Path A code st.b st.k v0 n ∧
      ((x < -1 ∧ u = v0 ++ c :: ta.at (-x - 2)) ∨ (x = -1 ∧ u = v0 ++ [c]))) ∧
    (∀ u, st'.Inner A code u → st.Inner A code u ∨ (0 ≤ x ∧ ∃ v0, Path A code st.b st.k v0 n ∧ u = v0 ++ [c])) ∧
    (∀ u, st.Inner A code u → st'.Inner A code u) := by
  intro st'
  have hb' : ∀ s, st'.b s = if s = st.b n + code c then x else st.b s := fun s => AA.at_put _ _ _ _
  have hk' : ∀ s, st'.k s = if s = st.b n + code c then n else st.k s := fun s => AA.at_put _ _ _ _
  obtain ⟨C', hP, hW⟩ := addLeaf al I.core (b' := st'.b) (k' := st'.k) (T' := st'.T) hn hbn hc hfree hb' hk' hta hx1 hx2
  have hI : ∀ u, st'.Inner A code u → st.Inner A code u ∨ (0 ≤ x ∧ ∃ v0, Path A code st.b st.k v0 n ∧ u = v0 ++ [c]) := by
    rintro u ⟨s, hp, hb⟩
    rw [hb'] at hb
    rcases (hP u s).1 hp with h | ⟨h, h'⟩
    · refine .inl ⟨s, h, ?_⟩
      rw [if_neg] at hb
      · exact hb
      · rintro rfl
        have hr := al.range' hc
        rcases h.alloc I.core with e | e
        · omega
        · exact e hfree
    · rw [if_pos h] at hb
      exact .inr ⟨hb, h'⟩
  have hK : ∀ u, st.Inner A code u → st'.Inner A code u := by
    rintro u ⟨s, hp, hb⟩
    refine ⟨s, (hP u s).2 (.inl hp), ?_⟩
    rw [hb', if_neg]
    · exact hb
    · rintro rfl
      have hr := al.range' hc
      rcases hp.alloc I.core with e | e
      · omega
      · exact e hfree
  refine ⟨⟨C', ?_, ?_⟩, hP, hW, hI, hK⟩
  · refine tails.addLeaf (s0 := st.b n + code c) (x := x) hfree (fun s h => by rw [hb', if_neg h])
      (fun s h => by rw [hk', if_neg h]) (by rw [hb', if_pos rfl]) hx
  · have h1 := AA.size_put st.base (st.b n + code c) x
    have h2 := AA.size_put st.check (st.b n + code c) n
    refine ⟨I.lens.kd, ?_, ?_, hsz⟩
    · intro s hs _
      by_cases e : s = st.b n + code c
      · subst e; exact h1.2
      · have hs' : s = 0 ∨ st.k s ≠ -1 := by
          rcases hs with h | h
          · exact .inl h
          · right; rwa [hk', if_neg e] at h
        have := I.bsz hs'
        show s < (st.base.put _ _).size
        omega
    · intro s hs
      by_cases e : s = st.b n + code c
      · subst e; exact h2.2
      · rw [hk', if_neg e] at hs
        have := I.lens.ksz s hs
        show s < (st.check.put _ _).size
        omega

/-- A node without children gets the base `a`. -/
theorem rebaseSt {st : St} (I : Inv A st) {x a : Int} (hx : st.k x ≠ -1) (hch : ∀ s, st.k s ≠ -1 → st.k s ≠ x)
    (hoff : x - st.b (st.k x) ≠ 1) (ha : 0 ≤ a) :
    let st' : St := { st with base := st.base.put x a }
    Inv A st' ∧ (∀ v s, Path A code st'.b st'.k v s ↔ Path A code st.b st.k v s) ∧
    (∀ u, st'.Word A code u ↔ st.Word A code u ∧
      ¬ (st.b x < -1 ∧ ∃ v0, Path A code st.b st.k v0 x ∧ u = v0 ++ st.T (-st.b x - 2))) ∧
    (∀ u, st'.Inner A code u → st.Inner A code u ∨ Path A code st.b st.k u x) ∧
    (∀ u, st.Inner A code u → st'.Inner A code u) := by
  intro st'
  have hb' : ∀ s, st'.b s = if s = x then a else st.b s := fun s => AA.at_put _ _ _ _
  obtain ⟨C', hP, hW⟩ := openLeaf (code := code) I.core hx hch hoff ha hb'
  have hI : ∀ u, st'.Inner A code u → st.Inner A code u ∨ Path A code st.b st.k u x := by
    rintro u ⟨s, hp, hb⟩
    rw [hb'] at hb
    by_cases e : s = x
    · rw [e] at hp; exact .inr ((hP u x).1 hp)
    · rw [if_neg e] at hb; exact .inl ⟨s, (hP u s).1 hp, hb⟩
  have hK : ∀ u, st.Inner A code u → st'.Inner A code u := by
    rintro u ⟨s, hp, hb⟩
    refine ⟨s, (hP u s).2 hp, ?_⟩
    rw [hb']
    split
    · exact ha
    · exact hb
  refine ⟨⟨C', ?_, ?_⟩, hP, hW, hI, hK⟩
  · refine I.tails.sub fun s h1 h2 => ⟨h1, ?_⟩
    rw [hb'] at h2 ⊢
    by_cases e : s = x
    · rw [if_pos e] at h2; omega
    · rw [if_neg e]
  · have h1 := AA.size_put st.base x a
    refine ⟨I.lens.kd, ?_, I.lens.ksz, I.lens.tsz⟩
    intro s hs _
    have := I.bsz hs
    show s < (st.base.put _ _).size
    omega

/-- A leaf with a new tail. -/
theorem addTail (al : Alpha A code) {st : St} (I : Inv A st) {n : Int} {c : Byte} {rest : Str}
    (hn : n = 0 ∨ st.k n ≠ -1) (hbn : 0 ≤ st.b n) (hw : Term A (c :: rest)) (hfree : st.k (st.b n + code c) = -1) :
    ∃ p pos tl, nextTail st = (p, { st with pos := pos, tailList := tl }) ∧ 0 ≤ p ∧
      let st' : St := ⟨st.base.put (st.b n + code c) (-p - 2), st.check.put (st.b n + code c) n, st.tail.put p rest, pos, tl,
        st.size⟩
      Inv A st' ∧ (∀ u, st'.Word A code u ↔ st.Word A code u ∨ ∃ v0, Path A code st.b st.k v0 n ∧ u = v0 ++ c :: rest) ∧
      ∀ u, st'.Inner A code u ↔ st.Inner A code u := by
  obtain ⟨p, pos, tl, e, ht, hp0, hp1, hp2, hp3, hp4⟩ := nextTail_ok st I.tails I.lens.tsz
  have hc : Valid A c := by rcases hw.cons_inv with h | h; exacts [.inl h.1, .inr h.1]
  have hr : (st.tail.put p rest).at (-(-p - 2) - 2) = rest := by
    rw [AA.at_put, if_pos (by omega)]
  have hsz := AA.size_put st.tail p rest
  refine ⟨p, pos, tl, e, hp0, ?_⟩
  obtain ⟨I', _, hW, hI, hK⟩ := addLeafSt al I (x := -p - 2) (pos := pos) (tl := tl) (ta := st.tail.put p rest) hn hbn hc hfree
    (fun s h1 h2 => by
      rw [AA.at_put, if_neg]
      · rfl
      · intro e; exact hp3 s h1 (by omega))
    ht (fun _ => ⟨by omega, by rw [show -(-p - 2) - 2 = p by omega]; exact hp2, hp3⟩) (by omega)
    (fun e => .inr ⟨by omega, by
      rw [hr]
      rcases hw.cons_inv with h | h
      · exact h.2
      · exact absurd (e ▸ h.1) al.not_end⟩)
    (fun e => .inr ⟨by omega, by
      rw [hr]
      rcases hw.cons_inv with h | h
      · exact absurd h.1 e
      · exact h.2⟩) st.size
  refine ⟨I', fun u => (hW u).trans (or_congr_right ?_), fun u => ⟨fun h => (hI u h).resolve_right fun h => by omega, hK u⟩⟩
  rw [hr]
  constructor
  · rintro ⟨v0, h0, h | h⟩
    · exact ⟨v0, h0, h.2⟩
    · omega
  · rintro ⟨v0, h0, h⟩
    exact ⟨v0, h0, .inl ⟨by omega, h⟩⟩

/-- A leaf for the end character. -/
theorem addEnd (al : Alpha A code) {st : St} (I : Inv A st) {n : Int}
    (hn : n = 0 ∨ st.k n ≠ -1) (hbn : 0 ≤ st.b n) (hfree : st.k (st.b n + 1) = -1) :
    let st' : St := { st with base := st.base.put (st.b n + 1) (-1), check := st.check.put (st.b n + 1) n }
    Inv A st' ∧ (∀ u, st'.Word A code u ↔ st.Word A code u ∨ ∃ v0, Path A code st.b st.k v0 n ∧ u = v0 ++ [1]) ∧
    ∀ u, st'.Inner A code u ↔ st.Inner A code u := by
  have h := addLeafSt al I (x := -1) (pos := st.pos) (tl := st.tailList) (ta := st.tail) (c := 1) hn hbn (.inl rfl)
    (by rw [al.end_]; exact hfree) (fun s _ _ => rfl) I.tails (fun h => by omega) I.lens.tsz (fun _ => .inl rfl)
    (fun h => absurd rfl h) st.size
  rw [al.end_] at h
  refine ⟨h.1, fun u => (h.2.2.1 u).trans (or_congr_right ?_), fun u =>
    ⟨fun h' => (h.2.2.2.1 u h').resolve_right fun h => by omega, h.2.2.2.2 u⟩⟩
  constructor
  · rintro ⟨v0, h0, h | h⟩
    · omega
    · exact ⟨v0, h0, h.2⟩
  · rintro ⟨v0, h0, h⟩
    exact ⟨v0, h0, .inr ⟨rfl, h⟩⟩

theorem setTail_ok (al : Alpha A code) {st : St} (I : Inv A st) {n : Int} {c : Byte} {rest v : Str}
    (hp : Path A code st.b st.k v n) (hbn : 0 ≤ st.b n) (hw : Term A (c :: rest)) (hfree : st.k (st.b n + code c) = -1) :
    ∃ st', setTail st n (st.b n + code c) rest = .ok st' ∧ Inv A st' ∧ st'.size = st.size ∧
      (∀ u, st'.Word A code u ↔ st.Word A code u ∨ u = v ++ c :: rest) ∧
      ∀ u, st'.Inner A code u ↔ st.Inner A code u := by
  have hn := hp.alloc I.core
  obtain ⟨p, pos, tl, e, hp0, I', hW, hI⟩ := addTail al I hn hbn hw hfree
  have hc : Valid A c := by rcases hw.cons_inv with h | h; exacts [.inl h.1, .inr h.1]
  have hr := al.range' hc
  refine ⟨_, ?_, I', rfl, fun u => (hW u).trans (or_congr_right ?_), hI⟩
  · unfold setTail
    rw [e]
    dsimp only
    rw [setTailAt_ok _ hp0]
    simp only [Out.ok_bind]
    rw [setBase_ok _ (by omega)]
    simp only [Out.ok_bind]
    rw [setCheck_ok _ (by omega)]
  · constructor
    · rintro ⟨v0, h0, rfl⟩; rw [h0.unique al I.core hp]
    · rintro rfl; exact ⟨v, hp, rfl⟩

/-! ### common prefixes -/

theorem firstDiff_spec (p : Str) : ∀ (i : Nat) (x y : Byte) (s t : Str), x ≠ y →
    firstDiff (p ++ x :: s) (p ++ y :: t) i = some (i + p.length) := by
  induction p with
  | nil => intro i x y s t h; simp [firstDiff, h]
  | cons a p ih =>
    intro i x y s t h
    simp only [List.cons_append, firstDiff, ne_eq, not_true, if_false, List.length_cons]
    rw [ih (i + 1) x y s t h]
    congr 1; omega

theorem commonPrefix_spec (p : Str) (x y : Byte) (s t : Str) (h : x ≠ y) :
    commonPrefix (p ++ x :: s) (p ++ y :: t) = p := by
  unfold commonPrefix
  split
  rename_i a b hab
  split at hab
  · cases hab
    rw [firstDiff_spec p 0 y x t s (Ne.symm h)]
    simp
  · cases hab
    rw [firstDiff_spec p 0 x y s t h]
    simp

theorem Term.diverge {r t : Str} (hr : Term A r) (ht : Term A t) (h1 : ¬ A 1) (h : r ≠ t) :
    ∃ p x y s u, r = p ++ x :: s ∧ t = p ++ y :: u ∧ x ≠ y ∧ (∀ c ∈ p, A c) ∧ Term A (x :: s) ∧ Term A (y :: u) := by
  induction r generalizing t with
  | nil => exact absurd hr Term.nil_not
  | cons a r ih =>
    cases t with
    | nil => exact absurd ht Term.nil_not
    | cons c t =>
      by_cases e : a = c
      · subst e
        rcases hr.cons_inv with ⟨rfl, rfl⟩ | ⟨hA, hr'⟩
        · rcases ht.cons_inv with ⟨_, rfl⟩ | ⟨h', _⟩
          · exact absurd rfl h
          · exact absurd h' h1
        · rcases ht.cons_inv with ⟨rfl, _⟩ | ⟨_, ht'⟩
          · exact absurd hA h1
          · obtain ⟨p, x, y, s, u, e1, e2, e3, e4, e5, e6⟩ := ih hr' ht' (fun e => h (by rw [e]))
            refine ⟨a :: p, x, y, s, u, by rw [e1]; rfl, by rw [e2]; rfl, e3, ?_, e5, e6⟩
            intro d hd
            rcases List.mem_cons.1 hd with rfl | hd
            · exact hA
            · exact e4 d hd
      · exact ⟨[], a, c, r, t, rfl, rfl, e, by simp, hr, ht⟩

/-! ### splitting a leaf -/

/-- The node `x` is to become an inner node; it has no children, and its present base does not matter. -/
structure Hole (A : Byte → Prop) (code : Byte → Int) (st : St) (x temp : Int) (v : Str) : Prop where
  inv : Inv A { st with base := st.base.put x 0 }
  alloc : st.k x ≠ -1
  child : ∀ s, st.k s ≠ -1 → st.k s ≠ x
  off : x - (st.base.put x 0).at (st.k x) ≠ 1
  path : Path A code (st.base.put x 0).at st.k v x
  t0 : 0 ≤ temp
  t1 : temp < st.pos
  t2 : temp ∉ st.tailList
  t3 : ∀ s, st.k s ≠ -1 → (st.base.put x 0).at s ≠ -temp - 2

theorem Hole.step (al : Alpha A code) {st : St} {x temp : Int} {v : Str} (H : Hole A code st x temp v) {c : Byte} (hc : A c)
    {a : Int} (ha : 0 ≤ a) (hfree : st.k (a + code c) = -1) :
    let st' : St := { st with base := st.base.put x a, check := st.check.put (a + code c) x }
    Hole A code st' (a + code c) temp (v ++ [c]) ∧
    (∀ u, ({ st' with base := st'.base.put (a + code c) 0 } : St).Word A code u ↔
      ({ st with base := st.base.put x 0 } : St).Word A code u) ∧
    (∀ u, ({ st' with base := st'.base.put (a + code c) 0 } : St).Inner A code u →
      ({ st with base := st.base.put x 0 } : St).Inner A code u ∨ u = v ++ [c]) ∧
    ∀ u, ({ st with base := st.base.put x 0 } : St).Inner A code u →
      ({ st' with base := st'.base.put (a + code c) 0 } : St).Inner A code u := by
  intro st'
  have hr := al.range c hc
  have hx1 := H.inv.core.pos x H.alloc
  have hxt : x ≠ a + code c := by rintro rfl; exact H.alloc hfree
  -- the node gets the base `a`
  have R := rebaseSt (code := code) H.inv (x := x) (a := a) H.alloc H.child H.off ha
  dsimp only at R
  rw [AA.put_put] at R
  obtain ⟨I1, hP1, hW1, hI1, hK1⟩ := R
  -- the new node
  have hb1 : St.b ⟨st.base.put x a, st.check, st.tail, st.pos, st.tailList, st.size⟩ x = a := by
    show (st.base.put x a).at x = a
    rw [AA.at_put, if_pos rfl]
  have Q := addLeafSt al I1 (n := x) (x := 0) (pos := st.pos) (tl := st.tailList) (ta := st.tail) (c := c)
    (.inr H.alloc) (by rw [hb1]; exact ha) (.inr hc) (by rw [hb1]; exact hfree) (fun s _ _ => rfl) I1.tails
    (fun h => by omega) I1.lens.tsz (fun h => absurd (h ▸ hc) al.not_end) (fun _ => .inl (by omega)) st.size
  rw [hb1] at Q
  obtain ⟨I2, hP2, hW2, hI2, hK2⟩ := Q
  have hk2 : ∀ s, st'.k s = if s = a + code c then x else st.k s := fun s => AA.at_put _ _ _ _
  refine ⟨⟨I2, ?_, ?_, ?_, ?_, H.t0, H.t1, H.t2, ?_⟩, ?_, ?_, fun u h => hK2 u (hK1 u h)⟩
  · rw [hk2, if_pos rfl]; omega
  · intro s hs
    rw [hk2] at hs ⊢
    by_cases e : s = a + code c
    · rw [if_pos e]; exact hxt
    · rw [if_neg e] at hs ⊢
      intro e'
      rcases H.inv.core.par s hs with h | h
      · have h : st.k s = 0 := h
        omega
      · have h : st.k (st.k s) ≠ -1 := h
        rw [e'] at h; exact h hfree
  · rw [hk2, if_pos rfl]
    show _ - ((st.base.put x a).put (a + code c) 0).at x ≠ 1
    rw [AA.at_put, if_neg hxt, AA.at_put, if_pos rfl]; omega
  · refine (hP2 _ _).2 (.inr ⟨rfl, v, (hP1 v x).2 H.path, rfl⟩)
  · intro s hs
    show ((st.base.put x a).put (a + code c) 0).at s ≠ _
    rw [AA.at_put]
    have := H.t0
    by_cases e : s = a + code c
    · rw [if_pos e]; omega
    · rw [if_neg e, AA.at_put]
      by_cases e' : s = x
      · rw [if_pos e']; omega
      · rw [if_neg e']
        rw [hk2, if_neg e] at hs
        have := H.t3 s hs
        rwa [AA.at_put, if_neg e'] at this
  · intro u
    refine (hW2 u).trans ?_
    rw [hW1 u]
    have h0 : St.b ⟨st.base.put x 0, st.check, st.tail, st.pos, st.tailList, st.size⟩ x = 0 := by
      show (st.base.put x 0).at x = 0
      rw [AA.at_put, if_pos rfl]
    constructor
    · rintro (h | ⟨_, _, h | h⟩)
      · exact h.1
      · omega
      · omega
    · intro h
      exact .inl ⟨h, fun h' => by rw [h0] at h'; omega⟩
  · intro u hu
    rcases hI2 u hu with h | ⟨_, v0, h0, rfl⟩
    · rcases hI1 u h with h | h
      · exact .inl h
      · refine .inl ⟨x, h, ?_⟩
        show 0 ≤ (st.base.put x 0).at x
        rw [AA.at_put, if_pos rfl]; omega
    · right
      rw [((hP1 v0 x).1 h0).unique al H.inv.core H.path]

theorem chain_ok (al : Alpha A code) {ms : Mapper} (hms : Maps A code ms) {temp : Int} : ∀ (cs : Str) (st : St) (x : Int) (v : Str),
    (∀ c ∈ cs, A c) → Hole A code st x temp v →
    ∃ st' x', chain ms st x cs = .ok (st', x') ∧ Hole A code st' x' temp (v ++ cs) ∧ st'.size = st.size ∧
      st'.tail = st.tail ∧
      (∀ u, ({ st' with base := st'.base.put x' 0 } : St).Word A code u ↔
        ({ st with base := st.base.put x 0 } : St).Word A code u) ∧
      (∀ u, ({ st' with base := st'.base.put x' 0 } : St).Inner A code u →
        ({ st with base := st.base.put x 0 } : St).Inner A code u ∨ u <+: v ++ cs) ∧
      ∀ u, ({ st with base := st.base.put x 0 } : St).Inner A code u →
        ({ st' with base := st'.base.put x' 0 } : St).Inner A code u := by
  intro cs
  induction cs with
  | nil => intro st x v _ H; exact ⟨st, x, rfl, by simpa using H, rfl, rfl, fun u => Iff.rfl, fun u h => .inl h, fun u h => h⟩
  | cons c cs ih =>
    intro st x v hcs H
    have hc : A c := hcs c (by simp)
    have hr := al.range c hc
    have hx1 := H.inv.core.pos x H.alloc
    obtain ⟨a, ha1, ha2, ha3⟩ := checkAvailable_ok st H.inv.lens.kd [code c] (by
      intro i hi; simp at hi; omega)
    have hfree : st.k (a + code c) = -1 := ha3 _ (by simp)
    obtain ⟨H', hW, hI, hK⟩ := H.step al hc ha2 hfree
    obtain ⟨st', x', e, H2, hs, ht, hW2, hI2, hK2⟩ := ih _ _ _ (fun d hd => hcs d (by simp [hd])) H'
    refine ⟨st', x', ?_, by simpa using H2, hs, ht, fun u => (hW2 u).trans (hW u), fun u hu => ?_,
      fun u h => hK2 u (hK u h)⟩
    rotate_left
    · rw [show v ++ c :: cs = v ++ [c] ++ cs by simp]
      rcases hI2 u hu with h | h
      · rcases hI u h with h | rfl
        · exact .inl h
        · exact .inr (List.prefix_append _ _)
      · exact .inr h
    unfold chain
    rw [hms c (.inr hc)]
    simp only [Out.ok_bind]
    rw [ha1]
    simp only [Out.ok_bind]
    rw [setBase_ok _ (by omega)]
    simp only [Out.ok_bind]
    rw [setCheck_ok _ (by omega)]
    simp only [Out.ok_bind]
    rw [AA.get_ok _ (by omega) (AA.size_put _ _ _).2, AA.at_put, if_pos rfl]
    simp only [Out.ok_bind]
    exact e

theorem split_ok (al : Alpha A code) {ms mo : Mapper} (hms : Maps A code ms) (hmo : Maps A code mo) {st : St} (I : Inv A st)
    {t : Int} {v rest : Str} (hk : st.k t ≠ -1) (hb : st.b t < -1) (hoff : t - st.b (st.k t) ≠ 1)
    (hp : Path A code st.b st.k v t) (hrest : Term A rest) (hne : rest ≠ st.T (-st.b t - 2)) :
    ∃ st', split ms mo st t rest = .ok st' ∧ Inv A st' ∧ st'.size = st.size ∧
      (∀ u, st'.Word A code u ↔ st.Word A code u ∨ u = v ++ rest) ∧
      (∀ u, st'.Inner A code u → st.Inner A code u ∨ (u <+: v ++ rest ∧ u <+: v ++ st.T (-st.b t - 2))) ∧
      ∀ u, st.Inner A code u → st'.Inner A code u := by
  have C := I.core
  have ht1 := C.pos t hk
  have htail : Term A (st.T (-st.b t - 2)) := by
    rcases C.leafLet t hk hoff with h | h
    · omega
    · exact h.2
  have hused := I.tails.used t hk hb
  have hpos := I.lens.tsz
  have hword : st.Word A code (v ++ st.T (-st.b t - 2)) :=
    ⟨v, t, hp, fun e => by have := (hp.nil_iff C).1 e; omega, .inl ⟨hb, rfl⟩⟩
  obtain ⟨pre, cn, ct, rn, rt, e1, e2, hcc, hpre, hTn, hTt⟩ := hrest.diverge htail al.not_end hne
  have hcn : Valid A cn := by rcases hTn.cons_inv with h | h; exacts [.inl h.1, .inr h.1]
  have hct : Valid A ct := by rcases hTt.cons_inv with h | h; exacts [.inl h.1, .inr h.1]
  have hrn := al.range' hcn
  have hrt := al.range' hct
  generalize htemp : -st.b t - 2 = temp at *
  have hchild : ∀ s, st.k s ≠ -1 → st.k s ≠ t := fun s h => C.not_child h (by omega)
  -- the leaf is opened
  obtain ⟨I0, hP0, hW0, hI0, hK0⟩ := rebaseSt (code := code) I (x := t) (a := 0) hk hchild hoff (Int.le_refl 0)
  have H0 : Hole A code st t temp v := by
    refine ⟨I0, hk, hchild, ?_, (hP0 v t).2 hp, by omega, hused.1, hused.2, ?_⟩
    · rw [AA.at_put, if_neg (C.self t hk)]; exact hoff
    · intro s hs
      rw [AA.at_put]
      by_cases e : s = t
      · rw [if_pos e]; omega
      · rw [if_neg e]
        intro h
        have h : st.b s = _ := h
        exact e (I.tails.inj s t hs hk (by omega) (by omega))
  obtain ⟨st1, x, ech, H1, hsize1, htail1, hW1, hI1, hK1⟩ := chain_ok al hms pre st t v hpre H0
  have hx1 := H1.inv.core.pos x H1.alloc
  obtain ⟨q, hq1, hq2, hq3⟩ := checkAvailable_ok st1 H1.inv.lens.kd [code ct, code cn] (by
    intro i hi; simp at hi; omega)
  have hft : st1.k (q + code ct) = -1 := hq3 _ (by simp)
  have hfn : st1.k (q + code cn) = -1 := hq3 _ (by simp)
  -- the node gets the base `q`
  have R := rebaseSt (code := code) H1.inv (x := x) (a := q) H1.alloc H1.child H1.off hq2
  dsimp only at R
  rw [AA.put_put] at R
  obtain ⟨I2, hP2, hW2, hI2, hK2⟩ := R
  have hI2' : ∀ u, St.Inner A code ⟨st1.base.put x q, st1.check, st1.tail, st1.pos, st1.tailList, st1.size⟩ u →
      st.Inner A code u ∨ u <+: v ++ pre := by
    intro u hu
    rcases hI2 u hu with h | h
    · rcases hI1 u h with h | h
      · rcases hI0 u h with h | h
        · exact .inl h
        · rw [h.unique al C hp]; exact .inr (List.prefix_append _ _)
      · exact .inr h
    · rw [h.unique al H1.inv.core H1.path]; exact .inr (List.prefix_refl _)
  have hb2 : St.b ⟨st1.base.put x q, st1.check, st1.tail, st1.pos, st1.tailList, st1.size⟩ x = q := by
    show (st1.base.put x q).at x = q
    rw [AA.at_put, if_pos rfl]
  have hp2 : Path A code (st1.base.put x q).at st1.k (v ++ pre) x := (hP2 _ _).2 H1.path
  have hW2' : ∀ u, St.Word A code ⟨st1.base.put x q, st1.check, st1.tail, st1.pos, st1.tailList, st1.size⟩ u ↔
      st.Word A code u ∧ u ≠ v ++ st.T temp := by
    intro u
    rw [hW2 u, hW1 u, hW0 u]
    have h0 : St.b ⟨st1.base.put x 0, st1.check, st1.tail, st1.pos, st1.tailList, st1.size⟩ x = 0 := by
      show (st1.base.put x 0).at x = 0
      rw [AA.at_put, if_pos rfl]
    constructor
    · rintro ⟨⟨h1, h2⟩, _⟩
      refine ⟨h1, fun e => h2 ⟨hb, v, hp, by rw [htemp]; exact e⟩⟩
    · rintro ⟨h1, h2⟩
      refine ⟨⟨h1, ?_⟩, fun h => by rw [h0] at h; omega⟩
      rintro ⟨_, v0, h3, h4⟩
      rw [htemp, h3.unique al C hp] at h4
      exact h2 h4
  have htx : ∀ s, st1.k s ≠ -1 → (st1.base.put x q).at s ≠ -temp - 2 := by
    intro s hs
    have := H1.t3 s hs
    have := H1.t0
    rw [AA.at_put] at *
    by_cases e : s = x
    · rw [if_pos e]; omega
    · rw [if_neg e] at *; assumption
  -- the child for the old word
  obtain ⟨st3, he3, I3, hb3, hk3, hp3, hs3, hW3, hI3, hK3⟩ : ∃ st3 : St,
      (do
        let st ← (if ct = endChar then do
            let st ← setBase { st1 with base := st1.base.put x q } (q + code ct) (-1)
            .ok { st with tailList := st.tailList ++ [temp] }
          else do
            let st ← setBase { st1 with base := st1.base.put x q } (q + code ct) (-temp - 2)
            setTailAt st temp ((pre ++ ct :: rt).drop (pre.length + 1)))
        setCheck st (q + code ct) x) = Out.ok st3 ∧ Inv A st3 ∧ st3.b x = q ∧ st3.k (q + code cn) = -1 ∧
      Path A code st3.b st3.k (v ++ pre) x ∧ st3.size = st1.size ∧
      (∀ u, st3.Word A code u ↔ (st.Word A code u ∧ u ≠ v ++ st.T temp) ∨ u = v ++ st.T temp) ∧
      (∀ u, st3.Inner A code u → st.Inner A code u ∨ u <+: v ++ pre) ∧ ∀ u, st.Inner A code u → st3.Inner A code u := by
    have hxt : x ≠ q + code ct := by rintro rfl; exact H1.alloc hft
    have hcode : code cn ≠ code ct := fun e => hcc (al.inj' hcn hct e)
    have hdrop : (pre ++ ct :: rt).drop (pre.length + 1) = rt := by
      rw [← List.drop_drop]; simp
    by_cases ec : ct = 1
    · have hrt0 : rt = [] := by
        rcases hTt.cons_inv with h | h
        · exact h.2
        · exact absurd (ec ▸ h.1) al.not_end
      have Q := addLeafSt al I2 (n := x) (x := -1) (pos := st1.pos) (tl := st1.tailList ++ [temp]) (ta := st1.tail) (c := ct)
        (.inr H1.alloc) (by rw [hb2]; exact hq2) hct (by rw [hb2]; exact hft) (fun s _ _ => rfl)
        ⟨fun s h1 h2 => ⟨(I2.tails.used s h1 h2).1, by
            rw [List.mem_append, not_or]
            refine ⟨(I2.tails.used s h1 h2).2, ?_⟩
            rw [List.mem_singleton]
            intro h
            exact htx s h1 (by have h : -((st1.base.put x q).at s) - 2 = temp := h; omega)⟩,
          I2.tails.inj, by
            rw [List.nodup_append]
            refine ⟨I2.tails.nodup, by simp, ?_⟩
            intro a ha c hc
            rw [List.mem_singleton] at hc
            rintro rfl
            exact H1.t2 (hc ▸ ha), by
            intro a ha
            rcases List.mem_append.1 ha with h | h
            · exact I2.tails.bound a h
            · rw [List.mem_singleton] at h; rw [h]; exact ⟨H1.t0, H1.t1⟩, I2.tails.pos0⟩
        (fun h => by omega) I2.lens.tsz (fun _ => .inl rfl) (fun h => absurd ec h) st1.size
      rw [hb2] at Q
      obtain ⟨I3, hP3, hW3, hI3, hK3⟩ := Q
      refine ⟨_, ?_, I3, ?_, ?_, ?_, rfl, ?_, fun u hu => hI2' u ((hI3 u hu).resolve_right fun h => by have := H1.t0; omega),
        fun u h => hK3 u (hK2 u (hK1 u (hK0 u h)))⟩
      · rw [if_pos (show ct = endChar from ec), setBase_ok _ (by omega)]
        simp only [Out.ok_bind]
        rw [setCheck_ok _ (by omega)]
      · show ((st1.base.put x q).put _ _).at x = q
        rw [AA.at_put, if_neg hxt, AA.at_put, if_pos rfl]
      · show (st1.check.put _ _).at _ = _
        rw [AA.at_put, if_neg (by omega)]; exact hfn
      · exact (hP3 _ _).2 (.inl hp2)
      · intro u
        rw [hW3 u, hW2' u]
        refine or_congr_right ?_
        rw [e2, ec, hrt0]
        constructor
        · rintro ⟨v0, h0, h | h⟩
          · omega
          · rw [h.2, h0.unique al I2.core hp2]; simp
        · rintro rfl
          exact ⟨v ++ pre, hp2, .inr ⟨rfl, by simp⟩⟩
    · have hTrt : Term A rt := by
        rcases hTt.cons_inv with h | h
        · exact absurd h.1 ec
        · exact h.2
      have hsz := AA.size_put st1.tail temp rt
      have htmp : -(-temp - 2) - 2 = temp := by omega
      have Q := addLeafSt al I2 (n := x) (x := -temp - 2) (pos := st1.pos) (tl := st1.tailList) (ta := st1.tail.put temp rt) (c := ct)
        (.inr H1.alloc) (by rw [hb2]; exact hq2) hct (by rw [hb2]; exact hft) (fun s h1 h2 => by
          rw [AA.at_put, if_neg]
          · rfl
          · intro h
            exact htx s h1 (by have h : -((st1.base.put x q).at s) - 2 = temp := h; omega))
        I2.tails (fun _ => by
          rw [htmp]
          exact ⟨H1.t1, H1.t2, htx⟩)
        (by have h : st1.pos ≤ st1.tail.size := I2.lens.tsz; omega) (fun h => absurd h ec)
        (fun _ => .inr ⟨by have := H1.t0; omega, by rw [htmp, AA.at_put, if_pos rfl]; exact hTrt⟩) st1.size
      rw [hb2, htmp] at Q
      obtain ⟨I3, hP3, hW3, hI3, hK3⟩ := Q
      refine ⟨_, ?_, I3, ?_, ?_, ?_, rfl, ?_, fun u hu => hI2' u ((hI3 u hu).resolve_right fun h => by have := H1.t0; omega),
        fun u h => hK3 u (hK2 u (hK1 u (hK0 u h)))⟩
      · rw [if_neg (show ¬ ct = endChar from ec), setBase_ok _ (by omega)]
        simp only [Out.ok_bind]
        rw [setTailAt_ok _ H1.t0]
        simp only [Out.ok_bind]
        rw [setCheck_ok _ (by omega), hdrop]
      · show ((st1.base.put x q).put _ _).at x = q
        rw [AA.at_put, if_neg hxt, AA.at_put, if_pos rfl]
      · show (st1.check.put _ _).at _ = _
        rw [AA.at_put, if_neg (by omega)]; exact hfn
      · exact (hP3 _ _).2 (.inl hp2)
      · intro u
        rw [hW3 u, hW2' u]
        refine or_congr_right ?_
        rw [e2, AA.at_put, if_pos rfl]
        have := H1.t0
        constructor
        · rintro ⟨v0, h0, h | h⟩
          · rw [h.2, h0.unique al I2.core hp2]; simp
          · omega
        · rintro rfl
          exact ⟨v ++ pre, hp2, .inl ⟨by omega, by simp⟩⟩
  -- the child for the new word
  have hn3 := hp3.alloc I3.core
  obtain ⟨st4, he4, I4, hs4, hW4, hI4⟩ : ∃ st4 : St,
      (do
        let st ← (if cn = endChar then setBase st3 (q + code cn) (-1)
          else do
            let (p, st) := nextTail st3
            let st ← setBase st (q + code cn) (-p - 2)
            setTailAt st p ((pre ++ cn :: rn).drop (pre.length + 1)))
        setCheck st (q + code cn) x) = Out.ok st4 ∧ Inv A st4 ∧ st4.size = st3.size ∧
      (∀ u, st4.Word A code u ↔ st3.Word A code u ∨ u = v ++ rest) ∧
      ∀ u, st4.Inner A code u ↔ st3.Inner A code u := by
    have hdrop : (pre ++ cn :: rn).drop (pre.length + 1) = rn := by
      rw [← List.drop_drop]; simp
    by_cases ec : cn = 1
    · have hrn0 : rn = [] := by
        rcases hTn.cons_inv with h | h
        · exact h.2
        · exact absurd (ec ▸ h.1) al.not_end
      have h1 : code cn = 1 := by rw [ec]; exact al.end_
      have Q := addEnd al I3 hn3 (by rw [hb3]; exact hq2) (by rw [hb3]; rw [h1] at hk3; exact hk3)
      rw [hb3] at Q
      refine ⟨_, ?_, Q.1, rfl, ?_, Q.2.2⟩
      · rw [if_pos (show cn = endChar from ec), h1, setBase_ok _ (by omega)]
        simp only [Out.ok_bind]
        rw [setCheck_ok _ (by omega)]
      · intro u
        rw [Q.2.1 u]
        refine or_congr_right ?_
        rw [e1, ec, hrn0]
        constructor
        · rintro ⟨v0, h0, h⟩
          rw [h, h0.unique al I3.core hp3]; simp
        · rintro rfl
          exact ⟨v ++ pre, hp3, by simp⟩
    · obtain ⟨p, pos, tl, en, hp0, I4, hW4, hI4⟩ := addTail al I3 hn3 (by rw [hb3]; exact hq2) hTn (by rw [hb3]; exact hk3)
      rw [hb3] at I4 hW4 hI4
      refine ⟨_, ?_, I4, rfl, ?_, hI4⟩
      · rw [if_neg (show ¬ cn = endChar from ec), en]
        dsimp only
        rw [setBase_ok _ (by omega)]
        simp only [Out.ok_bind]
        rw [setTailAt_ok _ hp0]
        simp only [Out.ok_bind]
        rw [setCheck_ok _ (by omega), hdrop]
      · intro u
        rw [hW4 u]
        refine or_congr_right ?_
        rw [e1]
        constructor
        · rintro ⟨v0, h0, h⟩
          rw [h, h0.unique al I3.core hp3]; simp
        · rintro rfl
          exact ⟨v ++ pre, hp3, by simp⟩
  refine ⟨st4, ?_, I4, by rw [hs4, hs3, hsize1], fun u => ?_, fun u hu => ?_, fun u h => (hI4 u).2 (hK3 u h)⟩
  rotate_left 2
  · rcases hI3 u ((hI4 u).1 hu) with h | h
    · exact .inl h
    · rw [e1, e2]
      refine .inr ⟨h.trans ?_, h.trans ?_⟩
      · rw [← List.append_assoc]; exact List.prefix_append _ _
      · rw [← List.append_assoc]; exact List.prefix_append _ _
  · unfold split
    rw [AA.get_ok _ (by omega) (I.bsz (.inr hk))]
    simp only [Out.ok_bind]
    have hbt : -st.base.at t - 2 = temp := htemp
    simp only [hbt]
    rw [AA.get_ok _ (by omega) (by omega)]
    simp only [Out.ok_bind]
    have hcp : commonPrefix rest (st.tail.at temp) = pre := by
      rw [e1, show st.tail.at temp = pre ++ ct :: rt from e2]; exact commonPrefix_spec _ _ _ _ _ hcc
    simp only [hcp]
    rw [ech]
    simp only [Out.ok_bind]
    have hat1 : strAt (st.tail.at temp) (pre.length : Int) = .ok ct := by
      rw [show st.tail.at temp = pre ++ ct :: rt from e2, strAt_ok (by simp)]
      simp
    have hat2 : strAt rest (pre.length : Int) = .ok cn := by
      rw [e1, strAt_ok (by simp)]
      simp
    rw [hat1]
    simp only [Out.ok_bind]
    rw [hmo ct hct]
    simp only [Out.ok_bind]
    rw [hat2]
    simp only [Out.ok_bind]
    rw [hmo cn hcn]
    simp only [Out.ok_bind]
    rw [hq1]
    simp only [Out.ok_bind]
    rw [setBase_ok _ (by omega)]
    simp only [Out.ok_bind]
    rw [show st.tail.at temp = pre ++ ct :: rt from e2, show rest = pre ++ cn :: rn from e1, ← he4]
    obtain ⟨a, ha, hb⟩ := Out.bind_eq_ok.1 he3
    rw [ha]
    simp only [Out.ok_bind]
    rw [hb]
    simp only [Out.ok_bind]
  · rw [hW4 u, hW3 u]
    by_cases e : u = v ++ st.T temp
    · subst e; simp [hword]
    · simp [e]

end Trie
