import Verif.Proof.TrieTable

/-! # The operations of the trie on its tables -/

namespace Trie
open Cpp

/-! ### arrays -/

/-- the value read at an index -/
def AA.at (a : AA α) (p : Int) : α := if p < a.size then a.val p else a.dflt

def AA.put (a : AA α) (p : Int) (v : α) : AA α :=
  { a with
    size := if p ≥ a.size then p + 1 + a.init else a.size
    val := fun q => if q = p then v else if q < a.size then a.val q else a.dflt }

theorem AA.set_ok (a : AA α) {p : Int} (hp : 0 ≤ p) (v : α) : a.set p v = .ok (a.put p v) := by
  unfold AA.set AA.put; rw [if_pos hp]

theorem AA.at_put (a : AA α) (p : Int) (v : α) (q : Int) : (a.put p v).at q = if q = p then v else a.at q := by
  unfold AA.at AA.put
  dsimp only
  have := Int.natCast_nonneg a.init
  by_cases h : p ≥ a.size
  · simp only [if_pos h]
    by_cases e : q = p
    · rw [if_pos (by omega), if_pos e]
    · rw [if_neg e]
      by_cases h2 : q < p + 1 + a.init
      · rw [if_pos h2]
      · rw [if_neg h2, if_neg (by omega)]
  · simp only [if_neg h]
    by_cases e : q = p
    · rw [if_pos (by omega), if_pos e]
    · rw [if_neg e]
      by_cases h2 : q < a.size
      · rw [if_pos h2, if_pos h2]
      · rw [if_neg h2, if_neg h2]

theorem AA.size_put (a : AA α) (p : Int) (v : α) : a.size ≤ (a.put p v).size ∧ p < (a.put p v).size := by
  unfold AA.put
  dsimp only
  have := Int.natCast_nonneg a.init
  split <;> omega

@[simp] theorem AA.dflt_put (a : AA α) (p : Int) (v : α) : (a.put p v).dflt = a.dflt := rfl

theorem AA.get_ok (a : AA α) {p : Int} (hp : 0 ≤ p) (h : p < a.size) : a.get p = .ok (a.at p) := by
  unfold AA.get AA.at; rw [if_pos ⟨hp, h⟩, if_pos h]

theorem AA.getc_ok (a : AA α) {p : Int} (hp : 0 ≤ p) : a.getc p = .ok (a.at p) := by
  unfold AA.getc AA.at
  by_cases h : p < a.size
  · rw [if_pos h, if_pos hp, if_pos h]
  · rw [if_neg h, if_neg h]

theorem AA.at_ge (a : AA α) {p : Int} (h : a.size ≤ p) : a.at p = a.dflt := by
  unfold AA.at; rw [if_neg (by omega)]

/-- the tables of a state -/
def St.b (st : St) : Int → Int := st.base.at
def St.k (st : St) : Int → Int := st.check.at
def St.T (st : St) : Int → Str := st.tail.at

theorem setBase_ok (st : St) {p : Int} (hp : 0 ≤ p) (v : Int) :
    setBase st p v = .ok { st with base := st.base.put p v } := by
  unfold setBase; rw [AA.set_ok _ hp]; rfl
theorem setCheck_ok (st : St) {p : Int} (hp : 0 ≤ p) (v : Int) :
    setCheck st p v = .ok { st with check := st.check.put p v } := by
  unfold setCheck; rw [AA.set_ok _ hp]; rfl
theorem setTailAt_ok (st : St) {p : Int} (hp : 0 ≤ p) (v : Str) :
    setTailAt st p v = .ok { st with tail := st.tail.put p v } := by
  unfold setTailAt; rw [AA.set_ok _ hp]; rfl

/-! ### free slots, arcs -/

theorem freeFold (check : AA Int) (q : Int) : ∀ (list : List Int) (acc : Bool), (∀ i ∈ list, 0 ≤ q + i) →
    list.foldlM (fun ok i => do if ok then .ok (decide ((← check.getc (q + i)) = -1)) else .ok false) acc
      = Out.ok (acc && decide (∀ i ∈ list, check.at (q + i) = -1)) := by
  intro list
  induction list with
  | nil => intro acc _; simp
  | cons i l ih =>
    intro acc h
    rw [List.foldlM_cons]
    have h' : ∀ i ∈ l, 0 ≤ q + i := fun i hi => h i (by simp [hi])
    cases acc with
    | false =>
      simp only [Bool.false_eq_true, if_false, Out.ok_bind]
      rw [ih false h']; simp
    | true =>
      simp only [if_true]
      rw [AA.getc_ok _ (h i (by simp))]
      simp only [Out.ok_bind]
      rw [ih _ h']
      simp

theorem checkAvailableFrom_ok (check : AA Int) (hd : check.dflt = -1) (list : List Int) (hl : ∀ i ∈ list, 0 ≤ i) :
    ∀ (fuel : Nat) (q : Int), 0 ≤ q → 0 < fuel → check.size < q + fuel →
      ∃ r, checkAvailableFrom check list fuel q = .ok r ∧ 0 ≤ r ∧ ∀ i ∈ list, check.at (r + i) = -1 := by
  intro fuel
  induction fuel with
  | zero => intro q _ h; omega
  | succ fuel ih =>
    intro q hq _ h
    unfold checkAvailableFrom
    rw [freeFold check q list true (fun i hi => by have := hl i hi; omega)]
    simp only [Bool.true_and, Out.ok_bind]
    by_cases hf : ∀ i ∈ list, check.at (q + i) = -1
    · rw [if_pos (by simpa using hf)]
      exact ⟨q, rfl, hq, hf⟩
    · rw [if_neg (by simpa using hf)]
      have hlt : q < check.size := by
        by_contra hge
        apply hf
        intro i hi
        have := hl i hi
        rw [AA.at_ge _ (by omega), hd]
      push_cast at h
      exact ih (q + 1) (by omega) (by omega) (by omega)

theorem checkAvailable_ok (st : St) (hd : st.check.dflt = -1) (list : List Int) (hl : ∀ i ∈ list, 0 ≤ i) :
    ∃ r, checkAvailable st list = .ok r ∧ 0 ≤ r ∧ ∀ i ∈ list, st.k (r + i) = -1 := by
  refine checkAvailableFrom_ok st.check hd list hl _ 0 (Int.le_refl 0) (by omega) ?_
  push_cast
  omega

theorem filterFold (f : Int → Out Int) (g : Int → Int) (n : Int) : ∀ (list acc : List Int), (∀ i ∈ list, f i = .ok (g i)) →
    list.foldlM (fun l i => do if (← f i) = n then .ok (l ++ [i]) else .ok l) acc
      = Out.ok (acc ++ list.filter (fun i => g i = n)) := by
  intro list
  induction list with
  | nil => intro acc _; simp
  | cons i l ih =>
    intro acc h
    rw [List.foldlM_cons, h i (by simp)]
    simp only [Out.ok_bind]
    have h' : ∀ i ∈ l, f i = .ok (g i) := fun i hi => h i (by simp [hi])
    by_cases e : g i = n
    · rw [if_pos e]
      simp only [Out.ok_bind]
      rw [ih _ h', List.filter_cons_of_pos (by simpa using e)]; simp
    · rw [if_neg e]
      simp only [Out.ok_bind]
      rw [ih _ h', List.filter_cons_of_neg (by simpa using e)]

theorem outArcs_ok (st : St) {n : Int} (hn : 0 ≤ n) (hs : n < st.base.size) (hb : 0 ≤ st.b n) :
    ∃ l, outArcs st n = .ok l ∧ l.Nodup ∧ ∀ i, i ∈ l ↔ 1 ≤ i ∧ i ≤ 27 ∧ st.k (st.b n + i) = n := by
  unfold outArcs
  rw [AA.get_ok _ hn hs]
  simp only [Out.ok_bind]
  rw [filterFold (fun i => st.check.getc (st.base.at n + i)) (fun i => st.k (st.b n + i)) n]
  · refine ⟨_, rfl, ?_, ?_⟩
    · rw [List.nil_append]
      refine List.Nodup.filter _ (List.Nodup.map ?_ List.nodup_range)
      intro a c h
      simp only at h
      omega
    · intro i
      rw [List.nil_append, List.mem_filter, List.mem_map]
      constructor
      · rintro ⟨⟨a, ha, rfl⟩, h⟩
        rw [List.mem_range] at ha
        exact ⟨by omega, by omega, by simpa using h⟩
      · rintro ⟨h1, h2, h3⟩
        exact ⟨⟨(i - 1).toNat, by rw [List.mem_range]; omega, by omega⟩, by simpa using h3⟩
  · intro i hi
    rw [List.mem_map] at hi
    obtain ⟨a, _, rfl⟩ := hi
    refine AA.getc_ok _ ?_
    unfold St.b at hb
    omega

/-! ### bookkeeping -/

/-- The tail indices in use. -/
structure Tails (b k : Int → Int) (pos : Int) (tl : List Int) : Prop where
  used : ∀ s, k s ≠ -1 → b s < -1 → -b s - 2 < pos ∧ -b s - 2 ∉ tl
  inj : ∀ s t, k s ≠ -1 → k t ≠ -1 → b s < -1 → b s = b t → s = t
  nodup : tl.Nodup
  bound : ∀ t ∈ tl, 0 ≤ t ∧ t < pos
  pos0 : 0 ≤ pos

/-- The lengths of the arrays; `x` is a node whose base need not be in range. -/
structure Lens (k : Int → Int) (st : St) (x : Int) : Prop where
  kd : st.check.dflt = -1
  bsz : ∀ s, (s = 0 ∨ k s ≠ -1) → s ≠ x → s < st.base.size
  ksz : ∀ s, k s ≠ -1 → s < st.check.size
  tsz : st.pos ≤ st.tail.size

structure Inv (A : Byte → Prop) (st : St) : Prop where
  core : Core A st.b st.k st.T
  tails : Tails st.b st.k st.pos st.tailList
  lens : Lens st.k st (-1)

def St.Word (A : Byte → Prop) (code : Byte → Int) (st : St) (u : Str) : Prop := Trie.Word A code st.b st.k st.T u

/-- `u` leads to an inner node -/
def St.Inner (A : Byte → Prop) (code : Byte → Int) (st : St) (u : Str) : Prop :=
  ∃ n, Path A code st.b st.k u n ∧ 0 ≤ st.b n

/-- a mapper which gives the codes -/
def Maps (A : Byte → Prop) (code : Byte → Int) (m : Mapper) : Prop := ∀ c, Valid A c → m c = .ok (code c)

variable {A : Byte → Prop} {code : Byte → Int} {b k : Int → Int} {T : Int → Str}

theorem Inv.bsz {st : St} (I : Inv A st) {s : Int} (h : s = 0 ∨ st.k s ≠ -1) : s < st.base.size := by
  refine I.lens.bsz s h ?_
  have := I.core.nonneg h
  omega

theorem Tails.addLeaf {pos : Int} {tl : List Int} (t : Tails b k pos tl) {b' k' : Int → Int} {s0 x : Int}
    (hfree : k s0 = -1) (hb' : ∀ s, s ≠ s0 → b' s = b s) (hk' : ∀ s, s ≠ s0 → k' s = k s) (hx : b' s0 = x)
    (hp : x < -1 → -x - 2 < pos ∧ -x - 2 ∉ tl ∧ ∀ s, k s ≠ -1 → b s ≠ x) : Tails b' k' pos tl := by
  refine ⟨?_, ?_, t.nodup, t.bound, t.pos0⟩
  · intro s hs hb
    by_cases e : s = s0
    · subst e; rw [hx] at hb ⊢; exact ⟨(hp hb).1, (hp hb).2.1⟩
    · rw [hk' s e] at hs; rw [hb' s e] at hb ⊢; exact t.used s hs hb
  · intro s u hs hu hb heq
    by_cases e : s = s0 <;> by_cases e' : u = s0
    · rw [e, e']
    · subst e
      rw [hx] at hb heq
      rw [hk' u e'] at hu; rw [hb' u e'] at heq
      exact absurd heq.symm ((hp hb).2.2 u hu)
    · subst e'
      rw [hx] at heq
      rw [hk' s e] at hs; rw [hb' s e] at heq hb
      exact absurd heq ((hp (by omega)).2.2 s hs)
    · rw [hk' s e] at hs; rw [hb' s e] at heq hb
      rw [hk' u e'] at hu; rw [hb' u e'] at heq
      exact t.inj s u hs hu hb heq

theorem Tails.sub {pos : Int} {tl : List Int} (t : Tails b k pos tl) {b' k' : Int → Int}
    (h : ∀ s, k' s ≠ -1 → b' s < -1 → k s ≠ -1 ∧ b' s = b s) : Tails b' k' pos tl := by
  refine ⟨?_, ?_, t.nodup, t.bound, t.pos0⟩
  · intro s hs hb
    obtain ⟨h1, h2⟩ := h s hs hb
    rw [h2] at hb ⊢; exact t.used s h1 hb
  · intro s u hs hu hb heq
    obtain ⟨h1, h2⟩ := h s hs hb
    obtain ⟨h3, h4⟩ := h u hu (by omega)
    rw [h2] at hb heq; rw [h4] at heq
    exact t.inj s u h1 h3 hb heq

/-- a new tail index -/
theorem nextTail_ok (st : St) (t : Tails b k st.pos st.tailList) (hsz : st.pos ≤ st.tail.size) :
    ∃ p pos tl, nextTail st = (p, { st with pos := pos, tailList := tl }) ∧ Tails b k pos tl ∧ 0 ≤ p ∧ p < pos ∧ p ∉ tl ∧
      (∀ s, k s ≠ -1 → b s ≠ -p - 2) ∧ (pos ≤ st.tail.size ∨ pos ≤ p + 1) := by
  unfold nextTail
  cases htl : st.tailList with
  | nil =>
    rw [htl] at t
    refine ⟨st.pos, st.pos + 1, [], by simp, ⟨?_, t.inj, t.nodup, by simp, by have := t.pos0; omega⟩, t.pos0, by omega, by simp,
      ?_, by omega⟩
    · intro s h1 h2
      have := t.used s h1 h2
      exact ⟨by omega, this.2⟩
    · intro s h1 h2
      have := t.pos0
      have := t.used s h1 (by omega)
      omega
  | cons p l =>
    rw [htl] at t
    have hp := t.bound p (by simp)
    refine ⟨p, st.pos, l, rfl, ⟨?_, t.inj, t.nodup.of_cons, fun q hq => t.bound q (by simp [hq]), t.pos0⟩, hp.1, hp.2,
      (List.nodup_cons.1 t.nodup).1, ?_, by omega⟩
    · intro s h1 h2
      have := t.used s h1 h2
      exact ⟨this.1, fun h => this.2 (by simp [h])⟩
    · intro s h1 h2
      have := (t.used s h1 (by omega)).2
      apply this
      rw [h2, show -(-p - 2) - 2 = p by omega]
      simp

/-! ### search -/

theorem Term.split_head {w : Str} (h : Term A w) :
    (w = [1]) ∨ ∃ c rest, w = c :: rest ∧ A c ∧ Term A rest := by
  cases w with
  | nil => exact absurd h Term.nil_not
  | cons c r =>
    rcases h.cons_inv with ⟨rfl, rfl⟩ | ⟨h1, h2⟩
    · exact .inl rfl
    · exact .inr ⟨c, r, rfl, h1, h2⟩

theorem retrieve_ok (al : Alpha A code) {st : St} (I : Inv A st) {ms : Mapper} (hms : Maps A code ms) :
    ∀ (w : Str) (v : Str) (n : Int), Term A w → Path A code st.b st.k v n → 0 ≤ st.b n →
      ∃ r, retrieve ms st n w = .ok r ∧ (r = true ↔ st.Word A code (v ++ w)) := by
  intro w
  induction w with
  | nil => intro v n h; exact absurd h Term.nil_not
  | cons c rest ih =>
    intro v n hw hp hb
    have C := I.core
    have hc : Valid A c := by rcases hw.cons_inv with h | h; exacts [.inl h.1, .inr h.1]
    have hr := al.range' hc
    have hna := hp.alloc C
    have hn0 := C.nonneg hna
    unfold retrieve
    rw [hms c hc]
    simp only [Out.ok_bind]
    rw [AA.get_ok _ hn0 (I.bsz hna)]
    simp only [Out.ok_bind]
    change ∃ r, (do
      if (← st.check.getc (st.b n + code c)) ≠ n then .ok false else
      if (← st.base.getc (st.b n + code c)) < -1 then
        if rest = [] then .ok true else do
          .ok (decide ((← st.tail.getc (-(← st.base.get (st.b n + code c)) - 2)) = rest))
      else retrieve ms st (st.b n + code c) rest) = Out.ok r ∧ _
    have hws := word_step (T := st.T) hp hb hc rest
    generalize ht : st.b n + code c = t at hws ⊢
    rw [AA.getc_ok _ (show 0 ≤ t by omega)]
    simp only [Out.ok_bind]
    change ∃ r, (if st.k t ≠ n then _ else _) = _ ∧ _
    by_cases hk : st.k t = n
    · rw [if_neg (by simpa using hk), AA.getc_ok _ (show 0 ≤ t by omega)]
      simp only [Out.ok_bind]
      change ∃ r, (if st.b t < -1 then _ else _) = _ ∧ _
      have hks : st.k t ≠ -1 := by omega
      have hoff : t - st.b (st.k t) = code c := by rw [hk]; omega
      rcases hw.cons_inv with ⟨rfl, rfl⟩ | ⟨hA, hT⟩
      · rw [al.end_] at hoff
        have hle := C.leafEnd t hks hoff
        refine ⟨true, ?_, ?_⟩
        · split
          · rw [if_pos rfl]
          · rfl
        · simp only [true_iff]
          refine hws.2 ⟨hk, ?_⟩
          rcases hle with h | h
          · exact .inr (.inl ⟨h, rfl⟩)
          · exact .inl ⟨h.1, h.2.symm⟩
      · have hne : t - st.b (st.k t) ≠ 1 := by have := al.range c hA; omega
        have hlt := C.leafLet t hks hne
        have hrne : rest ≠ [] := by rintro rfl; exact Term.nil_not hT
        by_cases hbt : st.b t < -1
        · rw [if_pos hbt, if_neg hrne, AA.get_ok _ (show 0 ≤ t by omega) (I.bsz (.inr hks))]
          simp only [Out.ok_bind]
          rw [AA.getc_ok _ (by unfold St.b at hbt; omega)]
          simp only [Out.ok_bind]
          refine ⟨_, rfl, ?_⟩
          rw [decide_eq_true_iff]
          constructor
          · intro e; exact hws.2 ⟨hk, .inl ⟨hbt, e.symm⟩⟩
          · intro e
            rcases (hws.1 e).2 with h | h | h
            · exact h.2.symm
            · omega
            · omega
        · rw [if_neg hbt]
          have hbt' : 0 ≤ st.b t := by rcases hlt with h | h <;> omega
          have hp' := Path.step c hp hb hc (by rw [ht]; exact hk)
          rw [ht] at hp'
          obtain ⟨r, hr1, hr2⟩ := ih (v ++ [c]) t hT hp' hbt'
          refine ⟨r, hr1, hr2.trans ?_⟩
          constructor
          · intro h; exact hws.2 ⟨hk, .inr (.inr ⟨hbt', h⟩)⟩
          · intro h
            rcases (hws.1 h).2 with h | h | h
            · omega
            · omega
            · exact h.2
    · rw [if_pos (by simpa using hk)]
      refine ⟨false, rfl, ?_⟩
      constructor
      · intro h; simp at h
      · intro h; exact absurd (hws.1 h).1 hk

end Trie
