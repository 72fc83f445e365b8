import Verif.Proof.TrieSet

/-! # Iteration over the trie -/

namespace Trie
open Cpp Spec

theorem mapInt_lcode : ∀ c : Byte, lower c → mapInt (lcode c) = c := by
  unfold lower
  refine forall_byte ?_
  decide +kernel

theorem lcode_surj {i : Int} (h1 : 2 ≤ i) (h2 : i ≤ 27) : ∃ c, lower c ∧ lcode c = i := by
  refine ⟨UInt8.ofNat (i + 95).toNat, ?_⟩
  obtain ⟨n, rfl⟩ : ∃ n : Fin 26, i = (n.val : Int) + 2 := ⟨⟨(i - 2).toNat, by omega⟩, by simp; omega⟩
  revert n
  unfold lower
  decide +kernel

/-- where the iterator stands on a word -/
structure At (st : St) (n offset : Int) (buffer : List Int) (v : Str) (off e : Int) : Prop where
  path : Path lower lcode st.b st.k v n
  low : ∀ c ∈ v, lower c
  base : 0 ≤ st.b n
  off_eq : offset = off + 1
  off1 : 1 ≤ off
  off2 : off ≤ 27
  buf : buffer = v.map lcode ++ [off, e]
  chk : st.k (st.b n + off) = n
  val : (off = 1 ∧ e = -1) ∨ (off ≠ 1 ∧ e = st.b (st.b n + off) ∧ e < -1)

theorem visit_sound {st : St} (I : Inv lower st) : ∀ (fuel : Nat) (n offset : Int) (v : Str) (n' o' : Int) (buf : List Int),
    Path lower lcode st.b st.k v n → (∀ c ∈ v, lower c) → 0 ≤ st.b n → 1 ≤ offset →
    visit st fuel n offset (v.map lcode) = .ok (true, n', o', buf) → ∃ v' off e, At st n' o' buf v' off e := by
  have C := I.core
  intro fuel
  induction fuel with
  | zero => intro n offset v n' o' buf _ _ _ _ h; unfold visit at h; cases h
  | succ fuel ih =>
    intro n offset v n' o' buf hp hl hb ho h
    have hn0 := C.nonneg (hp.alloc C)
    unfold visit at h
    by_cases h28 : offset < 28
    · rw [if_pos h28, AA.getc_ok _ hn0] at h
      simp only [Out.ok_bind] at h
      rw [show st.base.at n = st.b n from rfl, AA.getc_ok _ (by omega)] at h
      simp only [Out.ok_bind] at h
      rw [show st.check.at (st.b n + offset) = st.k (st.b n + offset) from rfl] at h
      by_cases hk : st.k (st.b n + offset) = n
      · rw [if_neg (by simpa using hk)] at h
        by_cases h1 : offset = 1
        · rw [if_pos h1] at h
          injection h with h
          simp only [Prod.mk.injEq, true_and] at h
          obtain ⟨rfl, rfl, rfl⟩ := h
          exact ⟨v, offset, -1, hp, hl, hb, rfl, ho, by omega, rfl, hk, .inl ⟨h1, rfl⟩⟩
        · rw [if_neg h1, AA.getc_ok _ (by omega)] at h
          simp only [Out.ok_bind] at h
          rw [show st.base.at (st.b n + offset) = st.b (st.b n + offset) from rfl] at h
          by_cases hlt : st.b (st.b n + offset) < -1
          · rw [if_pos hlt] at h
            injection h with h
            simp only [Prod.mk.injEq, true_and] at h
            obtain ⟨rfl, rfl, rfl⟩ := h
            exact ⟨v, offset, _, hp, hl, hb, rfl, ho, by omega, rfl, hk, .inr ⟨h1, rfl, hlt⟩⟩
          · rw [if_neg hlt] at h
            obtain ⟨c, hc, e⟩ := lcode_surj (i := offset) (by omega) (by omega)
            have hp' := Path.step c hp hb (.inr hc) (by rw [e]; exact hk)
            rw [e] at hp'
            have hks : st.k (st.b n + offset) ≠ -1 := by omega
            have hbb : 0 ≤ st.b (st.b n + offset) := by
              rcases C.leafLet _ hks (by rw [hk]; omega) with h | h <;> omega
            refine ih _ 1 (v ++ [c]) n' o' buf hp' ?_ hbb (by omega) (by rw [List.map_append, List.map_singleton, e]; exact h)
            intro d hd
            rcases List.mem_append.1 hd with hd | hd
            · exact hl d hd
            · rw [List.mem_singleton] at hd; rw [hd]; exact hc
      · rw [if_pos (by simpa using hk)] at h
        exact ih n (offset + 1) v n' o' buf hp hl hb (by omega) h
    · rw [if_neg h28] at h
      by_cases hlen : (v.map lcode).length ≤ 1
      · rw [if_pos hlen] at h
        injection h with h
        simp at h
      · rw [if_neg hlen, AA.getc_ok _ hn0] at h
        simp only [Out.ok_bind] at h
        rw [show st.check.at n = st.k n from rfl] at h
        obtain ⟨v0, c, rfl⟩ : ∃ v0 c, v = v0 ++ [c] := by
          refine ⟨v.dropLast, v.getLast (by rintro rfl; simp at hlen), ?_⟩
          rw [List.dropLast_append_getLast]
        obtain ⟨n0, hp0, hb0, hc, hk, e⟩ := hp.last
        rw [show st.k n = n0 by rw [e]; exact hk, List.map_append, List.map_singleton, List.dropLast_concat] at h
        refine ih n0 _ v0 n' o' buf hp0 (fun d hd => hl d (by simp [hd])) hb0 ?_ h
        have : 0 ≤ (v0.map lcode).getLastD 0 := by
          rcases List.eq_nil_or_concat (v0.map lcode) with h | ⟨l, a, h⟩
          · rw [h]; simp
          · have ha : a ∈ v0.map lcode := by rw [h]; simp
            obtain ⟨d, hd, rfl⟩ := List.mem_map.1 ha
            have := lower_alpha.range d (hl d (by simp [hd]))
            rw [h]
            simp
            omega
        omega

theorem derefGo_letters (mi : Int → Byte) (st : St) : ∀ (v : Str) (l : List Int) (s : Str), (∀ c ∈ v, lower c) →
    (∀ c, lower c → mi (lcode c) = c) → derefGo mi st (v.map lcode ++ l) s = derefGo mi st l (s ++ v) := by
  intro v
  induction v with
  | nil => intro l s _ _; simp
  | cons c v ih =>
    intro l s hv hmi
    have hc := lower_alpha.range c (hv c (by simp))
    rw [List.map_cons, List.cons_append]
    rw [derefGo, if_neg (by omega), if_neg (by omega), ih _ _ (fun d hd => hv d (by simp [hd])) hmi,
      hmi c (hv c (by simp))]
    simp

/-- The iterator gives a stored word. -/
theorem deref_sound {st : St} (I : Inv lower st) {n offset : Int} {buffer : List Int} {v : Str} {off e : Int} {d : Bool}
    (h : At st n offset buffer v off e) :
    ∃ w, Iter.deref mapInt st ⟨n, offset, buffer, d⟩ = .ok w ∧ st.Word lower lcode (w ++ [1]) := by
  have C := I.core
  have hn0 := C.nonneg (h.path.alloc C)
  have hks : st.k (st.b n + off) ≠ -1 := by have := h.chk; omega
  unfold Iter.deref
  dsimp only
  rw [h.buf, derefGo_letters mapInt st v _ _ h.low mapInt_lcode, List.nil_append]
  rcases h.val with ⟨h1, h2⟩ | ⟨h1, h2, h3⟩
  · refine ⟨v, by rw [derefGo, if_pos h1], ?_⟩
    have := h.chk
    refine (word_step (T := st.T) h.path h.base (c := 1) (.inl rfl) []).2 ⟨?_, ?_⟩
    · rw [show lcode 1 = off by rw [h1]; rfl]; exact h.chk
    · rw [show lcode 1 = off by rw [h1]; rfl]
      rcases C.leafEnd _ hks (by rw [h.chk]; omega) with g | g
      · exact .inr (.inl ⟨g, rfl⟩)
      · exact .inl ⟨g.1, g.2.symm⟩
  · obtain ⟨c, hc, ec⟩ := lcode_surj (i := off) (by have := h.off1; omega) h.off2
    have hoff1 := h.off1
    have hT : Term lower (st.T (-e - 2)) := by
      rcases C.leafLet _ hks (by rw [h.chk]; omega) with g | g
      · omega
      · rw [h2]; exact g.2
    obtain ⟨l, hl, el⟩ := hT
    have hu := I.tails.used _ hks (by omega)
    have hsz := I.lens.tsz
    refine ⟨v ++ [c] ++ l, ?_, ?_⟩
    · rw [derefGo, if_neg h1, if_neg (by omega), derefGo, if_neg (by omega), if_pos (by omega),
        AA.get_ok _ (by omega) (by omega)]
      simp only [Out.ok_bind]
      rw [show st.tail.at (-e - 2) = l ++ [1] from el, ← ec, mapInt_lcode c hc]
      simp
    · rw [show v ++ [c] ++ l ++ [1] = v ++ c :: (l ++ [1]) by simp]
      refine (word_step (T := st.T) h.path h.base (.inr hc) _).2 ⟨?_, .inl ⟨?_, ?_⟩⟩
      · rw [ec]; exact h.chk
      · rw [ec, ← h2]; exact h3
      · rw [ec, ← h2]; exact el.symm

theorem next_sound {st : St} (I : Inv lower st) {fuel : Nat} {n offset : Int} {v : Str} {it : Iter} {buffer : List Int}
    (hp : Path lower lcode st.b st.k v n) (hl : ∀ c ∈ v, lower c) (hb : 0 ≤ st.b n) (ho : 1 ≤ offset)
    (hbuf : buffer = v.map lcode ∧ v = [] ∨ ∃ a c, buffer = v.map lcode ++ [a, c])
    (h : Iter.next st fuel ⟨n, offset, buffer, false⟩ = .ok it) (hd : it.done = false) :
    ∃ v off e, At st it.n it.offset it.buffer v off e := by
  unfold Iter.next at h
  dsimp only at h
  rw [if_neg (by simp)] at h
  have hbuf' : (if buffer = [] then buffer else buffer.dropLast.dropLast) = v.map lcode := by
    rcases hbuf with ⟨h1, h2⟩ | ⟨a, c, h1⟩
    · rw [h1, h2]; simp
    · rw [h1, if_neg (by simp), show v.map lcode ++ [a, c] = v.map lcode ++ [a] ++ [c] by simp, List.dropLast_concat,
        List.dropLast_concat]
  rw [hbuf'] at h
  obtain ⟨⟨r, n', o', buf⟩, e1, e2⟩ := Out.bind_eq_ok.1 h
  injection e2 with e2
  rw [← e2] at hd ⊢
  dsimp only at hd ⊢
  rw [Bool.not_eq_false'] at hd
  subst hd
  exact visit_sound I fuel n offset v n' o' buf hp hl hb ho e1

theorem iterateFrom_sound {st : St} (I : Inv lower st) (fuel : Nat) : ∀ (k : Nat) (it : Iter) (ws : List Str),
    (it.done = false → ∃ v off e, At st it.n it.offset it.buffer v off e) →
    iterateFrom mapInt st fuel k it = .ok ws → ∀ w ∈ ws, st.Word lower lcode (w ++ [1]) := by
  intro k
  induction k with
  | zero => intro it ws _ h; unfold iterateFrom at h; cases h
  | succ k ih =>
    intro it ws hit h w hw
    unfold iterateFrom at h
    cases hd : it.done with
    | true =>
      rw [hd, if_pos rfl] at h
      injection h with h
      subst h
      simp at hw
    | false =>
      rw [hd, if_neg (by simp)] at h
      obtain ⟨v, off, e, hat⟩ := hit hd
      obtain ⟨n, offset, buffer, d⟩ := it
      dsimp only at hat hd
      subst hd
      obtain ⟨w0, e0, hw0⟩ := deref_sound I (d := false) hat
      rw [e0] at h
      simp only [Out.ok_bind] at h
      obtain ⟨it', e1, h1⟩ := Out.bind_eq_ok.1 h
      obtain ⟨ws', e2, h2⟩ := Out.bind_eq_ok.1 h1
      injection h2 with h2
      subst h2
      rcases List.mem_cons.1 hw with rfl | hw
      · exact hw0
      · refine ih it' ws' (fun hd => ?_) e2 w hw
        exact next_sound I hat.path hat.low hat.base (by have := hat.off1; have := hat.off_eq; omega) (.inr ⟨_, _, hat.buf⟩) e1 hd

theorem iterate_sound {st : St} {S : Finset Str} (R : Rep lower lcode st S) (fuel : Nat) (ws : List Str)
    (h : iterate mapInt st fuel = .ok ws) : ∀ w ∈ ws, w ∈ S := by
  unfold iterate at h
  obtain ⟨it, e1, e2⟩ := Out.bind_eq_ok.1 h
  intro w hw
  rw [← R.mem]
  refine iterateFrom_sound R.inv fuel fuel it ws (fun hd => ?_) e2 w hw
  exact next_sound R.inv (v := []) .root (by simp) R.inv.core.b0 (by omega) (.inl ⟨rfl, rfl⟩) e1 hd

/-! ### words with different first letters -/

/-- All words hang directly below the root. -/
structure Flat (st : St) : Prop where
  b0 : st.b 0 = 0
  leaf : ∀ s, st.k s ≠ -1 → st.k s = 0 ∧ st.b s < -1

theorem insert_flat {st : St} {S : Finset Str} (R : Rep lower lcode st S) (F : Flat st) {w : Str} (hw : Lower w)
    (hnew : ∀ u ∈ S, u.head? ≠ w.head?) :
    ∃ st', insert mapChar mapChar st w = .ok st' ∧ Rep lower lcode st' (Insert.insert w S) ∧ Flat st' := by
  obtain ⟨st', e, R'⟩ := insert_rep lower_alpha lower_maps lower_maps R hw
  refine ⟨st', e, R', ?_⟩
  have hwS : w ∉ S := fun h => hnew w h rfl
  unfold insert at e
  rw [contain_rep lower_alpha lower_maps R hw] at e
  simp only [Out.ok_bind, decide_eq_false hwS, Bool.false_eq_true, if_false] at e
  obtain ⟨st1, e1, e2⟩ := Out.bind_eq_ok.1 e
  injection e2 with e2
  have F1 : Flat st1 := by
    obtain ⟨c, rest, hcr⟩ : ∃ c rest, w ++ [1] = c :: rest := by
      cases w with
      | nil => exact ⟨1, [], rfl⟩
      | cons c w => exact ⟨c, w ++ [1], rfl⟩
    have hT : Term lower (c :: rest) := by rw [← hcr]; exact term_of hw
    have hc : Valid lower c := by rcases hT.cons_inv with h | h; exacts [.inl h.1, .inr h.1]
    have hr := lower_alpha.range' hc
    have hb0 : 0 < st.base.size := R.inv.bsz (.inl rfl)
    rw [show endChar = 1 from rfl, hcr] at e1
    unfold insertGo at e1
    rw [lower_maps c hc] at e1
    simp only [Out.ok_bind] at e1
    rw [AA.get_ok _ (Int.le_refl 0) hb0] at e1
    simp only [Out.ok_bind] at e1
    rw [show st.base.at 0 = 0 from F.b0, Int.zero_add, AA.getc_ok _ (by omega)] at e1
    simp only [Out.ok_bind] at e1
    have hfree : st.k (lcode c) = -1 := by
      by_contra hk
      obtain ⟨h1, h2⟩ := F.leaf _ hk
      have hW : st.Word lower lcode (c :: st.T (-st.b (lcode c) - 2)) := by
        refine (word_step (T := st.T) (v := []) .root R.inv.core.b0 hc _).2 ⟨?_, .inl ⟨?_, ?_⟩⟩
        · rw [F.b0, Int.zero_add]; exact h1
        · rw [F.b0, Int.zero_add]; exact h2
        · rw [F.b0, Int.zero_add]
      obtain ⟨u, hu, eu⟩ := (R.word _).1 hW
      apply hnew u hu
      cases u with
      | nil =>
        cases w with
        | nil => rfl
        | cons d w =>
          exfalso
          simp at eu hcr
          have := hw d (by simp)
          rw [hcr.1, eu.1] at this
          exact absurd this.1 (by decide)
      | cons d u =>
        cases w with
        | nil =>
          exfalso
          simp at eu hcr
          obtain ⟨c', hc', he'⟩ : ∃ l, (∀ c ∈ l, lower c) ∧ d :: (u ++ [1]) = l ++ [1] := by
            have hR : st.Word lower lcode ((d :: u) ++ [1]) := (R.word _).2 ⟨_, hu, rfl⟩
            rw [List.cons_append, ← eu.1, ← hcr.1] at hR
            have h3 := (word_step (T := st.T) (v := []) .root R.inv.core.b0 (.inl rfl) _).1 hR
            rw [F.b0, Int.zero_add, show (1 : Byte) = c from hcr.1] at h3
            rcases R.inv.core.leafEnd _ hk (by rw [h1, F.b0, ← hcr.1]; rfl) with g | g
            · omega
            · rcases h3.2 with h | h | h
              · rw [g.2] at h; simp at h
              · omega
              · omega
          cases c' with
          | nil => simp at he'
          | cons x l => simp at he'; have := hc' x (by simp); rw [← he'.1, ← eu.1, ← hcr.1] at this; exact lower_alpha.not_end this
        | cons d' w =>
          simp at eu hcr
          simp [← eu.1, hcr.1]
    rw [show st.check.at (lcode c) = -1 from hfree, if_pos rfl] at e1
    obtain ⟨p, pos, tl, en, -, hp0, -⟩ := nextTail_ok st R.inv.tails R.inv.lens.tsz
    unfold setTail at e1
    rw [en] at e1
    dsimp only at e1
    rw [setTailAt_ok _ hp0] at e1
    simp only [Out.ok_bind] at e1
    rw [setBase_ok _ (by omega)] at e1
    simp only [Out.ok_bind] at e1
    rw [setCheck_ok _ (by omega)] at e1
    injection e1 with e1
    subst e1
    constructor
    · show (st.base.put _ _).at 0 = 0
      rw [AA.at_put, if_neg (by omega)]; exact F.b0
    · intro s hs
      change (st.check.put _ _).at s ≠ -1 at hs
      show (st.check.put _ _).at s = 0 ∧ (st.base.put _ _).at s < -1
      rw [AA.at_put] at hs
      rw [AA.at_put, AA.at_put]
      by_cases es : s = lcode c
      · rw [if_pos es, if_pos es]; exact ⟨rfl, by omega⟩
      · rw [if_neg es] at hs ⊢
        rw [if_neg es]; exact F.leaf s hs
  rw [← e2]
  exact ⟨F1.b0, F1.leaf⟩

/-- the word below the root in the slot `o` -/
def flatWord (st : St) (o : Int) : Str := if o = 1 then [] else mapInt o :: (st.T (-st.b o - 2)).dropLast

/-- the words in the slots `28 - d … 27` -/
def flatList (st : St) : Nat → List Str
  | 0 => []
  | d + 1 => if st.k (28 - ((d : Int) + 1)) = 0 then flatWord st (28 - ((d : Int) + 1)) :: flatList st d else flatList st d

theorem visit_flat {st : St} (F : Flat st) : ∀ (d : Nat), d ≤ 27 → ∀ (fuel : Nat), d < fuel →
    (∃ d', d' < d ∧ flatList st d = flatWord st (28 - ((d' : Int) + 1)) :: flatList st d' ∧
      st.k (28 - ((d' : Int) + 1)) = 0 ∧
      visit st fuel 0 (28 - (d : Int)) [] = .ok (true, 0, 28 - (d' : Int), [28 - ((d' : Int) + 1),
        if (28 - ((d' : Int) + 1)) = 1 then -1 else st.b (28 - ((d' : Int) + 1))])) ∨
    (flatList st d = [] ∧ ∃ r, visit st fuel 0 (28 - (d : Int)) [] = .ok (false, r)) := by
  intro d
  induction d with
  | zero =>
    intro _ fuel hf
    obtain ⟨fuel, rfl⟩ : ∃ f, fuel = f + 1 := ⟨fuel - 1, by omega⟩
    right
    refine ⟨rfl, (0, 28, []), ?_⟩
    unfold visit
    simp
  | succ d ih =>
    intro hd fuel hf
    obtain ⟨fuel, rfl⟩ : ∃ f, fuel = f + 1 := ⟨fuel - 1, by omega⟩
    have ho : (28 - ((d + 1 : Nat) : Int)) = 28 - ((d : Int) + 1) := by push_cast; rfl
    rw [ho]
    have hv : visit st (fuel + 1) 0 (28 - ((d : Int) + 1)) [] =
        if st.k (28 - ((d : Int) + 1)) ≠ 0 then visit st fuel 0 (28 - ((d : Int) + 1) + 1) [] else
        if 28 - ((d : Int) + 1) = 1 then .ok (true, 0, 28 - ((d : Int) + 1) + 1, [28 - ((d : Int) + 1), -1])
        else .ok (true, 0, 28 - ((d : Int) + 1) + 1, [28 - ((d : Int) + 1), st.b (28 - ((d : Int) + 1))]) := by
      rw [visit, if_pos (by omega), AA.getc_ok _ (Int.le_refl 0)]
      simp only [Out.ok_bind]
      rw [show st.base.at 0 = 0 from F.b0, Int.zero_add, AA.getc_ok _ (by omega)]
      simp only [Out.ok_bind]
      rw [show st.check.at (28 - ((d : Int) + 1)) = st.k (28 - ((d : Int) + 1)) from rfl]
      by_cases hk : st.k (28 - ((d : Int) + 1)) = 0
      · have hk' : ¬ st.k (28 - ((d : Int) + 1)) ≠ 0 := fun h => h hk
        rw [if_neg hk', if_neg hk', AA.getc_ok _ (by omega)]
        simp only [Out.ok_bind]
        rw [show st.base.at (28 - ((d : Int) + 1)) = st.b (28 - ((d : Int) + 1)) from rfl,
          if_pos (F.leaf _ (by omega)).2]
        simp only [List.nil_append]
      · rw [if_pos hk, if_pos hk]
    rw [hv, flatList]
    by_cases hk : st.k (28 - ((d : Int) + 1)) = 0
    · left
      rw [if_pos hk, if_neg (by simpa using hk)]
      refine ⟨d, by omega, rfl, hk, ?_⟩
      by_cases h1 : 28 - ((d : Int) + 1) = 1
      · rw [if_pos h1, if_pos h1, show 28 - ((d : Int) + 1) + 1 = 28 - (d : Int) by omega]
      · rw [if_neg h1, if_neg h1, show 28 - ((d : Int) + 1) + 1 = 28 - (d : Int) by omega]
    · rw [if_neg hk, if_pos hk, show 28 - ((d : Int) + 1) + 1 = 28 - (d : Int) by omega]
      rcases ih (by omega) fuel (by omega) with ⟨d', h1, h2, h3, h4⟩ | h
      · exact .inl ⟨d', by omega, h2, h3, h4⟩
      · exact .inr h

theorem deref_flat {st : St} (I : Inv lower st) (F : Flat st) {d : Nat} (hd : d < 27) (hk : st.k (28 - ((d : Int) + 1)) = 0)
    (o : Int) :
    Iter.deref mapInt st ⟨0, o, [28 - ((d : Int) + 1), if (28 - ((d : Int) + 1)) = 1 then -1 else st.b (28 - ((d : Int) + 1))], false⟩
      = .ok (flatWord st (28 - ((d : Int) + 1))) := by
  have hks : st.k (28 - ((d : Int) + 1)) ≠ -1 := by omega
  have hb := (F.leaf _ hks).2
  unfold Iter.deref flatWord
  dsimp only
  by_cases h1 : 28 - ((d : Int) + 1) = 1
  · rw [derefGo, if_pos h1, if_pos h1]
  · rw [derefGo, if_neg h1, if_neg h1, if_neg (by omega), if_neg h1, derefGo, if_neg (by omega), if_pos (by omega),
      AA.get_ok _ (by omega) (by have := (I.tails.used _ hks hb).1; have := I.lens.tsz; omega)]
    simp only [Out.ok_bind]
    rw [← List.dropLast_eq_take]
    rfl

theorem iterate_flat {st : St} (I : Inv lower st) (F : Flat st) {fuel : Nat} (hf : 27 < fuel) : ∀ (d : Nat), d ≤ 27 →
    ∀ (k : Nat), d < k → ∀ (buffer : List Int), buffer = [] ∨ (∃ a c, buffer = [a, c]) →
    (do iterateFrom mapInt st fuel k (← Iter.next st fuel ⟨0, 28 - (d : Int), buffer, false⟩)) = Out.ok (flatList st d) := by
  intro d
  induction d using Nat.strongRecOn with
  | ind d ih =>
    intro hd k hk buffer hbuf
    obtain ⟨k, rfl⟩ : ∃ f, k = f + 1 := ⟨k - 1, by omega⟩
    have hb : (if buffer = [] then buffer else buffer.dropLast.dropLast) = [] := by
      rcases hbuf with h | ⟨a, c, h⟩ <;> simp [h]
    have hnext : Iter.next st fuel ⟨0, 28 - (d : Int), buffer, false⟩ = (do
        let (r, n, offset, buffer) ← visit st fuel 0 (28 - (d : Int)) []
        .ok ⟨n, offset, buffer, !r⟩) := by
      unfold Iter.next
      dsimp only
      rw [if_neg (by simp), hb]
    rw [hnext]
    rcases visit_flat F d hd fuel (by omega) with ⟨d', h1, h2, h3, h4⟩ | ⟨h1, r, h2⟩
    · rw [h4, h2]
      simp only [Out.ok_bind]
      rw [iterateFrom]
      simp only [Bool.not_true, Bool.false_eq_true, if_false]
      rw [deref_flat I F (by omega) h3]
      simp only [Out.ok_bind]
      have := ih d' h1 (by omega) k (by omega) [28 - ((d' : Int) + 1), if (28 - ((d' : Int) + 1)) = 1 then -1 else
        st.b (28 - ((d' : Int) + 1))] (.inr ⟨_, _, rfl⟩)
      obtain ⟨it, e1, e2⟩ := Out.bind_eq_ok.1 this
      rw [e1]
      simp only [Out.ok_bind]
      rw [e2]
      rfl
    · rw [h2, h1]
      simp only [Out.ok_bind]
      rw [iterateFrom]
      simp

theorem flatList_mem {st : St} : ∀ (d : Nat), d ≤ 27 → ∀ w, w ∈ flatList st d ↔
    ∃ o : Int, 28 - (d : Int) ≤ o ∧ o ≤ 27 ∧ st.k o = 0 ∧ w = flatWord st o := by
  intro d
  induction d with
  | zero =>
    intro _ w
    simp only [flatList, List.not_mem_nil, false_iff]
    rintro ⟨o, h1, h2, -⟩
    simp at h1; omega
  | succ d ih =>
    intro hd w
    rw [flatList]
    have ih := ih (by omega) w
    push_cast
    constructor
    · intro h
      split at h
      · rename_i hk
        rcases List.mem_cons.1 h with rfl | h
        · exact ⟨_, Int.le_refl _, by omega, hk, rfl⟩
        · obtain ⟨o, h1, h2, h3⟩ := ih.1 h
          exact ⟨o, by omega, h2, h3⟩
      · obtain ⟨o, h1, h2, h3⟩ := ih.1 h
        exact ⟨o, by omega, h2, h3⟩
    · rintro ⟨o, h1, h2, h3, h4⟩
      by_cases e : o = 28 - ((d : Int) + 1)
      · rw [← e, if_pos h3, h4]; exact List.mem_cons_self
      · have := ih.2 ⟨o, by omega, h2, h3, h4⟩
        split
        · exact List.mem_cons_of_mem _ this
        · exact this

theorem mapInt_mono {o o' : Int} (h1 : 2 ≤ o) (h2 : o < o') (h3 : o' ≤ 27) : mapInt o < mapInt o' := by
  obtain ⟨c, hc, rfl⟩ := lcode_surj (i := o) h1 (by omega)
  obtain ⟨c', hc', rfl⟩ := lcode_surj (i := o') (by omega) h3
  rw [mapInt_lcode c hc, mapInt_lcode c' hc']
  have g1 : 97 ≤ c.toNat := hc.1
  have g2 : 97 ≤ c'.toNat := hc'.1
  unfold lcode at h2
  rw [if_neg (by rintro rfl; simp at g1), if_neg (by rintro rfl; simp at g2)] at h2
  exact UInt8.lt_iff_toNat_lt.2 (by omega)

theorem flatList_sorted {st : St} : ∀ (d : Nat), d ≤ 27 → (flatList st d).Pairwise (· < ·) := by
  intro d
  induction d with
  | zero => intro _; exact List.Pairwise.nil
  | succ d ih =>
    intro hd
    rw [flatList]
    split
    · refine List.pairwise_cons.2 ⟨?_, ih (by omega)⟩
      intro w hw
      obtain ⟨o, h1, h2, h3, rfl⟩ := (flatList_mem d (by omega) w).1 hw
      unfold flatWord
      rw [if_neg (show ¬ o = 1 by omega)]
      by_cases e : 28 - ((d : Int) + 1) = 1
      · rw [if_pos e]; exact List.nil_lt_cons _ _
      · rw [if_neg e]
        exact List.Lex.rel (mapInt_mono (by omega) (by omega) h2)
    · exact ih (by omega)

theorem flat_mem {st : St} {S : Finset Str} (R : Rep lower lcode st S) (F : Flat st) (w : Str) : w ∈ flatList st 27 ↔ w ∈ S := by
  have C := R.inv.core
  have hb0 : (0 : Int) ≤ st.b 0 := C.b0
  rw [flatList_mem 27 (by omega) w]
  constructor
  · rintro ⟨o, h1, h2, h3, rfl⟩
    rw [← R.mem]
    have hks : st.k o ≠ -1 := by omega
    have hb := (F.leaf o hks).2
    unfold flatWord
    by_cases e : o = 1
    · rw [if_pos e]
      refine (word_step (T := st.T) (v := []) .root hb0 (c := 1) (.inl rfl) []).2 ⟨?_, .inl ⟨?_, ?_⟩⟩
      · rw [F.b0, show (0 : Int) + lcode 1 = o by rw [e]; rfl]; exact h3
      · rw [F.b0, show (0 : Int) + lcode 1 = o by rw [e]; rfl]; exact hb
      · rw [F.b0, show (0 : Int) + lcode 1 = o by rw [e]; rfl]
        rcases C.leafEnd o hks (by rw [h3, F.b0]; omega) with g | g
        · omega
        · exact g.2.symm
    · rw [if_neg e]
      obtain ⟨c, hc, ec⟩ := lcode_surj (i := o) (by simp at h1; omega) h2
      have hT : Term lower (st.T (-st.b o - 2)) := by
        rcases C.leafLet o hks (by rw [h3, F.b0]; omega) with g | g
        · omega
        · exact g.2
      obtain ⟨l, hl, el⟩ := hT
      rw [el, List.dropLast_concat, ← ec, mapInt_lcode c hc]
      refine (word_step (T := st.T) (v := []) .root hb0 (c := c) (.inr hc) (l ++ [1])).2 ⟨?_, .inl ⟨?_, ?_⟩⟩
      · rw [F.b0, Int.zero_add, ec]; exact h3
      · rw [F.b0, Int.zero_add, ec]; exact hb
      · rw [F.b0, Int.zero_add, ec]; exact el.symm
  · intro hw
    have hW := (R.mem w).2 hw
    obtain ⟨v, t, hp, hne, hcase⟩ := hW
    -- the path has one letter
    obtain ⟨c, hc, hk, rfl, rfl⟩ : ∃ c, Valid lower c ∧ st.k (lcode c) = 0 ∧ t = lcode c ∧ v = [c] := by
      rcases List.eq_nil_or_concat v with rfl | ⟨v0, c, rfl⟩
      · exact absurd rfl hne
      · rw [List.concat_eq_append] at hp
        obtain ⟨n, hn, hbn, hc, hk, ht⟩ := hp.last
        have hn0 : n = 0 := by
          by_contra h
          have hna := (hn.alloc C).resolve_left h
          have := (F.leaf n hna).2
          omega
        rw [hn0, F.b0, Int.zero_add] at hk ht
        rw [hn0] at hn
        have := (hn.nil_iff C).2 rfl
        exact ⟨c, hc, hk, ht, by rw [this]; rfl⟩
    have hks : st.k (lcode c) ≠ -1 := by omega
    have hb := (F.leaf _ hks).2
    have hr := lower_alpha.range' hc
    refine ⟨lcode c, by simp; omega, hr.2, hk, ?_⟩
    unfold flatWord
    rcases hcase with ⟨_, hcase⟩ | ⟨h, _⟩
    · rcases hc with rfl | hc
      · rw [if_pos (show lcode 1 = 1 from rfl)]
        rcases C.leafEnd _ hks (by rw [hk, F.b0]; rfl) with g | g
        · omega
        · rw [g.2] at hcase
          cases w with
          | nil => rfl
          | cons x w => simp at hcase
      · rw [if_neg (by have := lower_alpha.range c hc; omega), mapInt_lcode c hc]
        have : (w ++ [1]).dropLast = ([c] ++ st.T (-st.b (lcode c) - 2)).dropLast := by rw [hcase]
        rw [List.dropLast_concat] at this
        rw [this]
        have hT : Term lower (st.T (-st.b (lcode c) - 2)) := by
          rcases C.leafLet _ hks (by rw [hk, F.b0]; have := lower_alpha.range c hc; omega) with g | g
          · omega
          · exact g.2
        obtain ⟨l, hl, el⟩ := hT
        rw [el]
        rw [List.dropLast_concat, ← List.append_assoc, List.dropLast_concat]
        rfl
    · omega

theorem build_flat (ws : List Str) (hl : ∀ w ∈ ws, Lower w) (hd : (ws.map List.head?).Nodup) :
    ∃ st, build ws = .ok st ∧ Rep lower lcode st ws.toFinset ∧ Flat st := by
  induction ws using List.reverseRecOn with
  | nil =>
    obtain ⟨st, e, R⟩ := new_rep lower_alpha
    refine ⟨st, by unfold build; rw [e]; rfl, R, ?_⟩
    unfold new at e
    rw [AA.set_ok _ (Int.le_refl 0)] at e
    injection e with e
    subst e
    constructor
    · show ((AA.new 26 (-1) : AA Int).put 0 0).at 0 = 0
      rw [AA.at_put, if_pos rfl]
    · intro s h
      exfalso
      apply h
      show (AA.new 26 (-1) : AA Int).at s = -1
      unfold AA.at AA.new; simp
  | append_singleton ws w ih =>
    rw [List.map_append, List.nodup_append] at hd
    obtain ⟨st, e, R, F⟩ := ih (fun u h => hl u (by simp [h])) hd.1
    obtain ⟨st', e', R', F'⟩ := insert_flat R F (hl w (by simp)) (fun u hu => by
      refine hd.2.2 _ (List.mem_map.2 ⟨u, by simpa using hu, rfl⟩) _ (by simp))
    refine ⟨st', ?_, ?_, F'⟩
    · unfold build at e ⊢
      obtain ⟨s0, e0, e1⟩ := Out.bind_eq_ok.1 e
      rw [e0]
      simp only [Out.ok_bind]
      rw [List.foldlM_append, e1]
      simp only [Out.ok_bind, List.foldlM_cons, List.foldlM_nil]
      rw [e']
      rfl
    · have : (ws ++ [w]).toFinset = Insert.insert w ws.toFinset := by
        ext x; simp
      rw [this]; exact R'

end Trie
