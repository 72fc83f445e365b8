import Verif.Proof.TrieRegular
import Verif.Spec.TrieHistory

/-! # Iteration after insertions and removals -/

namespace Trie
open Cpp Spec Relation

/-! ### inner nodes through a history -/

theorem insert_inner {st st' : St} {S : Finset Str} (R : Rep lower lcode st S) {w : Str} (hw : ∀ c ∈ w, lower c)
    (e : insert mapChar mapChar st w = .ok st') :
    (∀ u, Inn st' u → Inn st u ∨ (u <+: w ++ [1] ∧ ∃ x, st.Word lower lcode x ∧ x ≠ w ++ [1] ∧ u <+: x)) ∧
    ∀ u, Inn st u → Inn st' u := by
  unfold insert at e
  rw [contain_rep lower_alpha lower_maps R hw] at e
  simp only [Out.ok_bind] at e
  by_cases hm : w ∈ S
  · rw [decide_eq_true hm, if_pos rfl] at e
    injection e with e
    rw [← e]
    exact ⟨fun u h => .inl h, fun u h => h⟩
  · rw [decide_eq_false hm, if_neg (by simp)] at e
    have hnot : ¬ st.Word lower lcode ([] ++ (w ++ [1])) := by rw [List.nil_append, R.mem]; exact hm
    obtain ⟨st1, e1, -, -, hW, hI, hK⟩ := insertGo_ok lower_alpha R.inv lower_maps lower_maps (w ++ [1]) [] 0 (term_of hw) .root
      R.inv.core.b0 hnot
    rw [show endChar = 1 from rfl, e1] at e
    simp only [Out.ok_bind] at e
    injection e with e
    subst e
    refine ⟨fun u h => ?_, fun u h => hK u h⟩
    rcases hI u h with h | ⟨h1, x, hx, h2⟩
    · exact .inl h
    · exact .inr ⟨h1, x, hx, fun e => hnot (e ▸ hx), h2⟩

theorem remove_inner {st st' : St} {S : Finset Str} (R : Rep lower lcode st S) {w : Str} (hw : ∀ c ∈ w, lower c)
    (e : remove mapChar st w = .ok st') : (∀ u, Inn st' u ↔ Inn st u) ∧ (w ∈ S ∨ st' = st) := by
  obtain ⟨h1, h2⟩ := removeGo_ok lower_alpha R.inv lower_maps (w ++ [1]) [] 0 (term_of hw) .root R.inv.core.b0
  rw [List.nil_append, R.mem] at h1 h2
  unfold remove at e
  rw [show endChar = 1 from rfl] at e
  by_cases hm : w ∈ S
  · obtain ⟨st1, e1, I', hs, hI, hW⟩ := h1 hm
    rw [e1] at e
    simp only [Out.ok_bind, if_true] at e
    injection e with e
    subst e
    exact ⟨fun u => hI u, .inl hm⟩
  · rcases h2 hm with h | h
    · rw [h] at e; cases e
    · rw [h] at e
      simp only [Out.ok_bind] at e
      injection e with e
      subst e
      exact ⟨fun u => Iff.rfl, .inr rfl⟩

theorem fork_snoc (ops : List (Bool × Str)) (op : Bool × Str) (v : Str) :
    Fork (ops ++ [op]) v ↔ Fork ops v ∨
      ∃ u ∈ words (ops ++ [op]), ∃ w ∈ words (ops ++ [op]), u ≠ w ∧ v <+: u ∧ v <+: w := by
  unfold Fork
  constructor
  · rintro ⟨l, hl, h⟩
    rcases List.prefix_concat_iff.1 hl with rfl | hl
    · exact .inr h
    · exact .inl ⟨l, hl, h⟩
  · rintro (⟨l, hl, h⟩ | h)
    · exact ⟨l, hl.trans (List.prefix_append _ _), h⟩
    · exact ⟨_, List.prefix_refl _, h⟩

/-- Below the root the inner nodes are the beginnings shared at some time. -/
theorem run_inner (ops : List (Bool × Str)) (hw : ∀ op ∈ ops, Lower op.2) {st : St} (e : run ops = .ok st) :
    Rep lower lcode st (words ops) ∧ (∀ v, v ≠ [] → (Fork ops v ↔ Inn st v)) ∧ ∃ M, ∀ v, Inn st v → v.length < M := by
  induction ops using List.reverseRecOn generalizing st with
  | nil =>
    obtain ⟨st, B1, B2, B3⟩ := build_branch [] (by simp)
    have : run [] = .ok st := by rw [← B1]; rfl
    rw [e] at this
    injection this with this
    subst this
    have hno : ∀ v, v ≠ [] → ¬ Inn st v := by
      intro v hv hi
      obtain ⟨u, hu, _⟩ := hi.shared B2 B3 hv
      simp at hu
    refine ⟨B2, fun v hv => ⟨?_, fun h => absurd h (hno v hv)⟩, 1, fun v h => ?_⟩
    · rintro ⟨l, hl, u, hu, -⟩
      rw [List.prefix_nil.1 hl] at hu
      simp [words] at hu
    · by_cases hv : v = []
      · subst hv; simp
      · exact absurd h (hno v hv)
  | append_singleton ops op ih =>
    rw [run_snoc] at e
    obtain ⟨s0, e0, e1⟩ := Out.bind_eq_ok.1 e
    obtain ⟨R, hF, M, hM⟩ := ih (fun o h => hw o (by simp [h])) e0
    have R' : Rep lower lcode st (words (ops ++ [op])) := by
      rcases run_rep (ops ++ [op]) hw with h | ⟨st', h, R'⟩
      · rw [← run_snoc, h] at e; cases e
      · rw [← run_snoc, h] at e
        injection e with e
        rw [← e]; exact R'
    have hlow : ∀ c ∈ op.2, lower c := hw op (by simp)
    obtain ⟨b, w⟩ := op
    refine ⟨R', ?_⟩
    cases b with
    | true =>
      simp only [if_true] at e1
      obtain ⟨k1, k2⟩ := insert_inner R hlow e1
      dsimp only at hlow
      refine ⟨fun v hv => ?_, max M (w.length + 2), fun v h => ?_⟩
      · rw [fork_snoc]
        constructor
        · rintro (h | ⟨u, hu, x, hx, hne, h1, h2⟩)
          · exact k2 v ((hF v hv).1 h)
          · exact Inn.of_shared R' hu hx hne h1 h2
        · intro h
          rcases k1 v h with h' | ⟨h1, x, hx, hne, h2⟩
          · exact .inl ((hF v hv).2 h')
          · right
            obtain ⟨u, hu, rfl⟩ := (R.word x).1 hx
            have hl := h.low R'
            rw [words_snoc]
            simp only [if_true]
            exact ⟨u, Finset.mem_insert_of_mem hu, w, Finset.mem_insert_self _ _, fun e => hne (by rw [e]), inn_prefix hl h2,
              inn_prefix hl h1⟩
      · rcases k1 v h with h' | ⟨h1, _⟩
        · exact lt_of_lt_of_le (hM v h') (le_max_left _ _)
        · have := h1.length_le
          simp at this
          exact lt_of_lt_of_le (by omega) (le_max_right _ _)
    | false =>
      simp only [Bool.false_eq_true, if_false] at e1
      obtain ⟨k1, k2⟩ := remove_inner R hlow e1
      refine ⟨fun v hv => ?_, M, fun v h => hM v ((k1 v).1 h)⟩
      rw [fork_snoc]
      constructor
      · rintro (h | ⟨u, hu, x, hx, hne, h1, h2⟩)
        · exact (k1 v).2 ((hF v hv).1 h)
        · exact Inn.of_shared R' hu hx hne h1 h2
      · intro h
        exact .inl ((hF v hv).2 ((k1 v).1 h))

section
variable {st : St} {S : Finset Str} {F : Str → Prop}

/-! ### from a regular history to a complete iteration -/

theorem runs_nodeH (R : Rep lower lcode st S) (hF : ∀ v, v ≠ [] → (F v ↔ Inn st v)) (hlow : ∀ w ∈ S, Lower w)
    (H : RegularH F S) :
    ∀ (m : Nat) (v0 : Str) (x : Byte), Inn st (v0 ++ [x]) → Open F (v0 ++ [x]) → (∀ v, Inn st v → v.length < v0.length + m) →
      ∀ (d : Nat), d ≤ 27 → (∀ b, Inn st (v0 ++ [x] ++ [b]) → lcode b < 28 - (d : Int) → lcode x < 28 - (d : Int)) →
        ∃ l, Runs st (v0 ++ [x], 28 - (d : Int)) l (v0 ++ [x], 28) ∧
        (∀ w, w ∈ l ↔ From S (v0 ++ [x]) (28 - (d : Int)) w) ∧ l.Pairwise (· < ·) := by
  intro m
  induction m with
  | zero =>
    intro v0 x hi _ hlen
    have := hlen _ hi
    simp at this
  | succ m ihm =>
    intro v0 x hi hopen hlen d
    have hx : lower x := hi.low R x (by simp)
    have hrx := lower_alpha.range x hx
    induction d using Nat.strongRecOn with
    | ind d ih =>
      intro hd hun
      cases d with
      | zero =>
        refine ⟨[], by simpa using Runs.refl _, fun w => ?_, List.Pairwise.nil⟩
        simp only [List.not_mem_nil, false_iff]
        exact from_end (by simp)
      | succ d =>
        have ho1 : (1 : Int) ≤ 28 - ((d + 1 : Nat) : Int) := by push_cast; omega
        have ho2 : 28 - ((d + 1 : Nat) : Int) < 28 := by push_cast; omega
        obtain ⟨hval, hcode⟩ := ch_spec ho1 ho2
        have hnext : 28 - ((d + 1 : Nat) : Int) + 1 = 28 - (d : Int) := by push_cast; omega
        generalize 28 - ((d + 1 : Nat) : Int) = o at *
        have hun' : ¬ Inn st (v0 ++ [x] ++ [ch o]) → ∀ b, Inn st (v0 ++ [x] ++ [b]) → lcode b < 28 - (d : Int) →
            lcode x < 28 - (d : Int) := by
          intro hno b hb hlt
          by_cases hbo : lcode b = o
          · rw [← hbo, ch_lcode (.inr (hb.low R b (by simp)))] at hno
            exact absurd hb hno
          · have := hun b hb (by omega)
            omega
        rcases child_cases R (v0 ++ [x]) o with h0 | ⟨w, hw⟩ | hin
        · have hno : ¬ Inn st (v0 ++ [x] ++ [ch o]) := by rintro ⟨t, ht, _⟩; exact h0 t ht
          obtain ⟨l, k1, k2, k3⟩ := ih d (by omega) (by omega) (hun' hno)
          refine ⟨l, ?_, fun w => ?_, k3⟩
          · have := Runs.step (.skip ho2 h0) (hnext ▸ k1)
            simpa using this
          · rw [k2 w, ← hnext]
            refine (from_skip fun w hw c hc e hpre => ?_).symm
            obtain ⟨t, ht⟩ := child_of_word R hi hw hpre
            rw [← e, ch_lcode hc] at h0
            exact h0 t ht
        · obtain ⟨l, k1, k2, k3⟩ := ih d (by omega) (by omega) (hun' hw.not_inn)
          have hone : ∀ u, u ∈ [w] ↔ u ∈ S ∧ (v0 ++ [x]) ++ [ch o] <+: u ++ [1] := by
            intro u; rw [List.mem_singleton, leaf_word R hw u]
          refine ⟨[w] ++ l, Runs.step (.leaf ho2 hw) (hnext ▸ k1), fun u => ?_, ?_⟩
          · rw [List.mem_append, hone, k2 u, ← hnext, ← from_split hval hcode (by omega)]
            intro w _ d _ h1 h2
            omega
          · exact sorted_append hlow hval (o' := 28 - (d : Int)) (by omega) hone k2 (by simp) k3
        · have hc : lower (ch o) := hin.low R (ch o) (by simp)
          have e2 : v0 ++ [x] ++ [ch o] = v0 ++ [x, ch o] := by simp
          have hsh : F (v0 ++ [x, ch o]) := (hF _ (by simp)).2 (e2 ▸ hin)
          have hop : Open F (v0 ++ [x, ch o]) := by
            refine .next v0 x (ch o) hopen ?_
            rintro b hb ⟨h1, h2⟩
            have hb' : Inn st (v0 ++ [x] ++ [b]) := by
              rw [show v0 ++ [x] ++ [b] = v0 ++ [x, b] by simp]; exact (hF _ (by simp)).1 hb
            have g1 := (lcode_lt (hb'.low R b (by simp)) hc).2 h1
            have g2 := hun b hb' (by omega)
            exact UInt8.not_lt.2 h2 ((lcode_lt hx hc).1 (by omega))
          have hle := H.down v0 x (ch o) hsh hop
          have hlec : o ≤ lcode x := by
            by_contra hgt
            exact UInt8.not_lt.2 hle ((lcode_lt hx hc).1 (by omega))
          obtain ⟨l1, k1, k2, k3⟩ := ihm (v0 ++ [x]) (ch o) hin (e2 ▸ hop) (fun w hw => by
            have := hlen w hw; simp; omega) 27 (by omega) (fun b hb hlt => by
              have := lower_alpha.range b (hb.low R b (by simp)); push_cast at hlt; omega)
          obtain ⟨d', hd'⟩ : ∃ d' : Nat, (28 : Int) - d' = lcode x + 1 := ⟨(27 - lcode x).toNat, by omega⟩
          obtain ⟨l2, j1, j2, j3⟩ := ih d' (by omega) (by omega) (fun b _ _ => by omega)
          rw [hd'] at j1 j2
          have hone : ∀ u, u ∈ l1 ↔ u ∈ S ∧ (v0 ++ [x]) ++ [ch o] <+: u ++ [1] := by
            intro u
            rw [k2 u, show (28 : Int) - (27 : Nat) = 1 by norm_num, from_all hlow]
            refine and_congr_right fun _ => ⟨fun h => h.trans (List.prefix_append _ _), fun h => inn_prefix (hin.low R) h⟩
          refine ⟨l1 ++ l2, ?_, fun u => ?_, ?_⟩
          · have r1 : Runs st (v0 ++ [x], o) ([] ++ (l1 ++ ([] ++ l2))) (v0 ++ [x], 28) := by
              refine Runs.step (.down ho2 hin) (Runs.trans ?_ (Runs.step (.pop (c := ch o) (Int.le_refl _)) j1))
              rw [show (28 : Int) - (27 : Nat) = 1 by norm_num] at k1
              exact k1
            simpa using r1
          · rw [List.mem_append, hone, j2 u, ← from_split hval hcode (by omega)]
            intro w hw e hev h1 h2 hpre
            have hel : lower e := by
              rcases hev with rfl | h
              · have : lcode 1 = 1 := rfl; omega
              · exact h
            refine H.gap v0 x (ch o) hsh hop e ((lcode_lt hc hel).1 (by omega)) ?_ w hw ?_
            · refine UInt8.not_lt.1 fun h => ?_
              have := (lcode_lt hx hel).2 h
              omega
            · rw [show v0 ++ [x, e] = v0 ++ [x] ++ [e] by simp]
              refine inn_prefix (fun c hc => ?_) hpre
              rcases List.mem_append.1 hc with h | h
              · exact hi.low R c h
              · rw [List.mem_singleton] at h; rw [h]; exact hel
          · exact sorted_append hlow hval (o' := lcode x + 1) (by omega) hone j2 k3 j3

theorem runs_rootH (R : Rep lower lcode st S) (hF : ∀ v, v ≠ [] → (F v ↔ Inn st v)) (hlow : ∀ w ∈ S, Lower w)
    (H : RegularH F S) {M : Nat} (hM : ∀ v, Inn st v → v.length < M) :
    ∀ (d : Nat), d ≤ 27 → (∀ b, Inn st [b] → ¬ lcode b < 28 - (d : Int)) → ∃ l s, Runs st ([], 28 - (d : Int)) l s ∧ Stop s ∧
        (∀ w, w ∈ l ↔ From S [] (28 - (d : Int)) w) ∧ l.Pairwise (· < ·) := by
  intro d
  induction d with
  | zero =>
    intro _ _
    refine ⟨[], _, Runs.refl _, ⟨by simp, by simp⟩, fun w => ?_, List.Pairwise.nil⟩
    simp only [List.not_mem_nil, false_iff]
    exact from_end (by simp)
  | succ d ih =>
    intro hd hun
    have ho1 : (1 : Int) ≤ 28 - ((d + 1 : Nat) : Int) := by push_cast; omega
    have ho2 : 28 - ((d + 1 : Nat) : Int) < 28 := by push_cast; omega
    obtain ⟨hval, hcode⟩ := ch_spec ho1 ho2
    have hnext : 28 - ((d + 1 : Nat) : Int) + 1 = 28 - (d : Int) := by push_cast; omega
    generalize 28 - ((d + 1 : Nat) : Int) = o at *
    have hun' : ¬ Inn st [ch o] → ∀ b, Inn st [b] → ¬ lcode b < 28 - (d : Int) := by
      intro hno b hb hlt
      by_cases hbo : lcode b = o
      · rw [← hbo, ch_lcode (.inr (hb.low R b (by simp)))] at hno
        exact absurd hb hno
      · exact hun b hb (by omega)
    rcases child_cases R [] o with h0 | ⟨w, hw⟩ | hin
    · have hno : ¬ Inn st [ch o] := by rintro ⟨t, ht, _⟩; exact h0 t ht
      obtain ⟨l, s, k1, hs, k2, k3⟩ := ih (by omega) (hun' hno)
      refine ⟨l, s, ?_, hs, fun w => ?_, k3⟩
      · have := Runs.step (.skip ho2 h0) (hnext ▸ k1)
        simpa using this
      · rw [k2 w, ← hnext]
        refine (from_skip fun w hw c hc e hpre => ?_).symm
        obtain ⟨t, ht⟩ := child_of_word R (Inn.root R) hw hpre
        rw [← e, ch_lcode hc] at h0
        exact h0 t ht
    · obtain ⟨l, s, k1, hs, k2, k3⟩ := ih (by omega) (hun' hw.not_inn)
      have hone : ∀ u, u ∈ [w] ↔ u ∈ S ∧ [] ++ [ch o] <+: u ++ [1] := by
        intro u; rw [List.mem_singleton, leaf_word R hw u]
      refine ⟨[w] ++ l, s, Runs.step (.leaf ho2 hw) (hnext ▸ k1), hs, fun u => ?_, ?_⟩
      · rw [List.mem_append, hone, k2 u, ← hnext, ← from_split hval hcode (by omega)]
        intro w _ d _ h1 h2
        omega
      · exact sorted_append hlow hval (o' := 28 - (d : Int)) (by omega) hone k2 (by simp) k3
    · have hc : lower (ch o) := hin.low R (ch o) (by simp)
      have hsh : F [ch o] := (hF _ (by simp)).2 hin
      have hop : Open F [ch o] := by
        refine .first _ fun b hb => ?_
        have hb' : Inn st [b] := (hF _ (by simp)).1 hb
        refine UInt8.not_lt.1 fun h => hun b hb' ?_
        have := (lcode_lt (hb'.low R b (by simp)) hc).2 h
        omega
      obtain ⟨l, k1, k2, k3⟩ := runs_nodeH R hF hlow H M [] (ch o) hin hop (by simpa using hM) 27 (by omega) (fun b hb hlt => by
        have := lower_alpha.range b (hb.low R b (by simp)); push_cast at hlt; omega)
      rw [show (28 : Int) - (27 : Nat) = 1 by norm_num] at k1 k2
      refine ⟨l, ([] ++ [ch o], 28), ?_, ⟨?_, Int.le_refl _⟩, fun u => ?_, k3⟩
      · have := Runs.step (.down ho2 hin) k1
        simpa using this
      · simp
      · rw [k2 u, from_all hlow]
        constructor
        · rintro ⟨h1, h2⟩
          exact ⟨h1, ch o, hval, by omega, h2.trans (List.prefix_append _ _)⟩
        · rintro ⟨h1, e, h2, h3, h4⟩
          refine ⟨h1, ?_⟩
          have hone : (1 : Int) < o := by
            have := lower_alpha.range _ hc; omega
          have hel : lower e := by
            rcases h2 with rfl | h
            · have : lcode 1 = 1 := rfl; omega
            · exact h
          have hpre : [e] <+: u := inn_prefix (by simpa using hel) h4
          have hle := H.first (ch o) hsh u h1 e hpre
          have : ch o = e := by
            refine lower_alpha.inj' hval h2 ?_
            have : ¬ lcode (ch o) < lcode e := fun h => UInt8.not_lt.2 hle ((lcode_lt hc hel).1 h)
            omega
          rw [this]
          exact hpre

/-! ### from a complete iteration to a regular history -/

/-- from a slot on the iterator comes to the next inner child -/
theorem scan (R : Rep lower lcode st S) {v : Str} {c : Byte} (hc : Inn st (v ++ [c])) :
    ∀ (k : Nat) (o : Int), 1 ≤ o → o + k = lcode c → ∃ c1, Inn st (v ++ [c1]) ∧ o ≤ lcode c1 ∧ lcode c1 ≤ lcode c ∧
      Reach st (v, o) (v, lcode c1) := by
  have hcl : lower c := hc.low R c (by simp)
  have hr := lower_alpha.range c hcl
  intro k
  induction k with
  | zero =>
    intro o _ e
    exact ⟨c, hc, by omega, Int.le_refl _, by rw [show o = lcode c by omega]; exact .refl⟩
  | succ k ih =>
    intro o ho e
    push_cast at e
    have hsp := ch_spec ho (by omega)
    rcases child_cases R v o with h0 | ⟨w, hw⟩ | hin
    · obtain ⟨c1, h1, h2, h3, h4⟩ := ih (o + 1) (by omega) (by omega)
      exact ⟨c1, h1, by omega, h3, .head ⟨_, .skip (by omega) h0⟩ h4⟩
    · obtain ⟨c1, h1, h2, h3, h4⟩ := ih (o + 1) (by omega) (by omega)
      exact ⟨c1, h1, by omega, h3, .head ⟨_, .leaf (by omega) hw⟩ h4⟩
    · exact ⟨ch o, hin, by omega, by omega, by rw [hsp.2]; exact .refl⟩

theorem move_down (R : Rep lower lcode st S) {v : Str} {c : Byte} (hc : Inn st (v ++ [c])) :
    Move st (v, lcode c) (v ++ [c], 1) := by
  have hcl : lower c := hc.low R c (by simp)
  have hr := lower_alpha.range c hcl
  have := Step.down (st := st) (v := v) (o := lcode c) (by omega) (by rw [ch_lcode (.inr hcl)]; exact hc)
  rw [ch_lcode (.inr hcl)] at this
  exact ⟨_, this⟩

/-- An inner child after the letter of its node is visited again and again. -/
theorem stay (R : Rep lower lcode st S) {v : Str} {a c : Byte} (ha : lower a) (hc : Inn st (v ++ [a] ++ [c]))
    (hac : lcode a < lcode c) {t : Str × Int} (ht : Reach st (v ++ [a], lcode c) t) : ¬ Stop t := by
  have hcl : lower c := hc.low R c (by simp)
  have hrc := lower_alpha.range c hcl
  have inv : v ++ [a] <+: t.1 ∧ (t.1 = v ++ [a] → t.2 ≤ lcode c) := by
    induction ht with
    | refl => exact ⟨List.prefix_refl _, fun _ => Int.le_refl _⟩
    | tail _ hstep ih =>
      obtain ⟨k1, k2⟩ := ih
      obtain ⟨x, hstep⟩ := hstep
      cases hstep with
      | skip ho hn =>
        rename_i v' o _
        refine ⟨k1, fun e => ?_⟩
        have := k2 e
        dsimp only at *
        rcases Int.lt_or_le o (lcode c) with h | h
        · omega
        · have eo : o = lcode c := by omega
          obtain ⟨t, ht, _⟩ := hc
          rw [e, eo, ch_lcode (.inr hcl)] at hn
          exact absurd ht (hn t)
      | leaf ho hn =>
        rename_i v' o w' _
        refine ⟨k1, fun e => ?_⟩
        have := k2 e
        dsimp only at *
        rcases Int.lt_or_le o (lcode c) with h | h
        · omega
        · have eo : o = lcode c := by omega
          rw [e, eo, ch_lcode (.inr hcl)] at hn
          exact absurd hc hn.not_inn
      | down ho hi =>
        refine ⟨k1.trans (List.prefix_append _ _), fun e => ?_⟩
        exfalso
        have h1 := k1.length_le
        have h2 := congrArg List.length e
        dsimp only at h1 h2
        simp at h1 h2
        omega
      | pop ho =>
        rename_i v' x' c' o
        dsimp only at k1 k2
        rcases List.prefix_concat_iff.1 k1 with h | h
        · have := k2 h.symm; omega
        · refine ⟨h, fun e => ?_⟩
          dsimp only at e ⊢
          obtain ⟨-, e2⟩ := List.append_inj' e rfl
          injection e2 with e2
          subst e2
          omega
  rintro ⟨s1, s2⟩
  obtain ⟨k1, k2⟩ := inv
  have hlen := k1.length_le
  simp at hlen
  have : t.1 = v ++ [a] := (k1.eq_of_length (by simp; omega)).symm
  have := k2 this
  omega

/-- The way out of the node `v`, `a`, `c` leads through the slot after `a`. -/
theorem leave {v : Str} {a c : Byte} {s t : Str × Int} (hs : v ++ [a] ++ [c] <+: s.1) (ht : Reach st s t) (hstop : Stop t) :
    Reach st (v ++ [a], lcode a + 1) t := by
  have inv : v ++ [a] ++ [c] <+: t.1 ∨ Reach st (v ++ [a], lcode a + 1) t := by
    clear hstop
    induction ht with
    | refl => exact .inl hs
    | tail _ hstep ih =>
      rcases ih with ih | ih
      · obtain ⟨x, hstep⟩ := hstep
        cases hstep with
        | skip => exact .inl ih
        | leaf => exact .inl ih
        | down => exact .inl (ih.trans (List.prefix_append _ _))
        | pop ho =>
          dsimp only at ih ⊢
          rcases List.prefix_concat_iff.1 ih with h | h
          · right
            obtain ⟨h1, -⟩ := List.append_inj' h rfl
            rw [← h1]
            obtain ⟨-, h3⟩ := List.append_inj' h1 rfl
            injection h3 with h3
            rw [h3]
            exact .refl
          · exact .inl h
      · exact .inr (ih.tail hstep)
  rcases inv with h | h
  · have := h.length_le
    have := hstop.1
    simp at *
    omega
  · exact h

/-- The counting nodes are entered. -/
theorem open_reach (R : Rep lower lcode st S) (hF : ∀ v, v ≠ [] → (F v ↔ Inn st v)) {t : Str × Int}
    (ht : Reach st ([], 1) t) (hstop : Stop t) {p : Str} (hp : Open F p) (hi : Inn st p) :
    Reach st ([], 1) (p, 1) ∧ ∀ v a c, p = v ++ [a, c] → c ≤ a ∧ Reach st ([], 1) (v ++ [a], lcode c) := by
  induction hp with
  | first a h =>
    refine ⟨?_, fun v a c e => by have := congrArg List.length e; simp at this⟩
    have hal : lower a := hi.low R a (by simp)
    have hra := lower_alpha.range a hal
    obtain ⟨c1, h1, h2, h3, h4⟩ := scan R (v := []) (c := a) hi (lcode a - 1).toNat 1 (Int.le_refl _) (by omega)
    rw [List.nil_append] at h1
    have hle := h c1 ((hF _ (by simp)).2 h1)
    have hc1 : lower c1 := h1.low R c1 (by simp)
    have : c1 = a := by
      refine lower_alpha.inj' (.inr hc1) (.inr hal) ?_
      have : ¬ lcode c1 < lcode a := fun h => UInt8.not_lt.2 hle ((lcode_lt hc1 hal).1 h)
      omega
    subst this
    exact h4.tail (by simpa using move_down R (v := []) (c := c1) hi)
  | next v a c hop hb ih =>
    have e2 : v ++ [a, c] = v ++ [a] ++ [c] := by simp
    rw [e2] at hi ⊢
    have hia : Inn st (v ++ [a]) := by
      obtain ⟨n, hn, _⟩ := hi
      exact inn_of_path (c := c) (y := []) hn
    have hal : lower a := hia.low R a (by simp)
    have hcl : lower c := hi.low R c (by simp)
    have hra := lower_alpha.range a hal
    have hrc := lower_alpha.range c hcl
    obtain ⟨r, -⟩ := ih hia
    obtain ⟨c1, h1, h2, h3, h4⟩ := scan R hi (lcode c - 1).toNat 1 (Int.le_refl _) (by omega)
    have hc1 : lower c1 := h1.low R c1 (by simp)
    have r1 : Reach st ([], 1) (v ++ [a], lcode c1) := ReflTransGen.trans r h4
    have hle1 : lcode c1 ≤ lcode a := by
      by_contra hgt
      exact stay R hal h1 (by omega) (reach_stop ht hstop r1) hstop
    have hle : c ≤ a := by
      by_contra hlt
      have hac := (lcode_lt hal hcl).2 (UInt8.not_le.1 hlt)
      have r2 : Reach st ([], 1) (v ++ [a] ++ [c1], 1) := r1.tail (move_down R h1)
      have r3 := leave (List.prefix_refl _) (reach_stop ht hstop r2) hstop
      obtain ⟨c2, j1, j2, j3, j4⟩ := scan R hi (lcode c - (lcode a + 1)).toNat (lcode a + 1) (by omega) (by omega)
      exact stay R hal j1 (by omega) (reach_stop r3 hstop j4) hstop
    have hceq : c1 = c := by
      refine lower_alpha.inj' (.inr hc1) (.inr hcl) ?_
      have : ¬ lcode c1 < lcode c := fun h => hb c1
        ((hF _ (by simp)).2 (by rw [show v ++ [a, c1] = v ++ [a] ++ [c1] by simp]; exact h1)) ⟨(lcode_lt hc1 hcl).1 h, hle⟩
      omega
    subst hceq
    refine ⟨r1.tail (move_down R hi), fun v' a' c' e => ?_⟩
    rw [show v' ++ [a', c'] = v' ++ [a'] ++ [c'] by simp] at e
    obtain ⟨e1, e3⟩ := List.append_inj' e rfl
    obtain ⟨e4, e5⟩ := List.append_inj' e1 rfl
    injection e3 with e3
    injection e5 with e5
    subst e3; subst e4; subst e5
    exact ⟨hle, r1⟩

theorem regularH_of_complete (R : Rep lower lcode st S) (hF : ∀ v, v ≠ [] → (F v ↔ Inn st v)) {t : Str × Int}
    (ht : Reach st ([], 1) t) (hstop : Stop t)
    (hall : ∀ w ∈ S, ∃ v' o', Reach st ([], 1) (v', o') ∧ o' < 28 ∧ Holds st (v' ++ [ch o']) w) (hlow : ∀ w ∈ S, Lower w) :
    RegularH F S := by
  have low : ∀ {v w : Str} {c : Byte}, w ∈ S → v <+: w → c ∈ v → lower c := by
    intro v w c hw h hc
    exact hlow w hw c (h.subset hc)
  have ext : ∀ {v w : Str}, v <+: w → v <+: w ++ [1] := fun h => h.trans (List.prefix_append _ _)
  refine ⟨?_, ?_, ?_⟩
  · intro a hFa w hw b hb
    by_contra hlt
    have hin : Inn st [a] := (hF _ (by simp)).1 hFa
    have ha : lower a := hin.low R a (by simp)
    have hbl : lower b := low hw hb (by simp)
    have hcode := (lcode_lt ha hbl).2 (UInt8.not_le.1 hlt)
    have hra := lower_alpha.range a ha
    have r2 : Reach st ([], 1) ([], lcode b) := shown_above R (hall w hw) (Inn.root R) (ext hb)
    have inv : ∀ {s : Str × Int}, Reach st ([], 1) s → s.1 = [] → s.2 ≤ lcode a := by
      intro s h
      induction h with
      | refl => intro _; dsimp only; omega
      | tail _ hstep ih =>
        obtain ⟨x, hstep⟩ := hstep
        cases hstep with
        | skip ho hn =>
          rename_i v' o _
          intro e
          dsimp only at e
          subst e
          have := ih rfl
          dsimp only at this ⊢
          by_contra hgt
          rw [show o = lcode a by omega, ch_lcode (.inr ha)] at hn
          obtain ⟨t, ht, _⟩ := hin
          exact hn t ht
        | leaf ho hn =>
          rename_i v' o w' _
          intro e
          dsimp only at e
          subst e
          have := ih rfl
          dsimp only at this ⊢
          by_contra hgt
          rw [show o = lcode a by omega, ch_lcode (.inr ha)] at hn
          exact hn.not_inn hin
        | down => intro e; simp at e
        | pop => intro e; simp at e
    have := inv r2 rfl
    dsimp only at this
    omega
  · intro v a c hFc hop
    exact ((open_reach R hF ht hstop hop ((hF _ (by simp)).1 hFc)).2 v a c rfl).1
  · intro v a c hFc hop d hcd hda w' hw' hpre
    have hic := (hF _ (by simp)).1 hFc
    obtain ⟨hca, r⟩ := (open_reach R hF ht hstop hop hic).2 v a c rfl
    rw [show v ++ [a, c] = v ++ [a] ++ [c] by simp] at hic
    have mv := move_down R hic
    have g1 : Inn st (v ++ [a]) := by
      obtain ⟨n, hn, _⟩ := hic
      exact inn_of_path (c := c) (y := []) hn
    have ha : lower a := g1.low R a (by simp)
    have hc : lower c := hic.low R c (by simp)
    have hd : lower d := low hw' hpre (by simp)
    have c1 := (lcode_lt hc hd).2 hcd
    have c2 : lcode d ≤ lcode a := by
      by_contra hgt
      exact UInt8.not_lt.2 hda ((lcode_lt ha hd).1 (by omega))
    have hrc := lower_alpha.range c hc
    have rd : Reach st ([], 1) (v ++ [a], lcode d) :=
      shown_above R (hall w' hw') g1 (by rw [show v ++ [a] ++ [d] = v ++ [a, d] by simp]; exact ext hpre)
    have hroot : ∀ m : Int, ¬ ((([], 1) : Str × Int).1 = v ++ [a] ∧ (([], 1) : Str × Int).2 < m) := by
      rintro m ⟨h, _⟩; simp at h
    rcases ReflTransGen.total_of_right_unique (move_unique st) r rd with h | h
    · rcases ReflTransGen.cases_head h with h | ⟨x, hx, h⟩
      · simp at h; omega
      · rw [move_unique st hx mv] at h
        have k1 := (enter (st := st) (lcode a + 1) (Int.le_refl _) (by simp) h ⟨rfl, by dsimp only; omega⟩).1
        have k2 := (enter (st := st) (lcode a + 1) (Int.le_refl _) (hroot _) r ⟨rfl, by dsimp only; omega⟩).2
        exact no_cycle (reach_stop ht hstop r) hstop mv (ReflTransGen.trans k1 k2)
    · have k1 := (enter (st := st) (lcode d) (by omega) (by simp) h ⟨rfl, by dsimp only; omega⟩).1
      have k2 := (enter (st := st) (lcode a + 1) (Int.le_refl _) (hroot _) rd ⟨rfl, by dsimp only; omega⟩).2
      rcases ReflTransGen.cases_head k1 with h | ⟨x, hx, h⟩
      · simp at h; omega
      · exact no_cycle (reach_stop ht hstop rd) hstop hx (ReflTransGen.trans h k2)

end

/-! ### examples -/

instance (ops : List (Bool × Str)) (v : Str) : Decidable (Fork ops v) :=
  decidable_of_iff (∃ l ∈ ops.inits, ∃ u ∈ words l, ∃ w ∈ words l, u ≠ w ∧ v <+: u ∧ v <+: w) (by
    unfold Fork; simp only [List.mem_inits])

theorem Spec.Open.all {F : Str → Prop} {p : Str} (h : Open F p) : ∀ v a c y, p = v ++ [a, c] ++ y → ∀ b, F (v ++ [a, b]) → ¬ (b < c ∧ c ≤ a) := by
  induction h with
  | first a h =>
    intro v a c y e
    have := congrArg List.length e
    simp at this
    omega
  | next v a c h1 h2 ih =>
    intro v' a' c' y e
    rcases List.eq_nil_or_concat y with rfl | ⟨y, z, rfl⟩
    · rw [List.append_nil, show v ++ [a, c] = v ++ [a] ++ [c] by simp, show v' ++ [a', c'] = v' ++ [a'] ++ [c'] by simp] at e
      obtain ⟨e1, e3⟩ := List.append_inj' e rfl
      obtain ⟨e4, e5⟩ := List.append_inj' e1 rfl
      injection e3 with e3
      injection e5 with e5
      subst e3; subst e4; subst e5
      exact h2
    · rw [List.concat_eq_append, ← List.append_assoc, show v ++ [a, c] = v ++ [a] ++ [c] by simp] at e
      exact ih v' a' c' y (List.append_inj' e rfl).1

/-- a beginning which does not count -/
def Blocked (ops : List (Bool × Str)) (p : Str) : Prop :=
  ∃ i < p.length, ∃ b ∈ p.map (· - 1), ∃ a ∈ p[i]?, ∃ c ∈ p[i + 1]?, Fork ops (p.take (i + 1) ++ [b]) ∧ b < c ∧ c ≤ a

instance (ops : List (Bool × Str)) (p : Str) : Decidable (Blocked ops p) := by unfold Blocked; infer_instance

theorem Blocked.not_open {ops : List (Bool × Str)} {p : Str} (h : Blocked ops p) : ¬ Open (Fork ops) p := by
  intro ho
  obtain ⟨i, hi, b, -, a, ha, c, hc, hF, h1, h2⟩ := h
  have e1 : p[i + 1]? = some c := hc
  have e0 : p[i]? = some a := ha
  obtain ⟨g1, e1⟩ := List.getElem?_eq_some_iff.1 e1
  obtain ⟨g0, e0⟩ := List.getElem?_eq_some_iff.1 e0
  have e : p = p.take i ++ [a, c] ++ p.drop (i + 2) := by
    conv => lhs; rw [← List.take_append_drop i p, List.drop_eq_getElem_cons g0, List.drop_eq_getElem_cons g1, e0, e1]
    simp
  refine ho.all _ a c _ e b ?_ ⟨h1, h2⟩
  rw [List.take_succ_eq_append_getElem g0, List.append_assoc, e0] at hF
  exact hF

/-- the condition at one beginning -/
def CheckAt (ops : List (Bool × Str)) (v : Str) : Prop :=
  match v.reverse with
  | [] => True
  | [a] => ∀ x ∈ words ops, ∀ b ∈ x.head?, b ≤ a
  | c :: a :: r => Blocked ops v ∨ (c ≤ a ∧ ∀ x ∈ words ops, r.reverse ++ [a] <+: x → ∀ d ∈ x[r.length + 1]?, ¬ (c < d ∧ d ≤ a))

instance (ops : List (Bool × Str)) (v : Str) : Decidable (CheckAt ops v) := by unfold CheckAt; split <;> infer_instance

/-- `RegularAfter`, word by word -/
def CheckH (ops : List (Bool × Str)) : Prop :=
  ∀ l ∈ ops.inits, ∀ u ∈ words l, ∀ w ∈ words l, u ≠ w → ∀ v ∈ u.inits, v <+: w → CheckAt ops v

instance (ops : List (Bool × Str)) : Decidable (CheckH ops) := by unfold CheckH; infer_instance

theorem CheckH.regular {ops : List (Bool × Str)} (h : CheckH ops) : RegularAfter ops := by
  have key : ∀ v, Fork ops v → CheckAt ops v := by
    rintro v ⟨l, hl, u, hu, w, hw, hne, h1, h2⟩
    exact h l ((List.mem_inits _ _).2 hl) u hu w hw hne v ((List.mem_inits _ _).2 h1) h2
  refine ⟨?_, ?_, ?_⟩
  · rintro a hF w hw b ⟨y, rfl⟩
    exact key _ hF _ hw b (by simp)
  · intro v a c hF ho
    have := key _ hF
    unfold CheckAt at this
    rw [show (v ++ [a, c]).reverse = c :: a :: v.reverse by simp] at this
    rcases this with h | h
    · exact absurd ho h.not_open
    · exact h.1
  · rintro v a c hF ho d hcd hda w hw ⟨y, rfl⟩
    have := key _ hF
    unfold CheckAt at this
    rw [show (v ++ [a, c]).reverse = c :: a :: v.reverse by simp] at this
    rcases this with h | h
    · exact absurd ho h.not_open
    · refine h.2 _ hw ?_ d ?_ ⟨hcd, hda⟩
      · rw [List.reverse_reverse]; exact ⟨d :: y, by simp⟩
      · simp

end Trie
