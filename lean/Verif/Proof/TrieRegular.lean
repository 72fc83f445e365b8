import Verif.Proof.TrieRuns
import Mathlib.Data.Finset.Lattice.Fold

/-! # The sets of words over which the iteration works -/

namespace Trie
open Cpp Spec Relation

section
variable {st : St} {S : Finset Str}

/-! ### from a complete iteration to a regular set -/

theorem stop_reach {s s' : Str × Int} (h : Reach st s s') (hs : Stop s) : s' = s := by
  rcases ReflTransGen.cases_head h with h | ⟨x, ⟨a, h1⟩, _⟩
  · exact h.symm
  · exact absurd hs h1.stop

/-- everything on the way leads to the end -/
theorem reach_stop {s0 s t : Str × Int} (ht : Reach st s0 t) (hstop : Stop t) (hs : Reach st s0 s) : Reach st s t := by
  rcases ReflTransGen.total_of_right_unique (move_unique st) hs ht with h | h
  · exact h
  · rw [stop_reach h hstop]; exact .refl

theorem no_cycle {s x t : Str × Int} (hst : Reach st s t) (hstop : Stop t) (h1 : Move st s x) (h2 : Reach st x s) : False := by
  have key : ∀ y, Reach st s y → Reach st y s := by
    intro y hy
    induction hy with
    | refl => exact .refl
    | tail _ hyz ih =>
      rename_i y z _
      rcases ReflTransGen.cases_head ih with h | ⟨z', hz', h⟩
      · subst h
        rw [move_unique st hyz h1]; exact h2
      · rw [move_unique st hyz hz']; exact h
  have := stop_reach (key t hst) hstop
  subst this
  obtain ⟨a, h1⟩ := h1
  exact h1.stop hstop

/-- to get below a node one passes it -/
theorem reach_above (R : Rep lower lcode st S) {s0 s : Str × Int} (h0 : s0.1 = []) (hok : Ok st s0) (h : Reach st s0 s) :
    ∀ v c y, s.1 = v ++ c :: y → Reach st s0 (v, lcode c) := by
  induction h with
  | refl => intro v c y e; rw [h0] at e; simp at e
  | tail hr hstep ih =>
    rename_i s1 s2
    have hok1 := Reach.ok R hr hok
    obtain ⟨a, hstep⟩ := hstep
    intro v c y e
    cases hstep with
    | skip => exact ih v c y e
    | leaf => exact ih v c y e
    | pop =>
      rename_i v0 x d o _
      dsimp only at e
      exact ih v c (y ++ [d]) (by dsimp only; rw [e]; simp)
    | down ho hi =>
      rename_i v0 o
      dsimp only at e
      rcases List.eq_nil_or_concat y with rfl | ⟨y, d, rfl⟩
      · obtain ⟨e1, e2⟩ := List.append_inj' e rfl
        injection e2 with e2
        subst e1
        rw [← e2, (ch_spec hok1.2 ho).2]
        exact hr
      · rw [show v ++ c :: y.concat d = (v ++ c :: y) ++ [d] by simp] at e
        obtain ⟨e1, -⟩ := List.append_inj' e rfl
        exact ih v c y e1

/-- The iteration shows a word: it passed all nodes above. -/
theorem shown_above (R : Rep lower lcode st S) {w v : Str} {c : Byte}
    (h : ∃ v' o', Reach st ([], 1) (v', o') ∧ o' < 28 ∧ Holds st (v' ++ [ch o']) w) (hv : Inn st v) (hpre : v ++ [c] <+: w ++ [1]) :
    Reach st ([], 1) (v, lcode c) := by
  obtain ⟨v', o', h1, ho, h2⟩ := h
  obtain ⟨d, y, e⟩ := h2.below hv ((List.prefix_append _ _).trans hpre)
  have hd : d = c := by
    have h1 := h2.pre
    rw [e] at h1
    obtain ⟨a, ha⟩ := hpre
    obtain ⟨b, hb⟩ := h1
    rw [← hb] at ha
    simp only [List.append_assoc, List.append_cancel_left_eq, List.cons_append, List.cons.injEq] at ha
    exact ha.1.symm
  subst hd
  have hok : Ok st ([], 1) := ⟨Inn.root R, Int.le_refl _⟩
  have hok' := Reach.ok R h1 hok
  rcases List.eq_nil_or_concat y with rfl | ⟨y, x, rfl⟩
  · obtain ⟨e1, e2⟩ := List.append_inj' e rfl
    injection e2 with e2
    subst e1
    rw [← e2, (ch_spec hok'.2 ho).2]
    exact h1
  · rw [show v ++ d :: y.concat x = (v ++ d :: y) ++ [x] by simp] at e
    obtain ⟨e1, -⟩ := List.append_inj' e rfl
    exact reach_above R rfl hok h1 v d y e1

/-- At a node `p` ending in `a` small slots are seen only after entering `p` from above. -/
theorem enter (m : Int) {p0 : Str} {a : Byte} (hm : m ≤ lcode a + 1) {s : Str × Int}
    (hs : ¬ (s.1 = p0 ++ [a] ∧ s.2 < m)) {z : Str × Int} (h : Reach st s z) (hz : z.1 = p0 ++ [a] ∧ z.2 < m) :
    Reach st s (p0 ++ [a], 1) ∧ Reach st (p0 ++ [a], 1) z := by
  induction h with
  | refl => exact absurd hz hs
  | tail hr hstep ih =>
    rename_i y z
    by_cases hy : y.1 = p0 ++ [a] ∧ y.2 < m
    · obtain ⟨h1, h2⟩ := ih hy
      exact ⟨h1, h2.tail hstep⟩
    · have hr' : Reach st s z := hr.tail hstep
      obtain ⟨b, hstep⟩ := hstep
      cases hstep with
      | skip => exact absurd ⟨hz.1, by have := hz.2; dsimp only at *; omega⟩ hy
      | leaf => exact absurd ⟨hz.1, by have := hz.2; dsimp only at *; omega⟩ hy
      | down ho hi =>
        have e := hz.1
        dsimp only at e
        rw [e] at hr'
        exact ⟨hr', by rw [e]; exact .refl⟩
      | pop ho =>
        obtain ⟨h1, h2⟩ := hz
        dsimp only at h1 h2
        obtain ⟨-, e2⟩ := List.append_inj' h1 rfl
        injection e2 with e2
        subst e2
        omega

theorem regular_of_complete (R : Rep lower lcode st S) {t : Str × Int} (ht : Reach st ([], 1) t) (hstop : Stop t)
    (hall : ∀ w ∈ S, ∃ v' o', Reach st ([], 1) (v', o') ∧ o' < 28 ∧ Holds st (v' ++ [ch o']) w) (hlow : ∀ w ∈ S, Lower w) :
    (∀ a, (∃ u ∈ S, ∃ w ∈ S, u ≠ w ∧ [a] <+: u ∧ [a] <+: w) → ∀ w ∈ S, ∀ b, [b] <+: w → b ≤ a) ∧
    (∀ v a c, (∃ u ∈ S, ∃ w ∈ S, u ≠ w ∧ v ++ [a, c] <+: u ∧ v ++ [a, c] <+: w) → c ≤ a) ∧
    (∀ v a c, (∃ u ∈ S, ∃ w ∈ S, u ≠ w ∧ v ++ [a, c] <+: u ∧ v ++ [a, c] <+: w) → ∀ d, c < d → d ≤ a →
      ∀ w ∈ S, ¬ v ++ [a, d] <+: w) := by
  have hok : Ok st ([], 1) := ⟨Inn.root R, Int.le_refl _⟩
  have low : ∀ {v w : Str} {c : Byte}, w ∈ S → v <+: w → c ∈ v → lower c := by
    intro v w c hw h hc
    exact hlow w hw c (h.subset hc)
  have ext : ∀ {v w : Str}, v <+: w → v <+: w ++ [1] := fun h => h.trans (List.prefix_append _ _)
  -- an inner node is entered
  have node : ∀ {v a c u w}, u ∈ S → w ∈ S → u ≠ w → v ++ [a, c] <+: u → v ++ [a, c] <+: w →
      Inn st (v ++ [a]) ∧ Inn st (v ++ [a] ++ [c]) ∧ lower a ∧ lower c ∧ Reach st ([], 1) (v ++ [a], lcode c) ∧
      Move st (v ++ [a], lcode c) (v ++ [a] ++ [c], 1) := by
    intro v a c u w hu hw hne h1 h2
    have e : v ++ [a, c] = v ++ [a] ++ [c] := by simp
    rw [e] at h1 h2
    have g2 := Inn.of_shared R hu hw hne h1 h2
    have g1 : Inn st (v ++ [a]) := Inn.of_shared R hu hw hne ((List.prefix_append _ _).trans h1) ((List.prefix_append _ _).trans h2)
    have hc : lower c := g2.low R c (by simp)
    have ha : lower a := g1.low R a (by simp)
    refine ⟨g1, g2, ha, hc, shown_above R (hall u hu) g1 (ext h1), [], ?_⟩
    have := Step.down (st := st) (v := v ++ [a]) (o := lcode c) (by have := lower_alpha.range c hc; omega)
      (by rw [ch_lcode (.inr hc)]; exact g2)
    rwa [ch_lcode (.inr hc)] at this
  refine ⟨?_, ?_, ?_⟩
  · rintro a ⟨u, hu, u', hu', hne, h1, h2⟩ w hw b hb
    by_contra hlt
    have hab : a < b := UInt8.not_le.1 hlt
    have ha : lower a := low hu h1 (by simp)
    have hbl : lower b := low hw hb (by simp)
    have hcode := (lcode_lt ha hbl).2 hab
    have hra := lower_alpha.range a ha
    have hin : Inn st [a] := Inn.of_shared R hu hu' hne h1 h2
    have r1 : Reach st ([], 1) ([], lcode a) := shown_above R (hall u hu) (Inn.root R) (ext h1)
    have r2 : Reach st ([], 1) ([], lcode b) := shown_above R (hall w hw) (Inn.root R) (ext hb)
    have away : ∀ {s s' : Str × Int}, Reach st s s' → s.1 ≠ [] → s'.1 ≠ [] := by
      intro s s' h
      induction h with
      | refl => exact id
      | tail _ hstep ih =>
        intro hs
        have := ih hs
        obtain ⟨x, hstep⟩ := hstep
        cases hstep with
        | skip => exact this
        | leaf => exact this
        | down => simp
        | pop => simp
    have up : ∀ {s s' : Str × Int}, Reach st s s' → lcode b ≤ s.2 ∨ s.1 ≠ [] → lcode b ≤ s'.2 ∨ s'.1 ≠ [] := by
      intro s s' h
      induction h with
      | refl => exact id
      | tail _ hstep ih =>
        intro hs
        have := ih hs
        obtain ⟨x, hstep⟩ := hstep
        cases hstep with
        | skip => exact this.imp (fun h => by dsimp only at *; omega) id
        | leaf => exact this.imp (fun h => by dsimp only at *; omega) id
        | down => right; simp
        | pop => right; simp
    rcases ReflTransGen.total_of_right_unique (move_unique st) r1 r2 with h | h
    · rcases ReflTransGen.cases_head h with h | ⟨x, hx, h⟩
      · simp at h; omega
      · have hd : Move st ([], lcode a) ([a], 1) := by
          have := Step.down (st := st) (v := []) (o := lcode a) (by omega) (by rw [ch_lcode (.inr ha)]; exact hin)
          rw [ch_lcode (.inr ha)] at this
          exact ⟨_, this⟩
        rw [move_unique st hx hd] at h
        exact away h (by simp) rfl
    · rcases up h (.inl (Int.le_refl _)) with h | h
      · dsimp only at h; omega
      · exact h rfl
  · rintro v a c ⟨u, hu, w, hw, hne, h1, h2⟩
    by_contra hlt
    have hac : a < c := UInt8.not_le.1 hlt
    obtain ⟨g1, g2, ha, hc, r, mv⟩ := node hu hw hne h1 h2
    have hcode := (lcode_lt ha hc).2 hac
    have hrc := lower_alpha.range c hc
    have stay : ∀ {s s' : Str × Int}, Reach st s s' → (v ++ [a] <+: s.1 ∧ (s.1 = v ++ [a] → s.2 ≤ lcode c)) →
        (v ++ [a] <+: s'.1 ∧ (s'.1 = v ++ [a] → s'.2 ≤ lcode c)) := by
      intro s s' h
      induction h with
      | refl => exact id
      | tail _ hstep ih =>
        intro hs
        obtain ⟨k1, k2⟩ := ih hs
        obtain ⟨x, hstep⟩ := hstep
        cases hstep with
        | skip ho hn =>
          rename_i v' o _
          refine ⟨k1, fun e => ?_⟩
          have := k2 e
          dsimp only at *
          rcases Int.lt_or_le o (lcode c) with h | h
          · omega
          · have eo : o = lcode c := by omega
            obtain ⟨t, ht, _⟩ := g2
            rw [e, eo, ch_lcode (.inr hc)] at hn
            exact absurd ht (hn t)
        | leaf ho hn =>
          rename_i v' o w' _
          refine ⟨k1, fun e => ?_⟩
          have := k2 e
          dsimp only at *
          rcases Int.lt_or_le o (lcode c) with h | h
          · omega
          · have eo : o = lcode c := by omega
            rw [e, eo, ch_lcode (.inr hc)] at hn
            exact absurd g2 hn.not_inn
        | down ho hi =>
          refine ⟨k1.trans (List.prefix_append _ _), fun e => ?_⟩
          exfalso
          have h1 := k1.length_le
          have h2 := congrArg List.length e
          dsimp only at h1 h2
          simp at h1 h2
          omega
        | pop ho =>
          rename_i v' x' c' o
          dsimp only at k1 k2
          rcases List.prefix_concat_iff.1 k1 with h | h
          · have := k2 h.symm; omega
          · refine ⟨h, fun e => ?_⟩
            dsimp only at e ⊢
            obtain ⟨-, e2⟩ := List.append_inj' e rfl
            injection e2 with e2
            subst e2
            omega
    have rt := reach_stop ht hstop r
    obtain ⟨k1, k2⟩ := stay rt ⟨List.prefix_refl _, fun _ => Int.le_refl _⟩
    obtain ⟨s1, s2⟩ := hstop
    have hlen := k1.length_le
    simp at hlen
    have : t.1 = v ++ [a] := (k1.eq_of_length (by simp; omega)).symm
    have := k2 this
    omega
  · rintro v a c ⟨u, hu, w, hw, hne, h1, h2⟩ d hcd hda w' hw' hpre
    obtain ⟨g1, g2, ha, hc, r, mv⟩ := node hu hw hne h1 h2
    have hd : lower d := low hw' hpre (by simp)
    have c1 := (lcode_lt hc hd).2 hcd
    have c2 : lcode d ≤ lcode a := by
      by_contra hgt
      exact UInt8.not_lt.2 hda ((lcode_lt ha hd).1 (by omega))
    have hrc := lower_alpha.range c hc
    have rd : Reach st ([], 1) (v ++ [a], lcode d) :=
      shown_above R (hall w' hw') g1 (by rw [show v ++ [a] ++ [d] = v ++ [a, d] by simp]; exact ext hpre)
    have hroot : ∀ m : Int, ¬ ((([], 1) : Str × Int).1 = v ++ [a] ∧ (([], 1) : Str × Int).2 < m) := by
      rintro m ⟨h, _⟩; simp at h
    rcases ReflTransGen.total_of_right_unique (move_unique st) r rd with h | h
    · rcases ReflTransGen.cases_head h with h | ⟨x, hx, h⟩
      · simp at h; omega
      · rw [move_unique st hx mv] at h
        have k1 := (enter (st := st) (lcode a + 1) (Int.le_refl _) (by simp) h ⟨rfl, by dsimp only; omega⟩).1
        have k2 := (enter (st := st) (lcode a + 1) (Int.le_refl _) (hroot _) r ⟨rfl, by dsimp only; omega⟩).2
        exact no_cycle (reach_stop ht hstop r) hstop mv (ReflTransGen.trans k1 k2)
    · have k1 := (enter (st := st) (lcode d) (by omega) (by simp) h ⟨rfl, by dsimp only; omega⟩).1
      have k2 := (enter (st := st) (lcode a + 1) (Int.le_refl _) (hroot _) rd ⟨rfl, by dsimp only; omega⟩).2
      rcases ReflTransGen.cases_head k1 with h | ⟨x, hx, h⟩
      · simp at h; omega
      · exact no_cycle (reach_stop ht hstop rd) hstop hx (ReflTransGen.trans h k2)

/-! ### from a regular set to a complete iteration -/

/-- the words which go on after `v` with a character numbered `o` or more -/
def From (S : Finset Str) (v : Str) (o : Int) (w : Str) : Prop :=
  w ∈ S ∧ ∃ c, Valid lower c ∧ o ≤ lcode c ∧ v ++ [c] <+: w ++ [1]

theorem lex_lt {v u w : Str} {c d : Byte} (hu : Lower u) (hd : Valid lower d) (h : lcode c < lcode d) (hc : Valid lower c)
    (h1 : v ++ [c] <+: u ++ [1]) (h2 : v ++ [d] <+: w ++ [1]) : u < w := by
  have hdl : lower d := by
    rcases hd with rfl | hd
    · have := (lower_alpha.range' hc).1; have : lcode 1 = 1 := rfl; omega
    · exact hd
  have h2' : v ++ [d] <+: w := by
    rcases List.prefix_concat_iff.1 h2 with h | h
    · exfalso
      obtain ⟨-, e⟩ := List.append_inj' h rfl
      injection e with e
      exact lower_alpha.not_end (e ▸ hdl)
    · exact h
  obtain ⟨y, rfl⟩ := h2'
  rw [List.append_assoc]
  rcases hc with rfl | hc
  · rcases List.prefix_concat_iff.1 h1 with h | h
    · have e := List.append_cancel_right h
      subst e
      have : v ++ [] < v ++ ([d] ++ y) := List.append_left_lt (List.nil_lt_cons _ _)
      simpa using this
    · exact absurd (hu 1 (h.subset (by simp))) lower_alpha.not_end
  · have h1' : v ++ [c] <+: u := by
      rcases List.prefix_concat_iff.1 h1 with h | h
      · exfalso
        obtain ⟨-, e⟩ := List.append_inj' h rfl
        injection e with e
        exact lower_alpha.not_end (e ▸ hc)
      · exact h
    obtain ⟨x, rfl⟩ := h1'
    rw [List.append_assoc]
    refine List.append_left_lt ?_
    exact List.Lex.rel ((lcode_lt hc hdl).1 h)

theorem from_skip {v : Str} {o : Int} {w : Str} (hno : ∀ w ∈ S, ∀ c, Valid lower c → lcode c = o → ¬ v ++ [c] <+: w ++ [1]) :
    From S v o w ↔ From S v (o + 1) w := by
  constructor
  · rintro ⟨h1, c, h2, h3, h4⟩
    refine ⟨h1, c, h2, ?_, h4⟩
    rcases Int.lt_or_le o (lcode c) with h | h
    · omega
    · exact absurd h4 (hno w h1 c h2 (by omega))
  · rintro ⟨h1, c, h2, h3, h4⟩
    exact ⟨h1, c, h2, by omega, h4⟩

/-- the words below a node with the character `c`, and the later ones -/
theorem from_split {v : Str} {o o' : Int} {w : Str} {c : Byte} (hc : Valid lower c) (ho : lcode c = o) (hoo : o < o')
    (hgap : ∀ w ∈ S, ∀ d, Valid lower d → o < lcode d → lcode d < o' → ¬ v ++ [d] <+: w ++ [1]) :
    From S v o w ↔ (w ∈ S ∧ v ++ [c] <+: w ++ [1]) ∨ From S v o' w := by
  constructor
  · rintro ⟨h1, d, h2, h3, h4⟩
    by_cases e : lcode d = o
    · left
      rw [lower_alpha.inj' hc h2 (by omega)]
      exact ⟨h1, h4⟩
    · right
      refine ⟨h1, d, h2, ?_, h4⟩
      by_contra h
      exact hgap w h1 d h2 (by omega) (by omega) h4
  · rintro (⟨h1, h2⟩ | ⟨h1, d, h2, h3, h4⟩)
    · exact ⟨h1, c, hc, by omega, h2⟩
    · exact ⟨h1, d, h2, by omega, h4⟩

theorem from_end {v w : Str} {o : Int} (ho : 28 ≤ o) : ¬ From S v o w := by
  rintro ⟨_, c, h2, h3, _⟩
  have := (lower_alpha.range' h2).2
  omega

/-- a leaf holds the only word below it -/
theorem leaf_word (R : Rep lower lcode st S) {v w : Str} (h : Holds st v w) (u : Str) : (u ∈ S ∧ v <+: u ++ [1]) ↔ u = w := by
  constructor
  · rintro ⟨hu, hpre⟩
    obtain ⟨l, hl⟩ := Holds.ex R hu
    have : l = v := by
      rcases List.prefix_or_prefix_of_prefix hl.pre hpre with ⟨y, e⟩ | ⟨y, e⟩
      · cases y with
        | nil => simpa using e
        | cons c y =>
          obtain ⟨t, hp, _⟩ := h
          exact absurd (inn_of_path (e ▸ hp)) hl.not_inn
      · cases y with
        | nil => simpa using e.symm
        | cons c y =>
          obtain ⟨t, hp, _⟩ := hl
          exact absurd (inn_of_path (e ▸ hp)) h.not_inn
    subst this
    exact hl.det h
  · rintro rfl
    exact ⟨h.mem R, h.pre⟩

/-- lists one after the other -/
theorem sorted_append (hlow : ∀ w ∈ S, Lower w) {v : Str} {o' : Int} {c : Byte} (hc : Valid lower c) (ho : lcode c < o') {l1 l2 : List Str}
    (h1 : ∀ w, w ∈ l1 ↔ w ∈ S ∧ v ++ [c] <+: w ++ [1]) (h2 : ∀ w, w ∈ l2 ↔ From S v o' w)
    (p1 : l1.Pairwise (· < ·)) (p2 : l2.Pairwise (· < ·)) : (l1 ++ l2).Pairwise (· < ·) := by
  rw [List.pairwise_append]
  refine ⟨p1, p2, fun a ha b hb => ?_⟩
  obtain ⟨ha1, ha2⟩ := (h1 a).1 ha
  obtain ⟨hb1, d, hd, hb3, hb4⟩ := (h2 b).1 hb
  exact lex_lt (hlow a ha1) hd (by omega) hc ha2 hb4

theorem inn_prefix {v w : Str} (hl : ∀ c ∈ v, lower c) (h : v <+: w ++ [1]) : v <+: w := by
  rcases List.prefix_concat_iff.1 h with h | h
  · exact absurd (hl 1 (by rw [h]; simp)) lower_alpha.not_end
  · exact h

theorem from_all {v w : Str} (hlow : ∀ w ∈ S, Lower w) : From S v 1 w ↔ w ∈ S ∧ v <+: w := by
  constructor
  · rintro ⟨h1, c, h2, h3, h4⟩
    refine ⟨h1, ?_⟩
    rcases List.prefix_concat_iff.1 h4 with h | h
    · rw [← List.append_cancel_right (show v ++ [c] = w ++ [c] by
        obtain ⟨-, e⟩ := List.append_inj' h rfl
        rw [h, e])]
    · exact (List.prefix_append _ _).trans h
  · rintro ⟨h1, y, rfl⟩
    cases y with
    | nil => exact ⟨h1, 1, .inl rfl, by decide, by simp⟩
    | cons c y =>
      have hc : lower c := hlow _ h1 c (by simp)
      refine ⟨h1, c, .inr hc, by have := lower_alpha.range c hc; omega, ?_⟩
      exact ⟨y ++ [1], by simp⟩

/-- the whole of a node below the root -/
theorem runs_node (R : Rep lower lcode st S) (B : Branch lower lcode st) (hlow : ∀ w ∈ S, Lower w)
    (hdown : ∀ v a c, (∃ u ∈ S, ∃ w ∈ S, u ≠ w ∧ v ++ [a, c] <+: u ∧ v ++ [a, c] <+: w) → c ≤ a)
    (hgap : ∀ v a c, (∃ u ∈ S, ∃ w ∈ S, u ≠ w ∧ v ++ [a, c] <+: u ∧ v ++ [a, c] <+: w) → ∀ d, c < d → d ≤ a →
      ∀ w ∈ S, ¬ v ++ [a, d] <+: w) :
    ∀ (m : Nat) (v0 : Str) (x : Byte), Inn st (v0 ++ [x]) → (∀ w ∈ S, w.length < v0.length + m) →
      ∀ (d : Nat), d ≤ 27 → ∃ l, Runs st (v0 ++ [x], 28 - (d : Int)) l (v0 ++ [x], 28) ∧
        (∀ w, w ∈ l ↔ From S (v0 ++ [x]) (28 - (d : Int)) w) ∧ l.Pairwise (· < ·) := by
  intro m
  induction m with
  | zero =>
    intro v0 x hi hlen
    obtain ⟨u, hu, w, hw, hne, h1, h2⟩ := hi.shared R B (by simp)
    have := h1.length_le
    have := hlen u hu
    simp at *
    omega
  | succ m ihm =>
    intro v0 x hi hlen d
    have hx : lower x := hi.low R x (by simp)
    have hrx := lower_alpha.range x hx
    induction d using Nat.strongRecOn with
    | ind d ih =>
      intro hd
      cases d with
      | zero =>
        refine ⟨[], by simpa using Runs.refl _, fun w => ?_, List.Pairwise.nil⟩
        simp only [List.not_mem_nil, false_iff]
        exact from_end (by simp)
      | succ d =>
        have ho1 : (1 : Int) ≤ 28 - ((d + 1 : Nat) : Int) := by push_cast; omega
        have ho2 : 28 - ((d + 1 : Nat) : Int) < 28 := by push_cast; omega
        obtain ⟨hval, hcode⟩ := ch_spec ho1 ho2
        have hnext : 28 - ((d + 1 : Nat) : Int) + 1 = 28 - (d : Int) := by push_cast; omega
        generalize 28 - ((d + 1 : Nat) : Int) = o at *
        rcases child_cases R (v0 ++ [x]) o with h0 | ⟨w, hw⟩ | hin
        · obtain ⟨l, k1, k2, k3⟩ := ih d (by omega) (by omega)
          refine ⟨l, ?_, fun w => ?_, k3⟩
          · have := Runs.step (.skip ho2 h0) (hnext ▸ k1)
            simpa using this
          · rw [k2 w, ← hnext]
            refine (from_skip fun w hw c hc e hpre => ?_).symm
            obtain ⟨t, ht⟩ := child_of_word R hi hw hpre
            rw [← e, ch_lcode hc] at h0
            exact h0 t ht
        · obtain ⟨l, k1, k2, k3⟩ := ih d (by omega) (by omega)
          have hone : ∀ u, u ∈ [w] ↔ u ∈ S ∧ (v0 ++ [x]) ++ [ch o] <+: u ++ [1] := by
            intro u; rw [List.mem_singleton, leaf_word R hw u]
          refine ⟨[w] ++ l, Runs.step (.leaf ho2 hw) (hnext ▸ k1), fun u => ?_, ?_⟩
          · rw [List.mem_append, hone, k2 u, ← hnext, ← from_split hval hcode (by omega)]
            intro w _ d _ h1 h2
            omega
          · exact sorted_append hlow hval (o' := 28 - (d : Int)) (by omega) hone k2 (by simp) k3
        · have hc : lower (ch o) := hin.low R (ch o) (by simp)
          have hsh := hin.shared R B (by simp)
          have e2 : v0 ++ [x] ++ [ch o] = v0 ++ [x, ch o] := by simp
          rw [e2] at hsh
          have hle := hdown v0 x (ch o) hsh
          have hlec : o ≤ lcode x := by
            by_contra hgt
            exact UInt8.not_lt.2 hle ((lcode_lt hx hc).1 (by omega))
          obtain ⟨l1, k1, k2, k3⟩ := ihm (v0 ++ [x]) (ch o) hin (fun w hw => by
            have := hlen w hw; simp; omega) 27 (by omega)
          obtain ⟨d', hd'⟩ : ∃ d' : Nat, (28 : Int) - d' = lcode x + 1 := ⟨(27 - lcode x).toNat, by omega⟩
          obtain ⟨l2, j1, j2, j3⟩ := ih d' (by omega) (by omega)
          rw [hd'] at j1 j2
          have hone : ∀ u, u ∈ l1 ↔ u ∈ S ∧ (v0 ++ [x]) ++ [ch o] <+: u ++ [1] := by
            intro u
            rw [k2 u, show (28 : Int) - (27 : Nat) = 1 by norm_num, from_all hlow]
            refine and_congr_right fun _ => ⟨fun h => h.trans (List.prefix_append _ _), fun h => inn_prefix (hin.low R) h⟩
          refine ⟨l1 ++ l2, ?_, fun u => ?_, ?_⟩
          · have r1 : Runs st (v0 ++ [x], o) ([] ++ (l1 ++ ([] ++ l2))) (v0 ++ [x], 28) := by
              refine Runs.step (.down ho2 hin) (Runs.trans ?_ (Runs.step (.pop (c := ch o) (Int.le_refl _)) j1))
              rw [show (28 : Int) - (27 : Nat) = 1 by norm_num] at k1
              exact k1
            simpa using r1
          · rw [List.mem_append, hone, j2 u, ← from_split hval hcode (by omega)]
            intro w hw e hev h1 h2 hpre
            have hel : lower e := by
              rcases hev with rfl | h
              · have : lcode 1 = 1 := rfl; omega
              · exact h
            refine hgap v0 x (ch o) hsh e ((lcode_lt hc hel).1 (by omega)) ?_ w hw ?_
            · refine UInt8.not_lt.1 fun h => ?_
              have := (lcode_lt hx hel).2 h
              omega
            · rw [show v0 ++ [x, e] = v0 ++ [x] ++ [e] by simp]
              refine inn_prefix (fun c hc => ?_) hpre
              rcases List.mem_append.1 hc with h | h
              · exact hi.low R c h
              · rw [List.mem_singleton] at h; rw [h]; exact hel
          · exact sorted_append hlow hval (o' := lcode x + 1) (by omega) hone j2 k3 j3

theorem runs_root (R : Rep lower lcode st S) (B : Branch lower lcode st) (hlow : ∀ w ∈ S, Lower w)
    (hfirst : ∀ a, (∃ u ∈ S, ∃ w ∈ S, u ≠ w ∧ [a] <+: u ∧ [a] <+: w) → ∀ w ∈ S, ∀ b, [b] <+: w → b ≤ a)
    (hdown : ∀ v a c, (∃ u ∈ S, ∃ w ∈ S, u ≠ w ∧ v ++ [a, c] <+: u ∧ v ++ [a, c] <+: w) → c ≤ a)
    (hgap : ∀ v a c, (∃ u ∈ S, ∃ w ∈ S, u ≠ w ∧ v ++ [a, c] <+: u ∧ v ++ [a, c] <+: w) → ∀ d, c < d → d ≤ a →
      ∀ w ∈ S, ¬ v ++ [a, d] <+: w) :
    ∀ (d : Nat), d ≤ 27 → ∃ l s, Runs st ([], 28 - (d : Int)) l s ∧ Stop s ∧
        (∀ w, w ∈ l ↔ From S [] (28 - (d : Int)) w) ∧ l.Pairwise (· < ·) := by
  intro d
  induction d with
  | zero =>
    intro _
    refine ⟨[], _, Runs.refl _, ⟨by simp, by simp⟩, fun w => ?_, List.Pairwise.nil⟩
    simp only [List.not_mem_nil, false_iff]
    exact from_end (by simp)
  | succ d ih =>
    intro hd
    have ho1 : (1 : Int) ≤ 28 - ((d + 1 : Nat) : Int) := by push_cast; omega
    have ho2 : 28 - ((d + 1 : Nat) : Int) < 28 := by push_cast; omega
    obtain ⟨hval, hcode⟩ := ch_spec ho1 ho2
    have hnext : 28 - ((d + 1 : Nat) : Int) + 1 = 28 - (d : Int) := by push_cast; omega
    generalize 28 - ((d + 1 : Nat) : Int) = o at *
    rcases child_cases R [] o with h0 | ⟨w, hw⟩ | hin
    · obtain ⟨l, s, k1, hs, k2, k3⟩ := ih (by omega)
      refine ⟨l, s, ?_, hs, fun w => ?_, k3⟩
      · have := Runs.step (.skip ho2 h0) (hnext ▸ k1)
        simpa using this
      · rw [k2 w, ← hnext]
        refine (from_skip fun w hw c hc e hpre => ?_).symm
        obtain ⟨t, ht⟩ := child_of_word R (Inn.root R) hw hpre
        rw [← e, ch_lcode hc] at h0
        exact h0 t ht
    · obtain ⟨l, s, k1, hs, k2, k3⟩ := ih (by omega)
      have hone : ∀ u, u ∈ [w] ↔ u ∈ S ∧ [] ++ [ch o] <+: u ++ [1] := by
        intro u; rw [List.mem_singleton, leaf_word R hw u]
      refine ⟨[w] ++ l, s, Runs.step (.leaf ho2 hw) (hnext ▸ k1), hs, fun u => ?_, ?_⟩
      · rw [List.mem_append, hone, k2 u, ← hnext, ← from_split hval hcode (by omega)]
        intro w _ d _ h1 h2
        omega
      · exact sorted_append hlow hval (o' := 28 - (d : Int)) (by omega) hone k2 (by simp) k3
    · have hc : lower (ch o) := hin.low R (ch o) (by simp)
      have hsh := hin.shared R B (by simp)
      obtain ⟨M, hM⟩ : ∃ M, ∀ w ∈ S, w.length < ([] : Str).length + M := by
        refine ⟨S.sup List.length + 1, fun w hw => ?_⟩
        have := Finset.le_sup (f := List.length) hw
        simp
        omega
      obtain ⟨l, k1, k2, k3⟩ := runs_node R B hlow hdown hgap M [] (ch o) hin hM 27 (by omega)
      rw [show (28 : Int) - (27 : Nat) = 1 by norm_num] at k1 k2
      refine ⟨l, ([] ++ [ch o], 28), ?_, ⟨?_, Int.le_refl _⟩, fun u => ?_, k3⟩
      · have := Runs.step (.down ho2 hin) k1
        simpa using this
      · simp
      · rw [k2 u, from_all hlow]
        constructor
        · rintro ⟨h1, h2⟩
          exact ⟨h1, ch o, hval, by omega, h2.trans (List.prefix_append _ _)⟩
        · rintro ⟨h1, e, h2, h3, h4⟩
          refine ⟨h1, ?_⟩
          have hone : (1 : Int) < o := by
            have := lower_alpha.range _ hc; omega
          have hel : lower e := by
            rcases h2 with rfl | h
            · have : lcode 1 = 1 := rfl; omega
            · exact h
          have hpre : [e] <+: u := inn_prefix (by simpa using hel) h4
          have hle := hfirst (ch o) hsh u h1 e hpre
          have : ch o = e := by
            refine lower_alpha.inj' hval h2 ?_
            have : ¬ lcode (ch o) < lcode e := fun h => UInt8.not_lt.2 hle ((lcode_lt hc hel).1 h)
            omega
          rw [this]
          exact hpre

end

/-! ### examples -/

/-- `Regular`, letter by letter -/
def Check (ws : List Str) : Prop :=
  (∀ u ∈ ws, ∀ w ∈ ws, u ≠ w → ∀ a ∈ u.head?, [a] <+: w → ∀ x ∈ ws, ∀ b ∈ x.head?, b ≤ a) ∧
  ∀ u ∈ ws, ∀ w ∈ ws, u ≠ w → ∀ i < u.length, ∀ a ∈ u[i]?, ∀ c ∈ u[i + 1]?, u.take (i + 2) <+: w →
    c ≤ a ∧ ∀ x ∈ ws, u.take (i + 1) <+: x → ∀ d ∈ x[i + 1]?, ¬ (c < d ∧ d ≤ a)

instance (ws : List Str) : Decidable (Check ws) := by unfold Check; infer_instance

theorem Check.regular {ws : List Str} (h : Check ws) : Regular ws := by
  obtain ⟨h1, h2⟩ := h
  have key : ∀ {v : Str} {a c : Byte} {u : Str}, v ++ [a, c] <+: u → v.length < u.length ∧ u[v.length]? = some a ∧
      u[v.length + 1]? = some c ∧ u.take (v.length + 2) = v ++ [a, c] ∧ u.take (v.length + 1) = v ++ [a] := by
    rintro v a c u ⟨t, rfl⟩
    refine ⟨by simp, by simp, by simp, ?_, ?_⟩
    · rw [List.take_append_of_le_length (by simp), List.take_of_length_le (by simp)]
    · rw [List.append_assoc, List.take_append, List.take_of_length_le (by omega)]
      simp
  constructor
  · rintro a ⟨u, hu, w, hw, hne, ⟨t, rfl⟩, h4⟩ x hx b ⟨y, rfl⟩
    exact h1 _ hu w hw hne a (by simp) h4 _ hx b (by simp)
  · rintro v a c ⟨u, hu, w, hw, hne, h3, h4⟩
    obtain ⟨k1, k2, k3, k4, k5⟩ := key h3
    exact (h2 u hu w hw hne _ k1 a k2 c k3 (by rw [k4]; exact h4)).1
  · rintro v a c ⟨u, hu, w, hw, hne, h3, h4⟩ d hcd hda x hx h5
    obtain ⟨k1, k2, k3, k4, k5⟩ := key h3
    refine (h2 u hu w hw hne _ k1 a k2 c k3 (by rw [k4]; exact h4)).2 x hx ?_ d ?_ ⟨hcd, hda⟩
    · rw [k5]
      refine List.IsPrefix.trans ?_ h5
      exact ⟨[d], by simp⟩
    · exact (key h5).2.2.1

end Trie
