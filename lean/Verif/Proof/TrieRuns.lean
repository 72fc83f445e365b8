import Verif.Proof.TrieTour

/-! # Runs of the iterator and the loop of the client -/

namespace Trie
open Cpp Spec Relation

/-- some step -/
def Move (st : St) (s s' : Str × Int) : Prop := ∃ a, Step st s a s'

def Reach (st : St) : Str × Int → Str × Int → Prop := ReflTransGen (Move st)

/-- several steps with the words shown -/
inductive Runs (st : St) : Str × Int → List Str → Str × Int → Prop where
  | refl (s : Str × Int) : Runs st s [] s
  | step {s s1 s2 : Str × Int} {a l : List Str} : Step st s a s1 → Runs st s1 l s2 → Runs st s (a ++ l) s2

theorem Runs.trans {st : St} {s s1 s2 : Str × Int} {a b : List Str} (h1 : Runs st s a s1) (h2 : Runs st s1 b s2) :
    Runs st s (a ++ b) s2 := by
  induction h1 with
  | refl => exact h2
  | step h _ ih => rw [List.append_assoc]; exact .step h (ih h2)

theorem Runs.one {st : St} {s s1 : Str × Int} {a : List Str} (h : Step st s a s1) : Runs st s a s1 := by
  have := Runs.step h (.refl s1)
  rwa [List.append_nil] at this

theorem move_unique (st : St) : Relator.RightUnique (Move st) := by
  rintro s s1 s2 ⟨a, h1⟩ ⟨b, h2⟩
  exact (h1.det h2).2

section
variable {st : St} {S : Finset Str}

theorem Reach.ok (R : Rep lower lcode st S) {s s' : Str × Int} (h : Reach st s s') (hs : Ok st s) : Ok st s' := by
  induction h with
  | refl => exact hs
  | tail _ h ih => obtain ⟨a, h⟩ := h; exact h.ok R ih

theorem child_cases (R : Rep lower lcode st S) (v : Str) (o : Int) :
    (∀ t, ¬ Path lower lcode st.b st.k (v ++ [ch o]) t) ∨ (∃ w, Holds st (v ++ [ch o]) w) ∨ Inn st (v ++ [ch o]) := by
  by_cases h : ∃ t, Path lower lcode st.b st.k (v ++ [ch o]) t
  · obtain ⟨t, ht⟩ := h
    rcases path_word R ht with h | h
    · exact .inr (.inr h)
    · exact .inr (.inl h)
  · exact .inl fun t ht => h ⟨t, ht⟩

theorem split2 {v : Str} (h : ¬ v.length ≤ 1) : ∃ v0 x c, v = v0 ++ [x] ++ [c] := by
  rcases List.eq_nil_or_concat v with rfl | ⟨v1, c, rfl⟩
  · simp at h
  · rcases List.eq_nil_or_concat v1 with rfl | ⟨v0, x, rfl⟩
    · simp at h
    · exact ⟨v0, x, c, by simp⟩

/-- what a call of `visit` did -/
theorem visit_reach (R : Rep lower lcode st S) : ∀ (f : Nat) (v : Str) (n o : Int) (r : Bool) (n' o' : Int) (buf : List Int),
    Path lower lcode st.b st.k v n → 0 ≤ st.b n → 1 ≤ o → visit st f n o (v.map lcode) = .ok (r, n', o', buf) →
    (r = true ∧ ∃ v' off e, Reach st (v, o) (v', off) ∧ At st n' o' buf v' off e) ∨
    (r = false ∧ ∃ s, Reach st (v, o) s ∧ Stop s) := by
  intro f
  induction f with
  | zero => intro v n o r n' o' buf _ _ _ h; unfold visit at h; cases h
  | succ f ih =>
    intro v n o r n' o' buf hp hb ho h
    have lift : ∀ {s : Str × Int}, Move st (v, o) s →
        ((r = true ∧ ∃ v' off e, Reach st s (v', off) ∧ At st n' o' buf v' off e) ∨
          (r = false ∧ ∃ s', Reach st s s' ∧ Stop s')) →
        ((r = true ∧ ∃ v' off e, Reach st (v, o) (v', off) ∧ At st n' o' buf v' off e) ∨
          (r = false ∧ ∃ s', Reach st (v, o) s' ∧ Stop s')) := by
      rintro s hm (⟨h1, v', off, e, h2, h3⟩ | ⟨h1, s', h2, h3⟩)
      · exact .inl ⟨h1, v', off, e, .head hm h2, h3⟩
      · exact .inr ⟨h1, s', .head hm h2, h3⟩
    by_cases ho' : o < 28
    · rcases child_cases R v o with h0 | ⟨w, hw⟩ | hi
      · rw [visit_skip R hp hb ho ho' h0] at h
        exact lift ⟨_, .skip ho' h0⟩ (ih v n (o + 1) r n' o' buf hp hb (by omega) h)
      · obtain ⟨e, h1, h2⟩ := visit_leaf R hp hb ho ho' hw f
        rw [h1] at h
        injection h with h
        simp only [Prod.mk.injEq] at h
        obtain ⟨rfl, rfl, rfl, rfl⟩ := h
        exact .inl ⟨rfl, v, o, e, .refl, h2⟩
      · obtain ⟨m, h1, h2, h3⟩ := visit_down R hp hb ho ho' hi
        rw [h3] at h
        exact lift ⟨_, .down ho' hi⟩ (ih _ m 1 r n' o' buf h1 h2 (by omega) h)
    · by_cases hv : v.length ≤ 1
      · rw [visit_stop hv (by omega)] at h
        injection h with h
        simp only [Prod.mk.injEq] at h
        exact .inr ⟨h.1.symm, _, .refl, hv, by dsimp only; omega⟩
      · obtain ⟨v0, x, c, rfl⟩ := split2 hv
        have hx := lower_alpha.range x (Inn.low R ⟨n, hp, hb⟩ x (by simp))
        obtain ⟨m, h1, h2, h3⟩ := visit_pop R hp (by omega : 28 ≤ o)
        rw [h3] at h
        exact lift ⟨_, .pop (by omega)⟩ (ih _ m _ r n' o' buf h1 h2 (by omega) h)

theorem next_reach (R : Rep lower lcode st S) {fuel : Nat} {n o : Int} {v : Str} {it : Iter} {buffer : List Int}
    (hp : Path lower lcode st.b st.k v n) (hb : 0 ≤ st.b n) (ho : 1 ≤ o)
    (hbuf : buffer = v.map lcode ∧ v = [] ∨ ∃ a c, buffer = v.map lcode ++ [a, c])
    (h : Iter.next st fuel ⟨n, o, buffer, false⟩ = .ok it) :
    (it.done = false ∧ ∃ v' off e, Reach st (v, o) (v', off) ∧ At st it.n it.offset it.buffer v' off e) ∨
    (it.done = true ∧ ∃ s, Reach st (v, o) s ∧ Stop s) := by
  unfold Iter.next at h
  dsimp only at h
  rw [if_neg (by simp)] at h
  have hbuf' : (if buffer = [] then buffer else buffer.dropLast.dropLast) = v.map lcode := by
    rcases hbuf with ⟨h1, h2⟩ | ⟨a, c, h1⟩
    · rw [h1, h2]; simp
    · rw [h1, if_neg (by simp), show v.map lcode ++ [a, c] = v.map lcode ++ [a] ++ [c] by simp, List.dropLast_concat,
        List.dropLast_concat]
  rw [hbuf'] at h
  obtain ⟨⟨r, n', o', buf⟩, e1, e2⟩ := Out.bind_eq_ok.1 h
  injection e2 with e2
  rw [← e2]
  dsimp only
  rcases visit_reach R fuel v n o r n' o' buf hp hb ho e1 with ⟨rfl, h⟩ | ⟨rfl, h⟩
  · exact .inl ⟨rfl, h⟩
  · exact .inr ⟨rfl, h⟩

theorem At.step (R : Rep lower lcode st S) {n offset : Int} {buffer : List Int} {v : Str} {off e : Int}
    (h : At st n offset buffer v off e) : Move st (v, off) (v, off + 1) := by
  obtain ⟨w, _, hw⟩ := deref_holds R (d := false) h
  exact ⟨[w], .leaf (by have := h.off2; omega) hw⟩

/-- A loop which ends: the end is reached, and so are the places where the words are shown. -/
theorem iterateFrom_reach (R : Rep lower lcode st S) (fuel : Nat) : ∀ (k : Nat) (it : Iter) (ws : List Str) (v : Str) (off e : Int),
    it.done = false → At st it.n it.offset it.buffer v off e → iterateFrom mapInt st fuel k it = .ok ws →
    (∃ s, Reach st (v, off) s ∧ Stop s) ∧
    ∀ w ∈ ws, ∃ v' o', Reach st (v, off) (v', o') ∧ o' < 28 ∧ Holds st (v' ++ [ch o']) w := by
  intro k
  induction k with
  | zero => intro it ws v off e _ _ h; unfold iterateFrom at h; cases h
  | succ k ih =>
    intro it ws v off e hd hat h
    unfold iterateFrom at h
    rw [hd, if_neg (by simp)] at h
    obtain ⟨n, offset, buffer, d⟩ := it
    dsimp only at hd hat
    subst hd
    obtain ⟨w0, e0, hw0⟩ := deref_holds R (d := false) hat
    rw [e0] at h
    simp only [Out.ok_bind] at h
    obtain ⟨it', e1, h1⟩ := Out.bind_eq_ok.1 h
    obtain ⟨ws', e2, h2⟩ := Out.bind_eq_ok.1 h1
    injection h2 with h2
    subst h2
    have hoff := hat.off_eq
    have hm := hat.step R
    rw [← hoff] at hm
    rcases next_reach R hat.path hat.base (by have := hat.off1; omega) (.inr ⟨_, _, hat.buf⟩) e1 with
      ⟨g1, v', off', e', g2, g3⟩ | ⟨g1, s, g2, g3⟩
    · obtain ⟨⟨s, k1, k2⟩, k3⟩ := ih it' ws' v' off' e' g1 g3 e2
      have g2' : Reach st (v, off) (v', off') := .head hm g2
      refine ⟨⟨s, g2'.trans k1, k2⟩, fun w hw => ?_⟩
      rcases List.mem_cons.1 hw with rfl | hw
      · exact ⟨v, off, .refl, by have := hat.off2; omega, hw0⟩
      · obtain ⟨v2, o2, k4, k5⟩ := k3 w hw
        exact ⟨v2, o2, g2'.trans k4, k5⟩
    · refine ⟨⟨s, .head hm g2, g3⟩, fun w hw => ?_⟩
      have : ws' = [] := by
        cases k with
        | zero => unfold iterateFrom at e2; cases e2
        | succ k =>
          unfold iterateFrom at e2
          rw [g1, if_pos rfl] at e2
          injection e2 with e2
          exact e2.symm
      subst this
      rw [List.mem_singleton] at hw
      subst hw
      exact ⟨v, off, .refl, by have := hat.off2; omega, hw0⟩

theorem iterate_reach (R : Rep lower lcode st S) {fuel : Nat} {ws : List Str} (h : iterate mapInt st fuel = .ok ws) :
    (∃ s, Reach st ([], 1) s ∧ Stop s) ∧ ∀ w ∈ ws, ∃ v' o', Reach st ([], 1) (v', o') ∧ o' < 28 ∧ Holds st (v' ++ [ch o']) w := by
  unfold iterate begin at h
  obtain ⟨it, e1, e2⟩ := Out.bind_eq_ok.1 h
  rcases next_reach R (v := []) .root R.inv.core.b0 (by omega) (.inl ⟨rfl, rfl⟩) e1 with ⟨g1, v', off', e', g2, g3⟩ | ⟨g1, s, g2, g3⟩
  · obtain ⟨⟨s, k1, k2⟩, k3⟩ := iterateFrom_reach R fuel fuel it ws v' off' e' g1 g3 e2
    refine ⟨⟨s, g2.trans k1, k2⟩, fun w hw => ?_⟩
    obtain ⟨v2, o2, k4, k5⟩ := k3 w hw
    exact ⟨v2, o2, g2.trans k4, k5⟩
  · refine ⟨⟨s, g2, g3⟩, fun w hw => ?_⟩
    have : ws = [] := by
      cases fuel with
      | zero => unfold iterateFrom at e2; cases e2
      | succ k =>
        unfold iterateFrom at e2
        rw [g1, if_pos rfl] at e2
        injection e2 with e2
        exact e2.symm
    subst this
    simp at hw

/-- the rest of the client's loop, from the place `(v, o)` on -/
def rest (st : St) (f F k : Nat) (n o : Int) (buf : List Int) : Out (List Str) := do
  let (r, n, o, b) ← visit st f n o buf
  iterateFrom mapInt st F k ⟨n, o, b, !r⟩

/-- A run to the end is a loop which ends. -/
theorem rest_runs (R : Rep lower lcode st S) {s s' : Str × Int} {l : List Str} (h : Runs st s l s') (hs : Ok st s) (hstop : Stop s') :
    ∃ N, ∀ f F k, N ≤ f → N ≤ F → N ≤ k → ∀ n, Path lower lcode st.b st.k s.1 n → 0 ≤ st.b n →
      rest st f F k n s.2 (s.1.map lcode) = .ok l := by
  induction h with
  | refl s =>
    refine ⟨1, fun f F k hf hF hk n hp hb => ?_⟩
    obtain ⟨f, rfl⟩ : ∃ f', f = f' + 1 := ⟨f - 1, by omega⟩
    obtain ⟨k, rfl⟩ : ∃ f', k = f' + 1 := ⟨k - 1, by omega⟩
    unfold rest
    rw [visit_stop hstop.1 hstop.2]
    simp only [Out.ok_bind]
    rw [iterateFrom]
    simp
  | step h1 _ ih =>
    obtain ⟨N, hN⟩ := ih (h1.ok R hs) hstop
    refine ⟨N + 1, fun f F k hf hF hk n hp hb => ?_⟩
    obtain ⟨f, rfl⟩ : ∃ f', f = f' + 1 := ⟨f - 1, by omega⟩
    have ho := hs.2
    cases h1 with
    | skip ho' h0 =>
      have := hN f F k (by omega) (by omega) (by omega) n hp hb
      unfold rest at this ⊢
      rw [visit_skip R hp hb ho ho' h0]
      exact this
    | down ho' hi =>
      obtain ⟨m, g1, g2, g3⟩ := visit_down R hp hb ho ho' hi
      have := hN f F k (by omega) (by omega) (by omega) m g1 g2
      unfold rest at this ⊢
      rw [g3]
      exact this
    | pop ho' =>
      obtain ⟨m, g1, g2, g3⟩ := visit_pop R hp ho'
      have := hN f F k (by omega) (by omega) (by omega) m g1 g2
      unfold rest at this ⊢
      rw [g3]
      exact this
    | leaf ho' hw =>
      obtain ⟨k, rfl⟩ : ∃ f', k = f' + 1 := ⟨k - 1, by omega⟩
      obtain ⟨e, g1, g2⟩ := visit_leaf R hp hb ho ho' hw f
      have := hN F F k (by omega) (by omega) (by omega) n hp hb
      obtain ⟨w', g3, g4⟩ := deref_holds R (d := false) g2
      have hww := g4.det hw
      subst hww
      unfold rest
      rw [g1]
      simp only [Out.ok_bind]
      rw [iterateFrom]
      simp only [Bool.not_true, Bool.false_eq_true, if_false]
      rw [g3]
      simp only [Out.ok_bind]
      unfold rest at this
      obtain ⟨⟨r, n', o', b⟩, k1, k2⟩ := Out.bind_eq_ok.1 this
      rename_i v o w
      have hnext : Iter.next st F ⟨n, o + 1, v.map lcode ++ [o, e], false⟩ = .ok ⟨n', o', b, !r⟩ := by
        unfold Iter.next
        dsimp only
        rw [if_neg (by simp), if_neg (by simp), show v.map lcode ++ [o, e] = v.map lcode ++ [o] ++ [e] by simp,
          List.dropLast_concat, List.dropLast_concat]
        dsimp only at k1
        rw [k1]
        rfl
      rw [hnext]
      simp only [Out.ok_bind]
      dsimp only at k2
      rw [k2]
      rfl

theorem iterate_runs (R : Rep lower lcode st S) {s' : Str × Int} {l : List Str} (h : Runs st ([], 1) l s') (hstop : Stop s') :
    ∃ N, ∀ fuel, N ≤ fuel → iterate mapInt st fuel = .ok l := by
  obtain ⟨N, hN⟩ := rest_runs R h ⟨Inn.root R, Int.le_refl _⟩ hstop
  refine ⟨N, fun fuel hf => ?_⟩
  have := hN fuel fuel fuel hf hf hf 0 .root R.inv.core.b0
  unfold rest at this
  obtain ⟨⟨r, n', o', b⟩, k1, k2⟩ := Out.bind_eq_ok.1 this
  unfold iterate begin Iter.next
  dsimp only at k1 k2 ⊢
  rw [if_neg (by simp), if_pos rfl]
  rw [List.map_nil] at k1
  rw [k1]
  exact k2

end

end Trie
