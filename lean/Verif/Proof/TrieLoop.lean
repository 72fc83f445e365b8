import Verif.Spec.TrieLoop
import Verif.Proof.TrieHistory
import Verif.Proof.TrieAbsent

/-! # Loops over a trie: proofs -/

namespace Trie.Loop
open Cpp Trie Trie.Spec Trie.Loop.Spec

variable {σ : Type}

/-! ### what a removal leaves -/

/-- entries are kept or cleared -/
def Cleared (st st' : St) : Prop :=
  ∀ s, (st'.b s = st.b s ∨ st'.b s = -1) ∧ (st'.k s = st.k s ∨ st'.k s = -1)

theorem Cleared.refl (st : St) : Cleared st st := fun _ => ⟨.inl rfl, .inl rfl⟩

theorem put_cleared {a : AA Int} {p s : Int} : (a.put p (-1)).at s = a.at s ∨ (a.put p (-1)).at s = -1 := by
  rw [AA.at_put]
  split
  · exact .inr rfl
  · exact .inl rfl

theorem setBase_cleared {st st' : St} {p : Int} (h : setBase st p (-1) = .ok st') : Cleared st st' := by
  by_cases hp : 0 ≤ p
  · rw [setBase_ok _ hp] at h
    injection h with h
    subst h
    exact fun s => ⟨put_cleared, .inl rfl⟩
  · unfold setBase AA.set at h
    rw [if_neg (by omega)] at h
    cases h

theorem setCheck_cleared {st st' : St} {p : Int} (h : setCheck st p (-1) = .ok st') : Cleared st st' := by
  by_cases hp : 0 ≤ p
  · rw [setCheck_ok _ hp] at h
    injection h with h
    subst h
    exact fun s => ⟨.inl rfl, put_cleared⟩
  · unfold setCheck AA.set at h
    rw [if_neg (by omega)] at h
    cases h

theorem Cleared.trans {a b c : St} (h1 : Cleared a b) (h2 : Cleared b c) : Cleared a c := by
  intro s
  obtain ⟨p1, p2⟩ := h1 s
  obtain ⟨q1, q2⟩ := h2 s
  exact ⟨by omega, by omega⟩

theorem removeGo_cleared {st : St} : ∀ (w : Str) (n : Int) (st' : St) (r : Bool), removeGo mapChar st n w = .ok (st', r) →
    Cleared st st' := by
  intro w
  induction w with
  | nil =>
    intro n st' r h
    unfold removeGo at h
    obtain ⟨x, h1, h2⟩ := Out.bind_eq_ok.1 h
    injection h2 with h2
    injection h2 with h2 h3
    subst h2
    exact setCheck_cleared h1
  | cons c rest ih =>
    intro n st' r h
    unfold removeGo at h
    obtain ⟨i, -, h⟩ := Out.bind_eq_ok.1 h
    obtain ⟨x, -, h⟩ := Out.bind_eq_ok.1 h
    obtain ⟨y, -, h⟩ := Out.bind_eq_ok.1 h
    split at h
    · injection h with h
      injection h with h1 h2
      subst h1
      exact Cleared.refl st
    · obtain ⟨z, -, h⟩ := Out.bind_eq_ok.1 h
      split at h
      · obtain ⟨z, -, h⟩ := Out.bind_eq_ok.1 h
        obtain ⟨z2, -, h⟩ := Out.bind_eq_ok.1 h
        split at h
        · obtain ⟨s1, g1, h⟩ := Out.bind_eq_ok.1 h
          obtain ⟨s2, g2, h⟩ := Out.bind_eq_ok.1 h
          injection h with h
          injection h with h1 h2
          subst h1
          exact (setBase_cleared g1).trans (setCheck_cleared g2)
        · injection h with h
          injection h with h1 h2
          subst h1
          exact Cleared.refl st
      · exact ih _ _ _ h

theorem remove_cleared {st st' : St} {w : Str} (h : remove mapChar st w = .ok st') : Cleared st st' := by
  unfold remove at h
  obtain ⟨⟨s, r⟩, h1, h2⟩ := Out.bind_eq_ok.1 h
  injection h2 with h2
  have := removeGo_cleared _ _ _ _ h1
  subst h2
  cases r <;> exact this

theorem Cleared.path {st st' : St} {S : Finset Str} (R : Rep lower lcode st S) (h : Cleared st st') {v : Str} {n : Int}
    (hp : Path lower lcode st'.b st'.k v n) : Path lower lcode st.b st.k v n := by
  induction hp with
  | root => exact .root
  | step c hp hb hc hk ih =>
    rename_i w m
    have hm := R.inv.core.nonneg (ih.alloc R.inv.core)
    have hb' : st'.b m = st.b m := by rcases (h m).1 with h | h <;> omega
    rw [hb'] at hk hb ⊢
    exact .step c ih hb hc (by rcases (h (st.b m + lcode c)).2 with h | h <;> omega)

/-- the slot of an inner node -/
def Slot (t : St) (v : Str) (n : Int) : Prop := Path lower lcode t.b t.k v n ∧ 0 ≤ t.b n

theorem remove_slot {st st' : St} {S : Finset Str} (R : Rep lower lcode st S) {w : Str} (hw : ∀ c ∈ w, lower c)
    (e : remove mapChar st w = .ok st') {v : Str} {n : Int} (h : Slot st v n) : Slot st' v n := by
  have hi : Inn st' v := ((remove_inner R hw e).1 v).2 ⟨n, h.1, h.2⟩
  obtain ⟨m, hm, hb⟩ := hi
  have := (remove_cleared e).path R hm
  have e' := Path.det _ this h.1
  subst e'
  exact ⟨hm, hb⟩

/-! ### the places -/

/-- The places where a word may be shown from a state of the iterator on, given the inner nodes. -/
inductive Places (I : Str → Prop) : Str × Int → List Str → Prop where
  | stop {s : Str × Int} : Stop s → Places I s []
  | next {v : Str} {o : Int} {ps : List Str} : o < 28 → ¬ I (v ++ [ch o]) → Places I (v, o + 1) ps →
      Places I (v, o) ((v ++ [ch o]) :: ps)
  | down {v : Str} {o : Int} {ps : List Str} : o < 28 → I (v ++ [ch o]) → Places I (v ++ [ch o], 1) ps → Places I (v, o) ps
  | pop {v : Str} {x c : Byte} {o : Int} {ps : List Str} : 28 ≤ o → Places I (v ++ [x], lcode x + 1) ps →
      Places I (v ++ [x] ++ [c], o) ps

/-- the word at a place -/
def through (p w : Str) : Prop := p <+: w ++ [1]

section
variable {t : St} {S : Finset Str}

theorem places_of_reach {s s' : Str × Int} (h : Reach t s s') (hs : Stop s') :
    ∃ ps, Places (Inn t) s ps := by
  induction h using Relation.ReflTransGen.head_induction_on with
  | refl => exact ⟨[], .stop hs⟩
  | head h _ ih =>
    obtain ⟨ps, ih⟩ := ih
    obtain ⟨a, h⟩ := h
    cases h with
    | skip ho hn => exact ⟨_, .next ho (fun ⟨n, hn', _⟩ => hn n hn') ih⟩
    | leaf ho hw => exact ⟨_, .next ho hw.not_inn ih⟩
    | down ho hi => exact ⟨_, .down ho hi ih⟩
    | pop ho => exact ⟨_, .pop ho ih⟩

theorem holds_of (R : Rep lower lcode t S) {v w : Str} {c : Byte} (hv : Inn t v) (hp : ¬ Inn t (v ++ [c])) (hw : w ∈ S)
    (ht : through (v ++ [c]) w) : Holds t (v ++ [c]) w := by
  obtain ⟨l, hl⟩ := Holds.ex R hw
  obtain ⟨c', y, e⟩ := hl.below hv ((List.prefix_append _ _).trans ht)
  have hc : c' = c := by
    have h1 := hl.pre
    rw [e] at h1
    obtain ⟨z1, h1⟩ := h1
    obtain ⟨z2, h2⟩ := ht
    rw [← h2] at h1
    simp at h1
    exact h1.1
  subst hc
  cases y with
  | nil => rw [e] at hl; exact hl
  | cons d y =>
    obtain ⟨m, hm, _⟩ := hl
    rw [e, show v ++ c' :: d :: y = (v ++ [c']) ++ d :: y by simp] at hm
    exact absurd (inn_of_path hm) hp

theorem free_of (R : Rep lower lcode t S) {v : Str} {o : Int} (hp : ¬ Inn t (v ++ [ch o])) (hn : ∀ w ∈ S, ¬ through (v ++ [ch o]) w) :
    ∀ m, ¬ Path lower lcode t.b t.k (v ++ [ch o]) m := by
  rcases child_cases R v o with h | ⟨w, h⟩ | h
  · exact h
  · exact absurd h.pre (hn w (h.mem R))
  · exact absurd h hp

end

/-! ### the loop -/

/-- the loop from the call of `visit` on -/
def rest (body : σ → Str → Body σ) (t : St) (f F k : Nat) (st : σ) (n o : Int) (buf : List Int) (last : Iter) :
    Out (σ × St × List Str) := do
  let (r, n, o, b) ← visit t f n o buf
  rounds body F k st t ⟨n, o, b, !r⟩ last

/-- the loop after a round with the word `w` -/
def onward (body : σ → Str → Body σ) (F k : Nat) (st : σ) (t : St) (it last : Iter) (w : Str) : Out (σ × St × List Str) := do
  let it ← it.next t F
  let (st, t, vis) ← rounds body F k st t it last
  .ok (st, t, w :: vis)

/-- What the body keeps: the tree stays a representation of the set, with the same inner nodes at the same slots. -/
def Keeps (I : Str → Prop) (J : Finset Str → Prop) (fresh : Finset Str → Str → Prop) : Prop :=
  ∀ {σ : Type} (t : St) (S : Finset Str) (b : Body σ) (st1 : σ) (S1 : Finset Str) (stop : Bool), Rep lower lcode t S →
    (∀ v, Inn t v ↔ I v) → J S → Does fresh S b (st1, S1, stop) →
    ∃ t1, exec t b = .ok (st1, t1, stop) ∧ Rep lower lcode t1 S1 ∧ (∀ v, Inn t1 v ↔ I v) ∧ J S1 ∧
      ∀ v n, Slot t v n → Slot t1 v n

variable {I : Str → Prop} {J : Finset Str → Prop} {fresh : Finset Str → Str → Prop}

theorem rest_sweep (K : Keeps I J fresh) (body : σ → Str → Body σ) {s : Str × Int} {ps : List Str} (h : Places I s ps)
    (last : Iter) (hlast : last.done = true) :
    ∀ (st : σ) (S : Finset Str) (t : St) (st' : σ) (S' : Finset Str) (vis : List Str), Rep lower lcode t S →
      (∀ v, Inn t v ↔ I v) → J S → Ok t s → Sweep fresh through body ps st S (st', S', vis) →
      ∃ t' N, Rep lower lcode t' S' ∧ ∀ f F k, N ≤ f → N ≤ F → N ≤ k → ∀ n, Slot t s.1 n →
        rest body t f F k st n s.2 (s.1.map lcode) last = .ok (st', t', vis) := by
  induction h with
  | stop hs =>
    intro st S t st' S' vis R hI hJ hok h
    cases h
    refine ⟨t, 1, R, fun f F k hf hF hk n hn => ?_⟩
    obtain ⟨f, rfl⟩ : ∃ f', f = f' + 1 := ⟨f - 1, by omega⟩
    obtain ⟨k, rfl⟩ : ∃ f', k = f' + 1 := ⟨k - 1, by omega⟩
    unfold rest
    rw [visit_stop hs.1 hs.2]
    simp only [Out.ok_bind]
    rw [rounds]
    simp [Iter.ne, Iter.eq, hlast]
  | down ho hi _ ih =>
    intro st S t st' S' vis R hI hJ hok h
    have hi' := (hI _).2 hi
    obtain ⟨t', N, R', hN⟩ := ih st S t st' S' vis R hI hJ ⟨hi', Int.le_refl _⟩ h
    refine ⟨t', N + 1, R', fun f F k hf hF hk n hn => ?_⟩
    obtain ⟨f, rfl⟩ : ∃ f', f = f' + 1 := ⟨f - 1, by omega⟩
    obtain ⟨m, g1, g2, g3⟩ := visit_down R hn.1 hn.2 hok.2 ho hi'
    have := hN f F k (by omega) (by omega) (by omega) m ⟨g1, g2⟩
    unfold rest at this ⊢
    rw [g3]
    exact this
  | pop ho _ ih =>
    intro st S t st' S' vis R hI hJ hok h
    obtain ⟨t', N, R', hN⟩ := ih st S t st' S' vis R hI hJ ((Step.pop ho).ok R hok) h
    refine ⟨t', N + 1, R', fun f F k hf hF hk n hn => ?_⟩
    obtain ⟨f, rfl⟩ : ∃ f', f = f' + 1 := ⟨f - 1, by omega⟩
    obtain ⟨m, g1, g2, g3⟩ := visit_pop R hn.1 ho
    have := hN f F k (by omega) (by omega) (by omega) m ⟨g1, g2⟩
    unfold rest at this ⊢
    rw [g3]
    exact this
  | next ho hi _ ih =>
    rename_i v o ps _
    intro st S t st' S' vis R hI hJ hok h
    have hi' : ¬ Inn t (v ++ [ch o]) := fun h => hi ((hI _).1 h)
    have ho1 : 1 ≤ o := hok.2
    -- the start of a round
    have start : ∀ w ∈ S, through (v ++ [ch o]) w → ∀ st1 S1 stop, Does fresh S (body st w) (st1, S1, stop) →
        ∃ t1, Rep lower lcode t1 S1 ∧ (∀ v, Inn t1 v ↔ I v) ∧ J S1 ∧ (∀ v n, Slot t v n → Slot t1 v n) ∧
          ∀ f F k n, Slot t v n → ∃ e, rest body t (f + 1) F (k + 1) st n o (v.map lcode) last =
            if stop then .ok (st1, t1, [w]) else onward body F k st1 t1 ⟨n, o + 1, v.map lcode ++ [o, e], false⟩ last w := by
      intro w hw hthr st1 S1 stop hd
      obtain ⟨t1, x1, x2, x3, x4, x5⟩ := K t S _ st1 S1 stop R hI hJ hd
      refine ⟨t1, x2, x3, x4, x5, fun f F k n hn => ?_⟩
      have hh := holds_of R hok.1 hi' hw hthr
      obtain ⟨e, g1, g2⟩ := visit_leaf R hn.1 hn.2 ho1 ho hh f
      obtain ⟨w', g3, g4⟩ := deref_holds R (d := false) g2
      have hww := g4.det hh
      subst hww
      refine ⟨e, ?_⟩
      unfold rest
      rw [g1]
      simp only [Out.ok_bind]
      rw [rounds, if_pos (by simp [Iter.ne, Iter.eq, hlast])]
      simp only [Bool.not_true]
      rw [g3]
      simp only [Out.ok_bind]
      rw [x1]
      rfl
    cases h with
    | empty hemp h =>
      obtain ⟨t', N, R', hN⟩ := ih st S t st' S' vis R hI hJ ⟨hok.1, by show 1 ≤ o + 1; omega⟩ h
      refine ⟨t', N + 1, R', fun f F k hf hF hk n hn => ?_⟩
      obtain ⟨f, rfl⟩ : ∃ f', f = f' + 1 := ⟨f - 1, by omega⟩
      have := hN f F k (by omega) (by omega) (by omega) n hn
      unfold rest at this ⊢
      rw [visit_skip R hn.1 hn.2 ho1 ho (free_of R hi' hemp)]
      exact this
    | leave hw hthr hd =>
      obtain ⟨t1, R1, hI1, hJ1, hS1, hrun⟩ := start _ hw hthr _ _ _ hd
      refine ⟨t1, 1, R1, fun f F k hf hF hk n hn => ?_⟩
      obtain ⟨f, rfl⟩ : ∃ f', f = f' + 1 := ⟨f - 1, by omega⟩
      obtain ⟨k, rfl⟩ : ∃ f', k = f' + 1 := ⟨k - 1, by omega⟩
      obtain ⟨e, he⟩ := hrun f F k n hn
      dsimp only
      rw [he, if_pos rfl]
    | round hw hthr hd h =>
      rename_i st1 S1 w vis
      obtain ⟨t1, R1, hI1, hJ1, hS1, hrun⟩ := start _ hw hthr _ _ _ hd
      obtain ⟨m, hm⟩ := hok.1
      obtain ⟨t', N, R', hN⟩ := ih st1 S1 t1 st' S' vis R1 hI1 hJ1
        ⟨⟨m, (hS1 v m hm).1, (hS1 v m hm).2⟩, by show 1 ≤ o + 1; omega⟩ h
      refine ⟨t', N + 1, R', fun f F k hf hF hk n hn => ?_⟩
      obtain ⟨f, rfl⟩ : ∃ f', f = f' + 1 := ⟨f - 1, by omega⟩
      obtain ⟨k, rfl⟩ : ∃ f', k = f' + 1 := ⟨k - 1, by omega⟩
      obtain ⟨e, he⟩ := hrun f F k n hn
      have := hN F F k (by omega) (by omega) (by omega) n (hS1 v n hn)
      dsimp only
      rw [he, if_neg (by simp)]
      unfold onward
      unfold rest at this
      obtain ⟨⟨r, n', o', b⟩, k1, k2⟩ := Out.bind_eq_ok.1 this
      have hnext : Iter.next t1 F ⟨n, o + 1, v.map lcode ++ [o, e], false⟩ = .ok ⟨n', o', b, !r⟩ := by
        unfold Iter.next
        dsimp only
        rw [if_neg (by simp), if_neg (by simp), show v.map lcode ++ [o, e] = v.map lcode ++ [o] ++ [e] by simp,
          List.dropLast_concat, List.dropLast_concat]
        dsimp only at k1
        rw [k1]
        rfl
      rw [hnext]
      simp only [Out.ok_bind]
      dsimp only at k2
      rw [k2]
      rfl

theorem forTrie_sweep (K : Keeps I J fresh) (body : σ → Str → Body σ) {ps : List Str} (h : Places I ([], 1) ps) {st st' : σ}
    {S S' : Finset Str} {t : St} {vis : List Str} (R : Rep lower lcode t S) (hI : ∀ v, Inn t v ↔ I v) (hJ : J S)
    (hs : Sweep fresh through body ps st S (st', S', vis)) :
    ∃ t' N, Rep lower lcode t' S' ∧ ∀ fuel n, N ≤ fuel → N ≤ n → forTrie body fuel n st t = .ok (st', t', vis) := by
  obtain ⟨t', N, R', hN⟩ := rest_sweep K body h ⟨0, 1, [], true⟩ rfl st S t st' S' vis R hI hJ ⟨Inn.root R, Int.le_refl _⟩ hs
  refine ⟨t', N, R', fun fuel n hf hn => ?_⟩
  have := hN fuel fuel n hf hf hn 0 ⟨.root, R.inv.core.b0⟩
  unfold rest at this
  obtain ⟨⟨r, n', o', b⟩, k1, k2⟩ := Out.bind_eq_ok.1 this
  unfold forTrie begin endIter Iter.next
  dsimp only at k1 k2 ⊢
  rw [if_neg (by simp), if_pos rfl, if_pos rfl]
  rw [List.map_nil] at k1
  rw [k1]
  exact k2

/-! ### what the bodies keep -/

theorem keeps_of
    (hrem : ∀ S w, J S → w ∈ S → J (S.erase w))
    (hlow : ∀ S, J S → ∀ w ∈ S, ∀ c ∈ w, lower c)
    (hins : ∀ t S w, Rep lower lcode t S → (∀ v, Inn t v ↔ I v) → J S → fresh S w → Lower w → w ∉ S →
      J (Insert.insert w S) ∧ ∀ t1, Trie.insert mapChar mapChar t w = .ok t1 → Rep lower lcode t1 (Insert.insert w S) →
        (∀ v, Inn t1 v ↔ I v) ∧ ∀ v n, Slot t v n → Slot t1 v n) : Keeps I J fresh := by
  intro σ t S b st1 S1 stop R hI hJ hd
  generalize er : (st1, S1, stop) = r at hd
  induction hd generalizing t with
  | done => cases er; exact ⟨t, rfl, R, hI, hJ, fun v n h => h⟩
  | stop => cases er; exact ⟨t, rfl, R, hI, hJ, fun v n h => h⟩
  | contain hw _ ih =>
    obtain ⟨t1, h1, h2⟩ := ih t R hI hJ er
    refine ⟨t1, ?_, h2⟩
    rw [exec, contain_rep lower_alpha lower_maps R hw]
    exact h1
  | size _ ih =>
    obtain ⟨t1, h1, h2⟩ := ih t R hI hJ er
    refine ⟨t1, ?_, h2⟩
    rw [exec, R.size]
    exact h1
  | remove hw _ ih =>
    rename_i S w b r hd
    have hl := hlow _ hJ _ hw
    obtain ⟨t2, e2, R2⟩ := (remove_rep lower_alpha lower_maps R hl).1 hw
    obtain ⟨t1, h1, h2, h3, h4, h5⟩ := ih t2 R2 (fun v => ((remove_inner R hl e2).1 v).trans (hI v)) (hrem _ _ hJ hw) er
    refine ⟨t1, ?_, h2, h3, h4, fun v n h => h5 v n (remove_slot R hl e2 h)⟩
    rw [exec, e2]
    exact h1
  | insert hl hw _ ih =>
    rename_i S w b r hd
    obtain ⟨t2, e2, R2⟩ := insert_rep lower_alpha lower_maps lower_maps R (w := w) hl
    by_cases hm : w ∈ S
    · have et : t2 = t := by
        unfold Trie.insert at e2
        rw [contain_rep lower_alpha lower_maps R hl, decide_eq_true hm] at e2
        simp only [Out.ok_bind, if_true] at e2
        injection e2 with e2
        exact e2.symm
      subst et
      obtain ⟨t1, h1, h2, h3, h4, h5⟩ := ih t2 R2 hI (by rwa [Finset.insert_eq_of_mem hm]) er
      refine ⟨t1, ?_, h2, h3, h4, h5⟩
      rw [exec, e2]
      exact h1
    · obtain ⟨hJ2, hk⟩ := hins t S w R hI hJ (hw.resolve_left hm) hl hm
      obtain ⟨k1, k2⟩ := hk t2 e2 R2
      obtain ⟨t1, h1, h2, h3, h4, h5⟩ := ih t2 R2 k1 hJ2 er
      refine ⟨t1, ?_, h2, h3, h4, fun v n h => h5 v n (k2 v n h)⟩
      rw [exec, e2]
      exact h1

theorem keeps_never {S0 : Finset Str} (h0 : ∀ w ∈ S0, Lower w) : Keeps I (fun S => S ⊆ S0) never :=
  keeps_of (J := fun S => S ⊆ S0) (fresh := never) (fun S w h _ => (Finset.erase_subset w S).trans h)
    (fun _ h w hw => h0 w (h hw)) (fun _ _ _ _ _ _ h => False.elim h)

/-- words with different first letters -/
def Apart (S : Finset Str) : Prop := (∀ w ∈ S, Lower w) ∧ ∀ u ∈ S, ∀ w ∈ S, u.head? = w.head? → u = w

theorem prefix_snoc_of_low {v u : Str} (hv : ∀ c ∈ v, lower c) (h : v <+: u ++ [1]) : v <+: u := by
  rcases List.prefix_concat_iff.1 h with h | h
  · exfalso
    have := hv 1 (by rw [h]; simp)
    exact absurd this.1 (by decide)
  · exact h

theorem head_of_prefix {v u : Str} (hne : v ≠ []) (h : v <+: u) : u.head? = v.head? := by
  obtain ⟨y, rfl⟩ := h
  cases v with
  | nil => exact absurd rfl hne
  | cons c v => rfl

theorem keeps_apart : Keeps (fun v => v = []) Apart newLetter := by
  refine keeps_of (fun S w h _ => ?_) (fun S h => h.1) (fun t S w R hI hJ hf hl hm => ⟨?_, fun t1 e1 R1 => ?_⟩)
  · exact ⟨fun u hu => h.1 u (Finset.mem_of_mem_erase hu), fun u hu w' hw' => h.2 u (Finset.mem_of_mem_erase hu) w'
      (Finset.mem_of_mem_erase hw')⟩
  · refine ⟨fun u hu => ?_, fun u hu u' hu' e => ?_⟩
    · rcases Finset.mem_insert.1 hu with rfl | hu
      · exact hl
      · exact hJ.1 u hu
    · rcases Finset.mem_insert.1 hu with rfl | h1 <;> rcases Finset.mem_insert.1 hu' with rfl | h2
      · rfl
      · exact absurd e.symm (hf _ ‹_ ∈ S›)
      · exact absurd e (hf _ ‹_ ∈ S›)
      · exact hJ.2 u ‹_ ∈ S› u' ‹_ ∈ S› e
  · have key : ∀ v, Inn t1 v ↔ v = [] := by
      intro v
      constructor
      · intro h
        rcases (insert_inner R hl e1).1 v h with h1 | ⟨h1, x, hx, hne, h2⟩
        · exact (hI v).1 h1
        · by_contra hv
          obtain ⟨u, hu, rfl⟩ := (R.word x).1 hx
          have hlv := h.low R1
          have p1 := prefix_snoc_of_low hlv h1
          have p2 := prefix_snoc_of_low hlv h2
          exact hf u hu ((head_of_prefix hv p2).trans (head_of_prefix hv p1).symm)
      · rintro rfl
        exact Inn.root R1
    refine ⟨key, fun v n h => ?_⟩
    have hv : v = [] := (hI v).1 ⟨n, h.1, h.2⟩
    subst hv
    have hn := (h.1.nil_iff R.inv.core).1 rfl
    subst hn
    exact ⟨.root, R1.inv.core.b0⟩

/-! ### words with different first letters -/

/-- the places below the root from a slot on -/
def rootPlaces (d : Nat) : List Str := (List.range d).map fun i : Nat => [ch (28 - (d : Int) + (i : Int))]

theorem places_root : ∀ d : Nat, d ≤ 27 → Places (fun v => v = []) ([], 28 - (d : Int)) (rootPlaces d) := by
  intro d
  induction d with
  | zero => intro _; exact .stop ⟨by simp, by simp⟩
  | succ d ih =>
    intro hd
    have h := Places.next (I := fun v => v = []) (v := []) (o := 28 - ((d + 1 : Nat) : Int)) (by omega) (by simp)
      (by rw [show 28 - ((d + 1 : Nat) : Int) + 1 = 28 - (d : Int) by omega]; exact ih (by omega))
    have e : rootPlaces (d + 1) = ([] ++ [ch (28 - ((d + 1 : Nat) : Int))]) :: rootPlaces d := by
      unfold rootPlaces
      rw [List.range_succ_eq_map, List.map_cons, List.map_map]
      congr 1
      · simp
      apply List.map_congr_left
      intro i _
      simp only [Function.comp]
      congr 2
      push_cast
      omega
    rw [e]
    exact h

def place : Option Byte → Str
  | none => [1]
  | some c => [c]

theorem letters_places : letters.map place = rootPlaces 27 := by
  decide +kernel

theorem begins_through {l : Option Byte} {w : Str} (hl : l ∈ letters) (hw : Lower w) :
    begins l w ↔ through (place l) w := by
  have hno : some (1 : Byte) ∉ letters := by decide +kernel
  unfold begins through place
  cases l with
  | none =>
    cases w with
    | nil => simp
    | cons c w =>
      have : c ≠ 1 := by rintro rfl; exact absurd (hw 1 (by simp)).1 (by decide)
      simp [List.cons_prefix_cons, this.symm]
  | some d =>
    have hd : d ≠ 1 := by rintro rfl; exact hno hl
    cases w with
    | nil => simp [List.cons_prefix_cons, hd]
    | cons c w => simp [List.cons_prefix_cons, eq_comm]

theorem does_apart {S : Finset Str} {b : Body σ} {r : σ × Finset Str × Bool} (h : Does newLetter S b r) (hJ : Apart S) :
    Apart r.2.1 := by
  induction h with
  | done => exact hJ
  | stop => exact hJ
  | contain _ _ ih => exact ih hJ
  | size _ ih => exact ih hJ
  | remove hw _ ih =>
    exact ih ⟨fun u hu => hJ.1 u (Finset.mem_of_mem_erase hu), fun u hu w' hw' => hJ.2 u (Finset.mem_of_mem_erase hu) w'
      (Finset.mem_of_mem_erase hw')⟩
  | @insert S w b r hl hw _ ih =>
    refine ih ⟨fun u hu => ?_, fun u hu u' hu' e => ?_⟩
    · rcases Finset.mem_insert.1 hu with rfl | hu
      · exact hl
      · exact hJ.1 u hu
    · rcases hw with hm | hf
      · rw [Finset.insert_eq_of_mem hm] at hu hu'
        exact hJ.2 u hu u' hu' e
      · rcases Finset.mem_insert.1 hu with rfl | h1 <;> rcases Finset.mem_insert.1 hu' with rfl | h2
        · rfl
        · exact absurd e.symm (hf _ ‹_ ∈ S›)
        · exact absurd e (hf _ ‹_ ∈ S›)
        · exact hJ.2 u ‹_ ∈ S› u' ‹_ ∈ S› e

theorem sweep_letters {body : σ → Str → Body σ} {ls : List (Option Byte)} {st : σ} {S : Finset Str} {r : σ × Finset Str × List Str}
    (h : Sweep newLetter begins body ls st S r) (hls : ∀ l ∈ ls, l ∈ letters) (hJ : Apart S) :
    Sweep newLetter through body (ls.map place) st S r := by
  induction h with
  | finish => exact .finish
  | empty hn _ ih =>
    exact .empty (fun w hw ht => hn w hw ((begins_through (hls _ (by simp)) (hJ.1 w hw)).2 ht))
      (ih (fun l hl => hls l (by simp [hl])) hJ)
  | round hw hb hd _ ih =>
    exact .round hw ((begins_through (hls _ (by simp)) (hJ.1 _ hw)).1 hb) hd
      (ih (fun l hl => hls l (by simp [hl])) (does_apart hd hJ))
  | leave hw hb hd => exact .leave hw ((begins_through (hls _ (by simp)) (hJ.1 _ hw)).1 hb) hd

/-! ### bodies that add nothing -/

theorem does_sub {S : Finset Str} {b : Body σ} {r : σ × Finset Str × Bool} (h : Does never S b r) : r.2.1 ⊆ S := by
  induction h with
  | done => exact Finset.Subset.refl _
  | stop => exact Finset.Subset.refl _
  | contain _ _ ih => exact ih
  | size _ ih => exact ih
  | remove _ _ ih => exact ih.trans (Finset.erase_subset _ _)
  | insert _ hw _ ih => rw [Finset.insert_eq_of_mem (hw.resolve_right id)] at ih; exact ih

/-- The words of `S` at the places are those of `l`, in this order. -/
inductive Shown (S : Finset Str) : List Str → List Str → Prop where
  | nil : Shown S [] []
  | skip {p : Str} {ps l : List Str} : (∀ w ∈ S, ¬ through p w) → Shown S ps l → Shown S (p :: ps) l
  | show_ {p w : Str} {ps l : List Str} : w ∈ S → through p w → (∀ u ∈ S, through p u → u = w) → Shown S ps l →
      Shown S (p :: ps) (w :: l)

theorem sweep_shown {body : σ → Str → Body σ} {S0 : Finset Str} {ps l : List Str} (hs : Shown S0 ps l) :
    ∀ {st : σ} {S : Finset Str} {r : σ × Finset Str × List Str}, S ⊆ S0 → Sweep never Eq body l st S r →
      Sweep never through body ps st S r := by
  induction hs with
  | nil => intro st S r _ h; cases h; exact .finish
  | skip hn _ ih => intro st S r hS h; exact .empty (fun w hw => hn w (hS hw)) (ih hS h)
  | show_ hw ht hu _ ih =>
    intro st S r hS h
    cases h with
    | empty hn h => exact .empty (fun w hw' ht' => hn w hw' (hu w (hS hw') ht').symm) (ih hS h)
    | round hm e hd h =>
      subst e
      exact .round hm ht hd (ih ((does_sub hd).trans hS) h)
    | leave hm e hd =>
      subst e
      exact .leave hm ht hd

theorem shown_of_runs {t : St} {S : Finset Str} (R : Rep lower lcode t S) {s s' : Str × Int} {l : List Str} (h : Runs t s l s')
    (hs : Ok t s) (hstop : Stop s') : ∃ ps, Places (Inn t) s ps ∧ Shown S ps l := by
  induction h with
  | refl s => exact ⟨[], .stop hstop, .nil⟩
  | step h1 _ ih =>
    obtain ⟨ps, ih1, ih2⟩ := ih (h1.ok R hs) hstop
    cases h1 with
    | skip ho hn =>
      refine ⟨_, .next ho (fun ⟨n, hn', _⟩ => hn n hn') ih1, .skip (fun w hw ht => ?_) ih2⟩
      obtain ⟨m, hm, _⟩ := holds_of R hs.1 (fun ⟨n, hn', _⟩ => hn n hn') hw ht
      exact hn m hm
    | leaf ho hw =>
      exact ⟨_, .next ho hw.not_inn ih1, .show_ (hw.mem R) hw.pre
        (fun u hu ht => (holds_of R hs.1 hw.not_inn hu ht).det hw) ih2⟩
    | down ho hi => exact ⟨_, .down ho hi ih1, ih2⟩
    | pop ho => exact ⟨_, .pop ho ih1, ih2⟩

theorem runs_of_reach {t : St} {s s' : Str × Int} (h : Reach t s s') : ∃ l, Runs t s l s' := by
  induction h using Relation.ReflTransGen.head_induction_on with
  | refl => exact ⟨[], .refl _⟩
  | head h _ ih =>
    obtain ⟨a, h⟩ := h
    obtain ⟨l, ih⟩ := ih
    exact ⟨_, .step h ih⟩

theorem has_of {t : St} {S : Finset Str} (R : Rep lower lcode t S) : Has t S :=
  ⟨R.size, fun _ hw => contain_rep lower_alpha lower_maps R hw⟩

theorem apart_of {ops : List (Bool × Str)} (hl : ∀ op ∈ ops, Lower op.2) (hF : ∀ v, v ≠ [] → ¬ Fork ops v) :
    Apart (words ops) := by
  refine ⟨words_lower ops hl, fun u hu w hw e => ?_⟩
  by_contra hne
  cases u with
  | nil =>
    cases w with
    | nil => exact hne rfl
    | cons d w => simp at e
  | cons c u =>
    cases w with
    | nil => simp at e
    | cons d w =>
      simp only [List.head?_cons, Option.some.injEq] at e
      subst e
      exact hF [c] (by simp) ⟨ops, List.prefix_refl _, _, hu, _, hw, hne, by simp, by simp⟩

/-- the loop which removes some of the words -/
theorem sweep_filter (q : Str → Bool) : ∀ (l : List Str) (S : Finset Str), l.Nodup → (∀ w ∈ l, w ∈ S) →
    Sweep never Eq (fun (_ : Unit) s => if q s then .remove s (.done ()) else .done ()) l () S
      ((), S.filter (fun w => ¬ (w ∈ l ∧ q w = true)), l) := by
  intro l
  induction l with
  | nil =>
    intro S _ _
    have : S.filter (fun w => ¬ (w ∈ ([] : List Str) ∧ q w = true)) = S := by simp
    rw [this]
    exact .finish
  | cons w l ih =>
    intro S hn hS
    obtain ⟨hn1, hn2⟩ := List.nodup_cons.1 hn
    have hw := hS w (by simp)
    by_cases hq : q w = true
    · have h := ih (S.erase w) hn2 (fun u hu => Finset.mem_erase.2 ⟨fun e => hn1 (e ▸ hu), hS u (by simp [hu])⟩)
      have e : (S.erase w).filter (fun u => ¬ (u ∈ l ∧ q u = true)) = S.filter (fun u => ¬ (u ∈ w :: l ∧ q u = true)) := by
        ext u
        simp only [Finset.mem_filter, Finset.mem_erase, List.mem_cons]
        constructor
        · rintro ⟨⟨h1, h2⟩, h3⟩
          exact ⟨h2, fun ⟨h4, h5⟩ => h3 ⟨h4.resolve_left h1, h5⟩⟩
        · rintro ⟨h1, h2⟩
          exact ⟨⟨fun e => h2 ⟨.inl e, e ▸ hq⟩, h1⟩, fun ⟨h3, h4⟩ => h2 ⟨.inr h3, h4⟩⟩
      rw [e] at h
      refine .round hw rfl ?_ h
      rw [if_pos hq]
      exact .remove hw .done
    · have h := ih S hn2 (fun u hu => hS u (by simp [hu]))
      have e : S.filter (fun u => ¬ (u ∈ l ∧ q u = true)) = S.filter (fun u => ¬ (u ∈ w :: l ∧ q u = true)) := by
        ext u
        simp only [Finset.mem_filter, List.mem_cons]
        refine and_congr_right fun _ => not_congr ?_
        constructor
        · rintro ⟨h1, h2⟩
          exact ⟨.inr h1, h2⟩
        · rintro ⟨h1, h2⟩
          rcases h1 with rfl | h1
          · exact absurd h2 hq
          · exact ⟨h1, h2⟩
      rw [e] at h
      refine .round hw rfl ?_ h
      rw [if_neg hq]
      exact .done

end Trie.Loop
