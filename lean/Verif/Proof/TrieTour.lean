import Verif.Proof.TrieIter
import Verif.Spec.TrieTour
import Mathlib.Logic.Relation
import Mathlib.Tactic.Linarith

/-! # The way of the iterator through the tree -/

namespace Trie
open Cpp Spec

/-! ### inner nodes and shared beginnings -/

section
variable {A : Byte → Prop} {code : Byte → Int}

/-- Every inner node but the root lies on the way to two words. -/
def Branch (A : Byte → Prop) (code : Byte → Int) (st : St) : Prop :=
  ∀ u, u ≠ [] → st.Inner A code u → ∃ x y, st.Word A code x ∧ st.Word A code y ∧ x ≠ y ∧ u <+: x ∧ u <+: y

theorem insert_branch (al : Alpha A code) {ms mo : Mapper} (hms : Maps A code ms) (hmo : Maps A code mo) {st : St} {S : Finset Str}
    (R : Rep A code st S) (B : Branch A code st) {w : Str} (hw : ∀ c ∈ w, A c) :
    ∃ st', insert ms mo st w = .ok st' ∧ Rep A code st' (Insert.insert w S) ∧ Branch A code st' := by
  obtain ⟨st', e, R'⟩ := insert_rep al hms hmo R hw
  refine ⟨st', e, R', ?_⟩
  unfold insert at e
  rw [contain_rep al hms R hw] at e
  simp only [Out.ok_bind] at e
  by_cases hm : w ∈ S
  · rw [decide_eq_true hm, if_pos rfl] at e
    injection e with e
    rw [← e]; exact B
  · rw [decide_eq_false hm, if_neg (by simp)] at e
    have hnot : ¬ st.Word A code ([] ++ (w ++ [1])) := by rw [List.nil_append, R.mem]; exact hm
    obtain ⟨st1, e1, -, -, hW, hI, -⟩ := insertGo_ok al R.inv hms hmo (w ++ [1]) [] 0 (term_of hw) .root R.inv.core.b0 hnot
    rw [show endChar = 1 from rfl, e1] at e
    simp only [Out.ok_bind] at e
    injection e with e
    subst e
    intro u hu hin
    rcases hI u hin with h | ⟨h1, x, hx, h2⟩
    · obtain ⟨x, y, h1, h2, h3⟩ := B u hu h
      exact ⟨x, y, (hW x).2 (.inl h1), (hW y).2 (.inl h2), h3⟩
    · exact ⟨x, [] ++ (w ++ [1]), (hW x).2 (.inl hx), (hW _).2 (.inr rfl), fun e => hnot (e ▸ hx), h2, h1⟩

end

theorem build_branch (ws : List Str) (hl : ∀ w ∈ ws, Lower w) :
    ∃ st, build ws = .ok st ∧ Rep lower lcode st ws.toFinset ∧ Branch lower lcode st := by
  induction ws using List.reverseRecOn with
  | nil =>
    obtain ⟨st, e, R⟩ := new_rep lower_alpha
    refine ⟨st, by unfold build; rw [e]; rfl, R, ?_⟩
    rintro u hu ⟨n, hp, hb⟩
    exfalso
    have hk : ∀ s, st.k s = -1 := by
      unfold new at e
      rw [AA.set_ok _ (Int.le_refl 0)] at e
      injection e with e
      subst e
      intro s
      show (AA.new 26 (-1) : AA Int).at s = -1
      unfold AA.at AA.new; simp
    rcases hp.alloc R.inv.core with h | h
    · exact hu ((hp.nil_iff R.inv.core).2 h)
    · exact h (hk n)
  | append_singleton ws w ih =>
    obtain ⟨st, e, R, B⟩ := ih (fun u h => hl u (by simp [h]))
    obtain ⟨st', e', R', B'⟩ := insert_branch lower_alpha lower_maps lower_maps R B (hl w (by simp))
    refine ⟨st', ?_, ?_, B'⟩
    · unfold build at e ⊢
      obtain ⟨s0, e0, e1⟩ := Out.bind_eq_ok.1 e
      rw [e0]
      simp only [Out.ok_bind]
      rw [List.foldlM_append, e1]
      simp only [Out.ok_bind, List.foldlM_cons, List.foldlM_nil]
      rw [e']
      rfl
    · have : (ws ++ [w]).toFinset = Insert.insert w ws.toFinset := by
        ext x; simp
      rw [this]; exact R'

/-- The way of letters `l` ends at the leaf with the word `w`. -/
def Holds (st : St) (l w : Str) : Prop :=
  ∃ t, Path lower lcode st.b st.k l t ∧ ((st.b t < -1 ∧ w ++ [1] = l ++ st.T (-st.b t - 2)) ∨ (st.b t = -1 ∧ w ++ [1] = l))

def Inn (st : St) (v : Str) : Prop := st.Inner lower lcode v

section
variable {st : St} {S : Finset Str}

theorem Inn.root (R : Rep lower lcode st S) : Inn st [] := ⟨0, .root, R.inv.core.b0⟩

theorem Inn.low (R : Rep lower lcode st S) {v : Str} (h : Inn st v) : ∀ c ∈ v, lower c := by
  have C := R.inv.core
  obtain ⟨n, hp, hb⟩ := h
  clear R
  induction hp with
  | root => simp
  | step c hp hb' hc hk ih =>
    rename_i w n
    intro d hd
    rcases List.mem_append.1 hd with hd | hd
    · exact ih hb' d hd
    · rw [List.mem_singleton] at hd
      subst hd
      rcases hc with rfl | hc
      · exfalso
        have hn0 := C.nonneg (hp.alloc C)
        have hks : st.k (st.b n + lcode 1) ≠ -1 := by omega
        rcases C.leafEnd _ hks (by rw [hk]; have : lcode 1 = 1 := rfl; omega) with h | h <;> omega
      · exact hc

theorem Holds.mem (R : Rep lower lcode st S) {l w : Str} (h : Holds st l w) : w ∈ S := by
  obtain ⟨t, hp, h⟩ := h
  rw [← R.mem]
  refine ⟨l, t, hp, ?_, h⟩
  rintro rfl
  have := (hp.nil_iff R.inv.core).1 rfl
  have hb := R.inv.core.b0
  subst this
  rcases h with h | h <;> omega

theorem Holds.ex (R : Rep lower lcode st S) {w : Str} (h : w ∈ S) : ∃ l, Holds st l w := by
  obtain ⟨l, t, hp, -, h⟩ := (R.mem w).2 h
  exact ⟨l, t, hp, h⟩

theorem Holds.pre {l w : Str} (h : Holds st l w) : l <+: w ++ [1] := by
  obtain ⟨t, hp, ⟨_, h⟩ | ⟨_, h⟩⟩ := h
  · rw [h]; exact List.prefix_append _ _
  · rw [h]

theorem Holds.not_inn {l w : Str} (h : Holds st l w) : ¬ Inn st l := by
  rintro ⟨n, hn, hb⟩
  obtain ⟨t, hp, h⟩ := h
  have := Path.det _ hn hp
  subst this
  omega

theorem Holds.det {l w w' : Str} (h : Holds st l w) (h' : Holds st l w') : w = w' := by
  obtain ⟨t, hp, h⟩ := h
  obtain ⟨t', hp', h'⟩ := h'
  have := Path.det _ hp hp'
  subst this
  rcases h with h | h <;> rcases h' with h' | h'
  · exact List.append_cancel_right (h.2.trans h'.2.symm)
  · omega
  · omega
  · exact List.append_cancel_right (h.2.trans h'.2.symm)

/-- above a node all nodes are inner nodes -/
theorem inn_of_path {v : Str} {c : Byte} {y : Str} {t : Int} (h : Path lower lcode st.b st.k (v ++ c :: y) t) : Inn st v := by
  obtain ⟨m, hm, h | h⟩ := h.prefix
  · simp at h
  · exact ⟨m, hm, h.2⟩

theorem path_of_path {v y : Str} {t : Int} (h : Path lower lcode st.b st.k (v ++ y) t) :
    ∃ s, Path lower lcode st.b st.k v s := by
  obtain ⟨m, hm, _⟩ := h.prefix
  exact ⟨m, hm⟩

/-- an inner node on the way to a word is above its leaf -/
theorem Holds.below {l w v : Str} (h : Holds st l w) (hv : Inn st v) (hpre : v <+: w ++ [1]) : ∃ c y, l = v ++ c :: y := by
  rcases List.prefix_or_prefix_of_prefix h.pre hpre with ⟨y, e⟩ | ⟨y, e⟩
  · exfalso
    obtain ⟨n, hn, hb⟩ := hv
    cases y with
    | nil => rw [List.append_nil] at e; exact h.not_inn ⟨n, e ▸ hn, hb⟩
    | cons c y => exact h.not_inn (inn_of_path (e ▸ hn))
  · cases y with
    | nil => rw [List.append_nil] at e; exact absurd (e ▸ hv) h.not_inn
    | cons c y => exact ⟨c, y, e.symm⟩

theorem Inn.shared (R : Rep lower lcode st S) (B : Branch lower lcode st) {v : Str} (hne : v ≠ []) (h : Inn st v) :
    ∃ u ∈ S, ∃ w ∈ S, u ≠ w ∧ v <+: u ∧ v <+: w := by
  have hlow := h.low R
  obtain ⟨x, y, hx, hy, hxy, h1, h2⟩ := B v hne h
  obtain ⟨u, hu, rfl⟩ := (R.word x).1 hx
  obtain ⟨w, hw, rfl⟩ := (R.word y).1 hy
  have strip : ∀ u : Str, v <+: u ++ [1] → v <+: u := by
    intro u h
    rcases List.prefix_concat_iff.1 h with h | h
    · exfalso
      exact lower_alpha.not_end (hlow 1 (by rw [h]; simp))
    · exact h
  exact ⟨u, hu, w, hw, fun e => hxy (by rw [e]), strip u h1, strip w h2⟩

theorem Inn.of_shared (R : Rep lower lcode st S) {v u w : Str} (hu : u ∈ S) (hw : w ∈ S) (hne : u ≠ w) (h1 : v <+: u)
    (h2 : v <+: w) : Inn st v := by
  obtain ⟨l, hl⟩ := Holds.ex R hu
  obtain ⟨l', hl'⟩ := Holds.ex R hw
  have h1' : v <+: u ++ [1] := h1.trans (List.prefix_append _ _)
  have h2' : v <+: w ++ [1] := h2.trans (List.prefix_append _ _)
  have key : ∀ {l u : Str}, Holds st l u → v <+: u ++ [1] → Inn st v ∨ l <+: v := by
    intro l u hl h1
    rcases List.prefix_or_prefix_of_prefix hl.pre h1 with h | ⟨y, e⟩
    · exact .inr h
    · cases y with
      | nil => rw [List.append_nil] at e; exact .inr (by rw [e])
      | cons c y =>
        obtain ⟨t, hp, _⟩ := hl
        exact .inl (inn_of_path (e ▸ hp))
  rcases key hl h1' with h | h
  · exact h
  rcases key hl' h2' with h' | h'
  · exact h'
  exfalso
  have hll : l = l' := by
    rcases List.prefix_or_prefix_of_prefix h h' with ⟨y, e⟩ | ⟨y, e⟩
    · cases y with
      | nil => simpa using e
      | cons c y =>
        obtain ⟨t, hp, _⟩ := hl'
        exact absurd (inn_of_path (e ▸ hp)) hl.not_inn
    · cases y with
      | nil => simpa using e.symm
      | cons c y =>
        obtain ⟨t, hp, _⟩ := hl
        exact absurd (inn_of_path (e ▸ hp)) hl'.not_inn
  subst hll
  exact hne (hl.det hl')

/-- a child is on the way to a word -/
theorem path_word (R : Rep lower lcode st S) {v : Str} {c : Byte} {t : Int}
    (h : Path lower lcode st.b st.k (v ++ [c]) t) : (Inn st (v ++ [c])) ∨ ∃ w, Holds st (v ++ [c]) w := by
  have C := R.inv.core
  by_cases hb : 0 ≤ st.b t
  · exact .inl ⟨t, h, hb⟩
  · right
    obtain ⟨n, hn, hbn, hc, hk, e⟩ := h.last
    have hlow := Inn.low R ⟨n, hn, hbn⟩
    have hn0 := C.nonneg (hn.alloc C)
    have hks : st.k t ≠ -1 := by rw [e, hk]; omega
    have hoff : t - st.b (st.k t) = lcode c := by rw [e, hk]; omega
    rcases hc with rfl | hc
    · refine ⟨v, t, h, ?_⟩
      rcases C.leafEnd t hks (by rw [hoff]; rfl) with g | g
      · exact .inr ⟨g, rfl⟩
      · exact .inl ⟨g.1, by rw [g.2]; simp⟩
    · rcases C.leafLet t hks (by rw [hoff]; have := lower_alpha.range c hc; omega) with g | g
      · omega
      · obtain ⟨l, hl, el⟩ := g.2
        exact ⟨v ++ [c] ++ l, t, h, .inl ⟨g.1, by rw [el]; simp⟩⟩

theorem child_of_word (R : Rep lower lcode st S) {v w : Str} {c : Byte} (hv : Inn st v) (hw : w ∈ S) (h : v ++ [c] <+: w ++ [1]) :
    ∃ t, Path lower lcode st.b st.k (v ++ [c]) t := by
  obtain ⟨l, hl⟩ := Holds.ex R hw
  obtain ⟨d, y, e⟩ := hl.below hv ((List.prefix_append _ _).trans h)
  have hd : d = c := by
    have h1 := hl.pre
    rw [e] at h1
    obtain ⟨a, ha⟩ := h
    obtain ⟨b, hb⟩ := h1
    rw [← hb] at ha
    simp only [List.append_assoc, List.append_cancel_left_eq, List.cons_append, List.cons.injEq] at ha
    exact ha.1.symm
  subst hd
  obtain ⟨t, hp, _⟩ := hl
  rw [e, show v ++ d :: y = (v ++ [d]) ++ y by simp] at hp
  exact path_of_path hp

end

/-! ### the letters by number -/

/-- the character with the number `o` -/
def ch (o : Int) : Byte := if o = 1 then 1 else mapInt o

theorem ch_lcode {c : Byte} (h : Valid lower c) : ch (lcode c) = c := by
  unfold ch
  rcases h with rfl | h
  · rfl
  · rw [if_neg (by have := lower_alpha.range c h; omega), mapInt_lcode c h]

theorem ch_spec {o : Int} (h1 : 1 ≤ o) (h2 : o < 28) : Valid lower (ch o) ∧ lcode (ch o) = o := by
  by_cases h : o = 1
  · subst h; exact ⟨.inl rfl, rfl⟩
  · obtain ⟨c, hc, e⟩ := lcode_surj (i := o) (by omega) (by omega)
    rw [← e, ch_lcode (.inr hc)]
    exact ⟨.inr hc, rfl⟩

theorem lcode_lt {c d : Byte} (hc : lower c) (hd : lower d) : lcode c < lcode d ↔ c < d := by
  have g1 : 97 ≤ c.toNat := hc.1
  have g2 : 97 ≤ d.toNat := hd.1
  unfold lcode
  rw [if_neg (by rintro rfl; simp at g1), if_neg (by rintro rfl; simp at g2), UInt8.lt_iff_toNat_lt]
  omega

/-! ### one step -/

/-- The iterator stands at the inner node `v` and looks at the slot `o`. -/
inductive Step (st : St) : Str × Int → List Str → Str × Int → Prop where
  | skip {v : Str} {o : Int} : o < 28 → (∀ t, ¬ Path lower lcode st.b st.k (v ++ [ch o]) t) → Step st (v, o) [] (v, o + 1)
  | leaf {v : Str} {o : Int} {w : Str} : o < 28 → Holds st (v ++ [ch o]) w → Step st (v, o) [w] (v, o + 1)
  | down {v : Str} {o : Int} : o < 28 → Inn st (v ++ [ch o]) → Step st (v, o) [] (v ++ [ch o], 1)
  | pop {v : Str} {x c : Byte} {o : Int} : 28 ≤ o → Step st (v ++ [x] ++ [c], o) [] (v ++ [x], lcode x + 1)

def Stop (s : Str × Int) : Prop := s.1.length ≤ 1 ∧ 28 ≤ s.2

/-- a place the iterator may be at -/
def Ok (st : St) (s : Str × Int) : Prop := Inn st s.1 ∧ 1 ≤ s.2

theorem Step.ok {st : St} {S : Finset Str} (R : Rep lower lcode st S) {s s' : Str × Int} {a : List Str} (h : Step st s a s')
    (hs : Ok st s) : Ok st s' := by
  cases h with
  | skip => exact ⟨hs.1, by have := hs.2; dsimp only at *; omega⟩
  | leaf => exact ⟨hs.1, by have := hs.2; dsimp only at *; omega⟩
  | down _ h => exact ⟨h, Int.le_refl _⟩
  | pop =>
    rename_i v x c o _
    have hl := hs.1.low R
    have hx := lower_alpha.range x (hl x (by simp))
    obtain ⟨n, hn, _⟩ := hs.1
    exact ⟨inn_of_path (c := c) (y := []) hn, by dsimp only; omega⟩

theorem Step.stop {st : St} {s s' : Str × Int} {a : List Str} (h : Step st s a s') : ¬ Stop s := by
  rintro ⟨h1, h2⟩
  cases h with
  | skip h => dsimp only at h2; omega
  | leaf h => dsimp only at h2; omega
  | down h => dsimp only at h2; omega
  | pop => simp at h1

theorem Step.det {st : St} {s s1 s2 : Str × Int} {a b : List Str} (h1 : Step st s a s1) (h2 : Step st s b s2) :
    a = b ∧ s1 = s2 := by
  generalize e : s = s0 at h2
  cases h1 with
  | skip ho hn =>
    cases h2 with
    | skip => injection e with e1 e2; subst e1; subst e2; exact ⟨rfl, rfl⟩
    | leaf _ h =>
      injection e with e1 e2; subst e1; subst e2
      obtain ⟨t, hp, _⟩ := h
      exact absurd hp (hn t)
    | down _ h =>
      injection e with e1 e2; subst e1; subst e2
      obtain ⟨t, hp, _⟩ := h
      exact absurd hp (hn t)
    | pop h => injection e with e1 e2; omega
  | leaf ho hw =>
    cases h2 with
    | skip _ hn =>
      injection e with e1 e2; subst e1; subst e2
      obtain ⟨t, hp, _⟩ := hw
      exact absurd hp (hn t)
    | leaf _ h => injection e with e1 e2; subst e1; subst e2; exact ⟨by rw [hw.det h], rfl⟩
    | down _ h => injection e with e1 e2; subst e1; subst e2; exact absurd h hw.not_inn
    | pop h => injection e with e1 e2; omega
  | down ho hi =>
    cases h2 with
    | skip _ hn =>
      injection e with e1 e2; subst e1; subst e2
      obtain ⟨t, hp, _⟩ := hi
      exact absurd hp (hn t)
    | leaf _ h => injection e with e1 e2; subst e1; subst e2; exact absurd hi h.not_inn
    | down => injection e with e1 e2; subst e1; subst e2; exact ⟨rfl, rfl⟩
    | pop h => injection e with e1 e2; omega
  | pop ho =>
    cases h2 with
    | skip h => injection e with e1 e2; omega
    | leaf h => injection e with e1 e2; omega
    | down h => injection e with e1 e2; omega
    | pop h =>
      injection e with e1 e2
      have h1 := List.append_inj' e1 rfl
      have h2 := List.append_inj' h1.1 rfl
      obtain ⟨h3, h4⟩ := h2
      injection h4 with h4
      subst h3; subst h4
      exact ⟨rfl, rfl⟩

/-! ### `visit` -/

section
variable {st : St} {S : Finset Str}

theorem no_child {v : Str} {n o : Int} (hp : Path lower lcode st.b st.k v n) (hb : 0 ≤ st.b n)
    (ho : 1 ≤ o) (ho' : o < 28) : (∃ t, Path lower lcode st.b st.k (v ++ [ch o]) t) ↔ st.k (st.b n + o) = n := by
  obtain ⟨h1, h2⟩ := ch_spec ho ho'
  constructor
  · rintro ⟨t, ht⟩
    obtain ⟨m, hm, _, _, hk, _⟩ := ht.last
    have := Path.det _ hm hp
    subst this
    rwa [h2] at hk
  · intro h
    exact ⟨_, Path.step (ch o) hp hb h1 (by rw [h2]; exact h)⟩

theorem visit_skip (R : Rep lower lcode st S) {v : Str} {n o : Int} (hp : Path lower lcode st.b st.k v n) (hb : 0 ≤ st.b n)
    (ho : 1 ≤ o) (ho' : o < 28) (hn : ∀ t, ¬ Path lower lcode st.b st.k (v ++ [ch o]) t) (f : Nat) (buf : List Int) :
    visit st (f + 1) n o buf = visit st f n (o + 1) buf := by
  have C := R.inv.core
  have hn0 := C.nonneg (hp.alloc C)
  have hk : ¬ st.k (st.b n + o) = n := fun h => by
    obtain ⟨t, ht⟩ := (no_child hp hb ho ho').2 h
    exact hn t ht
  rw [visit, if_pos ho', AA.getc_ok _ hn0]
  simp only [Out.ok_bind]
  rw [show st.base.at n = st.b n from rfl, AA.getc_ok _ (by omega)]
  simp only [Out.ok_bind]
  rw [show st.check.at (st.b n + o) = st.k (st.b n + o) from rfl, if_pos hk]

theorem visit_leaf (R : Rep lower lcode st S) {v w : Str} {n o : Int} (hp : Path lower lcode st.b st.k v n) (hb : 0 ≤ st.b n)
    (ho : 1 ≤ o) (ho' : o < 28) (h : Holds st (v ++ [ch o]) w) (f : Nat) :
    ∃ e, visit st (f + 1) n o (v.map lcode) = .ok (true, n, o + 1, v.map lcode ++ [o, e]) ∧
      At st n (o + 1) (v.map lcode ++ [o, e]) v o e := by
  have C := R.inv.core
  have hn0 := C.nonneg (hp.alloc C)
  have hlow := Inn.low R ⟨n, hp, hb⟩
  obtain ⟨t, ht, hbt⟩ := h
  have hk : st.k (st.b n + o) = n := (no_child hp hb ho ho').1 ⟨t, ht⟩
  have et : t = st.b n + o := by
    obtain ⟨m, hm, _, _, _, e⟩ := ht.last
    have := Path.det _ hm hp
    subst this
    rw [e, (ch_spec ho ho').2]
  subst et
  have hv : visit st (f + 1) n o (v.map lcode) = if o = 1 then .ok (true, n, o + 1, v.map lcode ++ [o, -1]) else
      if st.b (st.b n + o) < -1 then .ok (true, n, o + 1, v.map lcode ++ [o, st.b (st.b n + o)])
      else visit st f (st.b n + o) 1 (v.map lcode ++ [o]) := by
    rw [visit, if_pos ho', AA.getc_ok _ hn0]
    simp only [Out.ok_bind]
    rw [show st.base.at n = st.b n from rfl, AA.getc_ok _ (by omega)]
    simp only [Out.ok_bind]
    rw [show st.check.at (st.b n + o) = st.k (st.b n + o) from rfl, if_neg (by simpa using hk), AA.getc_ok _ (by omega)]
    rfl
  have hks : st.k (st.b n + o) ≠ -1 := by omega
  by_cases h1 : o = 1
  · rw [if_pos h1] at hv
    exact ⟨-1, hv, hp, hlow, hb, rfl, ho, by omega, rfl, hk, .inl ⟨h1, rfl⟩⟩
  · have hlt : st.b (st.b n + o) < -1 := by
      rcases C.leafLet _ hks (by rw [hk]; omega) with g | g
      · omega
      · exact g.1
    rw [if_neg h1, if_pos hlt] at hv
    exact ⟨_, hv, hp, hlow, hb, rfl, ho, by omega, rfl, hk, .inr ⟨h1, rfl, hlt⟩⟩

theorem visit_down (R : Rep lower lcode st S) {v : Str} {n o : Int} (hp : Path lower lcode st.b st.k v n) (hb : 0 ≤ st.b n)
    (ho : 1 ≤ o) (ho' : o < 28) (h : Inn st (v ++ [ch o])) :
    ∃ n', Path lower lcode st.b st.k (v ++ [ch o]) n' ∧ 0 ≤ st.b n' ∧
      ∀ f, visit st (f + 1) n o (v.map lcode) = visit st f n' 1 ((v ++ [ch o]).map lcode) := by
  have C := R.inv.core
  have hn0 := C.nonneg (hp.alloc C)
  have hch := ch_spec ho ho'
  have hne : o ≠ 1 := by
    rintro rfl
    have := h.low R (ch 1) (by simp)
    exact lower_alpha.not_end this
  obtain ⟨t, ht, hbt⟩ := h
  have hk : st.k (st.b n + o) = n := (no_child hp hb ho ho').1 ⟨t, ht⟩
  have et : t = st.b n + o := by
    obtain ⟨m, hm, _, _, _, e⟩ := ht.last
    have := Path.det _ hm hp
    subst this
    rw [e, hch.2]
  subst et
  refine ⟨_, ht, hbt, fun f => ?_⟩
  rw [visit, if_pos ho', AA.getc_ok _ hn0]
  simp only [Out.ok_bind]
  rw [show st.base.at n = st.b n from rfl, AA.getc_ok _ (by omega)]
  simp only [Out.ok_bind]
  rw [show st.check.at (st.b n + o) = st.k (st.b n + o) from rfl, if_neg (by simpa using hk), if_neg hne, AA.getc_ok _ (by omega)]
  simp only [Out.ok_bind]
  rw [show st.base.at (st.b n + o) = st.b (st.b n + o) from rfl, if_neg (by omega), List.map_append, List.map_singleton, hch.2]

theorem visit_pop (R : Rep lower lcode st S) {v : Str} {x c : Byte} {n o : Int}
    (hp : Path lower lcode st.b st.k (v ++ [x] ++ [c]) n) (ho : 28 ≤ o) :
    ∃ n', Path lower lcode st.b st.k (v ++ [x]) n' ∧ 0 ≤ st.b n' ∧
      ∀ f, visit st (f + 1) n o ((v ++ [x] ++ [c]).map lcode) = visit st f n' (lcode x + 1) ((v ++ [x]).map lcode) := by
  have C := R.inv.core
  have hn0 := C.nonneg (hp.alloc C)
  obtain ⟨n0, hp0, hb0, hc, hk, e⟩ := hp.last
  refine ⟨n0, hp0, hb0, fun f => ?_⟩
  rw [visit, if_neg (by omega), if_neg (by simp), AA.getc_ok _ hn0]
  simp only [Out.ok_bind]
  rw [show st.check.at n = st.k n from rfl, show st.k n = n0 by rw [e]; exact hk]
  congr 1
  · simp
  · simp

theorem visit_stop {v : Str} {n o : Int} (hv : v.length ≤ 1) (ho : 28 ≤ o) (f : Nat) :
    visit st (f + 1) n o (v.map lcode) = .ok (false, n, o, v.map lcode) := by
  rw [visit, if_neg (by omega), if_pos (by simpa using hv)]

/-- what the iterator shows -/
theorem deref_holds (R : Rep lower lcode st S) {n offset : Int} {buffer : List Int} {v : Str} {off e : Int} {d : Bool}
    (h : At st n offset buffer v off e) :
    ∃ w, Iter.deref mapInt st ⟨n, offset, buffer, d⟩ = .ok w ∧ Holds st (v ++ [ch off]) w := by
  have C := R.inv.core
  have hn0 := C.nonneg (h.path.alloc C)
  have hks : st.k (st.b n + off) ≠ -1 := by have := h.chk; omega
  have hch := ch_spec h.off1 (by have := h.off2; omega)
  have hp' : Path lower lcode st.b st.k (v ++ [ch off]) (st.b n + off) := by
    have := Path.step (ch off) h.path h.base hch.1 (by rw [hch.2]; exact h.chk)
    rwa [hch.2] at this
  unfold Iter.deref
  dsimp only
  rw [h.buf, derefGo_letters mapInt st v _ _ h.low mapInt_lcode, List.nil_append]
  rcases h.val with ⟨h1, h2⟩ | ⟨h1, h2, h3⟩
  · refine ⟨v, by rw [derefGo, if_pos h1], _, hp', ?_⟩
    have e1 : ch off = 1 := by rw [h1]; rfl
    rw [e1]
    rcases C.leafEnd _ hks (by rw [h.chk]; omega) with g | g
    · exact .inr ⟨g, rfl⟩
    · exact .inl ⟨g.1, by rw [g.2]; simp⟩
  · have hoff1 := h.off1
    have hT : Term lower (st.T (-e - 2)) := by
      rcases C.leafLet _ hks (by rw [h.chk]; omega) with g | g
      · omega
      · rw [h2]; exact g.2
    obtain ⟨l, hl, el⟩ := hT
    have hu := R.inv.tails.used _ hks (by omega)
    have hsz := R.inv.lens.tsz
    refine ⟨v ++ [ch off] ++ l, ?_, _, hp', .inl ⟨by omega, by rw [← h2, el]; simp⟩⟩
    rw [derefGo, if_neg h1, if_neg (by omega), derefGo, if_neg (by omega), if_pos (by omega),
      AA.get_ok _ (by omega) (by omega)]
    simp only [Out.ok_bind]
    rw [show st.tail.at (-e - 2) = l ++ [1] from el]
    unfold ch
    rw [if_neg h1]
    simp

end

end Trie
