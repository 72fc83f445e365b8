import Verif.Model.Trie
import Mathlib.Data.List.Nodup
import Mathlib.Data.List.Induction

/-! # Double-array tables as trees -/

namespace Trie
open Cpp

/-- An alphabet of at most 26 letters with their codes. -/
structure Alpha (A : Byte → Prop) (code : Byte → Int) : Prop where
  end_ : code 1 = 1
  not_end : ¬ A 1
  range : ∀ c, A c → 2 ≤ code c ∧ code c ≤ 27
  inj : ∀ c d, A c → A d → code c = code d → c = d

/-- letters followed by the end character -/
def Term (A : Byte → Prop) (u : Str) : Prop := ∃ l, (∀ c ∈ l, A c) ∧ u = l ++ [1]

def Valid (A : Byte → Prop) (c : Byte) : Prop := c = 1 ∨ A c

section
variable {A : Byte → Prop} {code : Byte → Int}

theorem Alpha.range' (al : Alpha A code) {c : Byte} (h : Valid A c) : 1 ≤ code c ∧ code c ≤ 27 := by
  rcases h with rfl | h
  · rw [al.end_]; omega
  · have := al.range c h; omega

theorem Alpha.inj' (al : Alpha A code) {c d : Byte} (h : Valid A c) (h' : Valid A d) (e : code c = code d) : c = d := by
  rcases h with rfl | h <;> rcases h' with rfl | h'
  · rfl
  · have := al.range d h'; rw [al.end_] at e; omega
  · have := al.range c h; rw [al.end_] at e; omega
  · exact al.inj c d h h' e

theorem Alpha.one (al : Alpha A code) {c : Byte} (h : Valid A c) : code c = 1 ↔ c = 1 := by
  constructor
  · intro e; exact al.inj' h (.inl rfl) (e.trans al.end_.symm)
  · rintro rfl; exact al.end_

theorem Term.cons_inv {c : Byte} {u : Str} (h : Term A (c :: u)) : (c = 1 ∧ u = []) ∨ (A c ∧ Term A u) := by
  obtain ⟨l, hl, e⟩ := h
  cases l with
  | nil => simp at e; exact .inl e
  | cons a l =>
    simp at e
    exact .inr ⟨e.1 ▸ hl a (by simp), l, fun d hd => hl d (by simp [hd]), e.2⟩

theorem Term.cons {c : Byte} {u : Str} (hc : A c) (h : Term A u) : Term A (c :: u) := by
  obtain ⟨l, hl, rfl⟩ := h
  exact ⟨c :: l, by intro d hd; rcases List.mem_cons.1 hd with rfl | hd; exacts [hc, hl d hd], rfl⟩

theorem Term.nil_not : ¬ Term A [] := by rintro ⟨l, _, e⟩; simp at e

theorem Term.end_ : Term A [1] := ⟨[], by simp, rfl⟩

/-- the node a word leads to -/
inductive Path (A : Byte → Prop) (code : Byte → Int) (b k : Int → Int) : Str → Int → Prop where
  | root : Path A code b k [] 0
  | step {w : Str} {n : Int} (c : Byte) : Path A code b k w n → 0 ≤ b n → Valid A c → k (b n + code c) = n →
      Path A code b k (w ++ [c]) (b n + code c)

/-- The tables describe a tree. -/
structure Core (A : Byte → Prop) (b k : Int → Int) (T : Int → Str) : Prop where
  k0 : k 0 = -1
  b0 : 0 ≤ b 0
  pos : ∀ s, k s ≠ -1 → 1 ≤ s
  par : ∀ s, k s ≠ -1 → k s = 0 ∨ k (k s) ≠ -1
  parb : ∀ s, k s ≠ -1 → 0 ≤ b (k s)
  off : ∀ s, k s ≠ -1 → 1 ≤ s - b (k s) ∧ s - b (k s) ≤ 27
  self : ∀ s, k s ≠ -1 → k s ≠ s
  leafEnd : ∀ s, k s ≠ -1 → s - b (k s) = 1 → b s = -1 ∨ (b s < -1 ∧ T (-b s - 2) = [])
  leafLet : ∀ s, k s ≠ -1 → s - b (k s) ≠ 1 → 0 ≤ b s ∨ (b s < -1 ∧ Term A (T (-b s - 2)))

/-- The words (with end character) stored. -/
def Word (A : Byte → Prop) (code : Byte → Int) (b k : Int → Int) (T : Int → Str) (u : Str) : Prop :=
  ∃ v t, Path A code b k v t ∧ v ≠ [] ∧ ((b t < -1 ∧ u = v ++ T (-b t - 2)) ∨ (b t = -1 ∧ u = v))

variable {b k : Int → Int} {T : Int → Str}

theorem Core.nonneg (C : Core A b k T) {s : Int} (h : s = 0 ∨ k s ≠ -1) : 0 ≤ s := by
  rcases h with rfl | h
  · omega
  · have := C.pos s h; omega

theorem Core.not_child (C : Core A b k T) {s t : Int} (h : k t ≠ -1) (hb : b s < 0) : k t ≠ s := by
  rintro rfl
  have := C.parb t h
  omega

theorem Path.alloc (C : Core A b k T) {v : Str} {s : Int} (h : Path A code b k v s) : s = 0 ∨ k s ≠ -1 := by
  induction h with
  | root => exact .inl rfl
  | step c hp hb hc hk ih =>
    right
    rw [hk]
    have := C.nonneg ih
    omega

theorem Path.nil_iff (C : Core A b k T) {v : Str} {s : Int} (h : Path A code b k v s) : v = [] ↔ s = 0 := by
  cases h with
  | root => simp
  | step c hp hb hc hk =>
    rename_i w n
    have h0 := C.nonneg (hp.alloc C)
    have : k (b n + code c) ≠ -1 := by rw [hk]; omega
    have := C.pos _ this
    simp only [List.append_eq_nil_iff, List.cons_ne_self, and_false, false_iff]
    omega

theorem Path.unique (al : Alpha A code) (C : Core A b k T) {v : Str} {s : Int} (h : Path A code b k v s) :
    ∀ {v' : Str}, Path A code b k v' s → v = v' := by
  induction h with
  | root => intro v' h'; exact ((h'.nil_iff C).2 rfl).symm
  | step c hp hb hc hk ih =>
    rename_i w n
    intro v' h'
    generalize hs : b n + code c = s at h'
    cases h' with
    | root =>
      have h0 := C.nonneg (hp.alloc C)
      rw [hs, C.k0] at hk; omega
    | step c' hp' hb' hc' hk' =>
      rename_i w' n'
      rw [hs] at hk
      have e : n = n' := hk.symm.trans hk'
      subst e
      rw [ih hp', al.inj' hc hc' (by omega)]

theorem Path.det (v : Str) : ∀ {s s' : Int}, Path A code b k v s → Path A code b k v s' → s = s' := by
  induction v using List.reverseRecOn with
  | nil =>
    intro s s' h h'
    have key : ∀ {w : Str} {x : Int}, Path A code b k w x → w = [] → x = 0 := by
      intro w x hp e
      cases hp with
      | root => rfl
      | step => simp at e
    rw [key h rfl, key h' rfl]
  | append_singleton v c ih =>
    have key : ∀ {w : Str} {x : Int}, Path A code b k w x → w = v ++ [c] →
        ∃ n, Path A code b k v n ∧ x = b n + code c := by
      intro w x hp e
      cases hp with
      | root => simp at e
      | step c' hp hb hc hk =>
        rename_i w' n
        obtain ⟨e1, e2⟩ := List.append_inj' e rfl
        subst e1
        injection e2 with e2
        subst e2
        exact ⟨n, hp, rfl⟩
    intro s s' h h'
    obtain ⟨n, hn, rfl⟩ := key h rfl
    obtain ⟨n', hn', rfl⟩ := key h' rfl
    rw [ih hn hn']

theorem Path.last {v : Str} {c : Byte} {s : Int} (h : Path A code b k (v ++ [c]) s) :
    ∃ n, Path A code b k v n ∧ 0 ≤ b n ∧ Valid A c ∧ k (b n + code c) = n ∧ s = b n + code c := by
  generalize e : v ++ [c] = w at h
  cases h with
  | root => simp at e
  | step c' hp hb hc hk =>
    rename_i w' n
    obtain ⟨e1, e2⟩ := List.append_inj' e rfl
    subst e1
    injection e2 with e2
    subst e2
    exact ⟨n, hp, hb, hc, hk, rfl⟩

/-- prefixes -/
theorem Path.prefix {v : Str} : ∀ (w : Str) {s : Int}, Path A code b k (v ++ w) s →
    ∃ m, Path A code b k v m ∧ (w = [] ∧ m = s ∨ w ≠ [] ∧ 0 ≤ b m) := by
  intro w
  induction w using List.reverseRecOn with
  | nil => intro s h; exact ⟨s, by simpa using h, .inl ⟨rfl, rfl⟩⟩
  | append_singleton w c ih =>
    intro s h
    rw [← List.append_assoc] at h
    obtain ⟨n, hn, hb, -, -, -⟩ := h.last
    obtain ⟨m, hm, h' | h'⟩ := ih hn
    · exact ⟨m, hm, .inr ⟨by simp, by rw [h'.2]; exact hb⟩⟩
    · exact ⟨m, hm, .inr ⟨by simp, h'.2⟩⟩

/-- membership, one letter at a time -/
theorem word_step {v : Str} {n : Int} (hp : Path A code b k v n) (hb : 0 ≤ b n) {c : Byte}
    (hc : Valid A c) (rest : Str) :
    Word A code b k T (v ++ c :: rest) ↔ k (b n + code c) = n ∧ ((b (b n + code c) < -1 ∧
      rest = T (-b (b n + code c) - 2)) ∨ (b (b n + code c) = -1 ∧ rest = []) ∨
      (0 ≤ b (b n + code c) ∧ Word A code b k T ((v ++ [c]) ++ rest))) := by
  constructor
  · rintro ⟨w, t, hw, hne, hcase⟩
    have hbt : b t < 0 := by rcases hcase with h | h <;> omega
    have hpre : ∃ x, v ++ c :: rest = w ++ x := by
      rcases hcase with h | h
      · exact ⟨_, h.2⟩
      · exact ⟨[], by rw [h.2]; simp⟩
    obtain ⟨x, hx⟩ := hpre
    -- `w` is longer than `v`
    have hlong : ∃ y, w = v ++ c :: y := by
      rcases List.append_eq_append_iff.1 hx with ⟨y, e1, e2⟩ | ⟨y, e1, e2⟩
      · -- w = v ++ y
        cases y with
        | nil =>
          simp at e1; subst e1
          have := Path.det _ hw hp; subst this; omega
        | cons d y => injection e2 with e2 e3; subst e2; exact ⟨y, e1⟩
      · -- v = w ++ y
        subst e1
        obtain ⟨m, hm, h | h⟩ := hp.prefix
        · have := Path.det _ hw hm; subst this; rw [h.2] at hbt; omega
        · have := Path.det _ hw hm; subst this; omega
    obtain ⟨y, rfl⟩ := hlong
    have hw' : Path A code b k ((v ++ [c]) ++ y) t := by simpa using hw
    obtain ⟨m, hm, h⟩ := hw'.prefix
    obtain ⟨n', hn', -, -, hk, rfl⟩ := hm.last
    have := Path.det _ hp hn'; subst this
    refine ⟨hk, ?_⟩
    rcases h with ⟨rfl, rfl⟩ | ⟨h1, h2⟩
    · rcases hcase with ⟨h1, h2⟩ | ⟨h1, h2⟩
      · refine .inl ⟨h1, ?_⟩
        rw [List.append_assoc] at h2
        have := List.append_cancel_left h2
        simpa using this
      · refine .inr (.inl ⟨h1, ?_⟩)
        have := List.append_cancel_left h2
        simpa using this
    · refine .inr (.inr ⟨h2, v ++ c :: y, t, hw, by simp, ?_⟩)
      simpa using hcase
  · rintro ⟨hk, h⟩
    have hp' := Path.step c hp hb hc hk
    rcases h with ⟨h1, h2⟩ | ⟨h1, h2⟩ | ⟨_, h2⟩
    · exact ⟨_, _, hp', by simp, .inl ⟨h1, by rw [← h2]; simp⟩⟩
    · exact ⟨_, _, hp', by simp, .inr ⟨h1, by rw [h2]⟩⟩
    · simpa using h2

/-! ### changes of the tables -/

/-- A free slot becomes a leaf (or, for a letter, an inner node without children). -/
theorem addLeaf (al : Alpha A code) (C : Core A b k T) {b' k' : Int → Int} {T' : Int → Str} {n x : Int} {c : Byte}
    (hn : n = 0 ∨ k n ≠ -1) (hbn : 0 ≤ b n) (hc : Valid A c) (hfree : k (b n + code c) = -1)
    (hb' : ∀ s, b' s = if s = b n + code c then x else b s) (hk' : ∀ s, k' s = if s = b n + code c then n else k s)
    (hT : ∀ s, k s ≠ -1 → b s < -1 → T' (-b s - 2) = T (-b s - 2))
    (hx1 : c = 1 → x = -1 ∨ (x < -1 ∧ T' (-x - 2) = []))
    (hx2 : c ≠ 1 → 0 ≤ x ∨ (x < -1 ∧ Term A (T' (-x - 2)))) :
    Core A b' k' T' ∧
    (∀ v s, Path A code b' k' v s ↔ Path A code b k v s ∨ (s = b n + code c ∧ ∃ v0, Path A code b k v0 n ∧ v = v0 ++ [c])) ∧
    (∀ u, Word A code b' k' T' u ↔ Word A code b k T u ∨
      ∃ v0, Path A code b k v0 n ∧ ((x < -1 ∧ u = v0 ++ c :: T' (-x - 2)) ∨ (x = -1 ∧ u = v0 ++ [c]))) := by
  have hr := al.range' hc
  have hn0 := C.nonneg hn
  generalize ht : b n + code c = t at *
  have hnt : n ≠ t := by
    rcases hn with h | h
    · omega
    · rintro rfl; exact h hfree
  have hchild : ∀ s, k s ≠ -1 → k s ≠ t := by
    intro s hs e
    rcases C.par s hs with h | h
    · omega
    · rw [e] at h; exact h hfree
  have hbn' : b' n = b n := by rw [hb', if_neg hnt]
  have hkold : ∀ s, k s ≠ -1 → k' s = k s := fun s hs => by
    rw [hk', if_neg]; rintro rfl; exact hs hfree
  have hbold : ∀ s, s ≠ t → b' s = b s := fun s hs => by rw [hb', if_neg hs]
  have C' : Core A b' k' T' := by
    refine ⟨?_, ?_, ?_, ?_, ?_, ?_, ?_, ?_, ?_⟩
    · rw [hk', if_neg (by omega), C.k0]
    · rw [hbold 0 (by omega)]; exact C.b0
    · intro s hs
      rw [hk'] at hs
      split at hs
      · omega
      · exact C.pos s hs
    · intro s hs
      by_cases e : s = t
      · subst e
        rw [hk' s, if_pos rfl]
        rcases hn with h | h
        · exact .inl h
        · right; rw [hkold n h]; exact h
      · rw [hk', if_neg e] at hs
        rw [hkold s hs]
        rcases C.par s hs with h | h
        · exact .inl h
        · right; rw [hkold _ h]; exact h
    · intro s hs
      by_cases e : s = t
      · subst e; rw [hk' s, if_pos rfl, hbn']; exact hbn
      · rw [hk', if_neg e] at hs
        rw [hkold s hs, hbold _ (hchild s hs)]; exact C.parb s hs
    · intro s hs
      by_cases e : s = t
      · subst e; rw [hk' s, if_pos rfl, hbn']; omega
      · rw [hk', if_neg e] at hs
        rw [hkold s hs, hbold _ (hchild s hs)]; exact C.off s hs
    · intro s hs
      by_cases e : s = t
      · subst e; rw [hk' s, if_pos rfl]; exact hnt
      · rw [hk', if_neg e] at hs
        rw [hkold s hs]; exact C.self s hs
    · intro s hs ho
      by_cases e : s = t
      · subst e
        rw [hk' s, if_pos rfl, hbn'] at ho
        rw [hb' s, if_pos rfl]
        exact hx1 ((al.one hc).1 (by omega))
      · rw [hk', if_neg e] at hs
        rw [hkold s hs, hbold _ (hchild s hs)] at ho
        rw [hbold s e]
        rcases C.leafEnd s hs ho with h | h
        · exact .inl h
        · exact .inr ⟨h.1, by rw [hT s hs h.1]; exact h.2⟩
    · intro s hs ho
      by_cases e : s = t
      · subst e
        rw [hk' s, if_pos rfl, hbn'] at ho
        rw [hb' s, if_pos rfl]
        exact (hx2 (fun h => ho (by have := (al.one hc).2 h; omega)))
      · rw [hk', if_neg e] at hs
        rw [hkold s hs, hbold _ (hchild s hs)] at ho
        rw [hbold s e]
        rcases C.leafLet s hs ho with h | h
        · exact .inl h
        · exact .inr ⟨h.1, by rw [hT s hs h.1]; exact h.2⟩
  have hpath : ∀ v s, Path A code b' k' v s ↔ Path A code b k v s ∨ (s = t ∧ ∃ v0, Path A code b k v0 n ∧ v = v0 ++ [c]) := by
    have up : ∀ {v s}, Path A code b k v s → Path A code b' k' v s := by
      intro v s h
      induction h with
      | root => exact .root
      | step d hp hb hd hk ih =>
        rename_i w m
        have hm := hp.alloc C
        have hmt : m ≠ t := by
          rcases hm with h | h
          · omega
          · rintro rfl; exact h hfree
        have hkm : k (b m + code d) ≠ -1 := by rw [hk]; have := C.nonneg hm; omega
        have := Path.step (A := A) (code := code) (b := b') (k := k') d ih (by rw [hbold m hmt]; exact hb) hd
          (by rw [hbold m hmt, hkold _ hkm]; exact hk)
        rwa [hbold m hmt] at this
    intro v s
    constructor
    · intro h
      induction h with
      | root => exact .inl .root
      | step d hp hb hd hk ih =>
        rename_i w m
        rcases ih with ih | ⟨rfl, v0, h0, rfl⟩
        · have hm := ih.alloc C
          have hm0 := C.nonneg hm
          have hmt : m ≠ t := by
            rcases hm with h | h
            · omega
            · rintro rfl; exact h hfree
          rw [hbold m hmt] at hk hb ⊢
          by_cases e : b m + code d = t
          · rw [hk', if_pos e] at hk
            subst hk
            right
            exact ⟨e, w, ih, by rw [al.inj' hd hc (by omega)]⟩
          · rw [hk', if_neg e] at hk
            exact .inl (Path.step d ih hb hd hk)
        · -- the new leaf has no children
          exfalso
          rw [hk'] at hk
          split at hk
          · exact hnt hk
          · have : k (b' m + code d) ≠ -1 := by rw [hk]; omega
            exact hchild _ this hk
    · rintro (h | ⟨rfl, v0, h0, rfl⟩)
      · exact up h
      · have := Path.step (A := A) (code := code) (b := b') (k := k') c (up h0) (by rw [hbn']; exact hbn) hc
          (by rw [hbn', ht, hk', if_pos rfl])
        rwa [hbn', ht] at this
  refine ⟨C', hpath, fun u => ?_⟩
  have hnot : ∀ v, ¬ Path A code b k v t := fun v h => by
    rcases h.alloc C with h | h
    · omega
    · exact h hfree
  constructor
  · rintro ⟨v, s, hp, hne, hcase⟩
    rcases (hpath v s).1 hp with h | ⟨rfl, v0, h0, rfl⟩
    · left
      have hst : s ≠ t := by rintro rfl; exact hnot v h
      rw [hbold s hst] at hcase
      have hks : k s ≠ -1 := (h.alloc C).resolve_left fun e => hne ((h.nil_iff C).2 e)
      refine ⟨v, s, h, hne, ?_⟩
      rcases hcase with ⟨h1, h2⟩ | h1
      · exact .inl ⟨h1, by rw [h2, hT s hks h1]⟩
      · exact .inr h1
    · right
      rw [hb' s, if_pos rfl] at hcase
      refine ⟨v0, h0, ?_⟩
      simpa using hcase
  · rintro (⟨v, s, h, hne, hcase⟩ | ⟨v0, h0, hcase⟩)
    · have hst : s ≠ t := by rintro rfl; exact hnot v h
      have hks : k s ≠ -1 := (h.alloc C).resolve_left fun e => hne ((h.nil_iff C).2 e)
      refine ⟨v, s, (hpath v s).2 (.inl h), hne, ?_⟩
      rw [hbold s hst]
      rcases hcase with ⟨h1, h2⟩ | h1
      · exact .inl ⟨h1, by rw [h2, hT s hks h1]⟩
      · exact .inr h1
    · refine ⟨v0 ++ [c], t, (hpath _ _).2 (.inr ⟨rfl, v0, h0, rfl⟩), by simp, ?_⟩
      rw [hb' t, if_pos rfl]
      simpa using hcase

/-- A leaf with a tail becomes an inner node without children; or such a node gets another base. -/
theorem openLeaf (C : Core A b k T) {b' : Int → Int} {s0 a : Int} (hs : k s0 ≠ -1)
    (hchild : ∀ s, k s ≠ -1 → k s ≠ s0) (hlet : s0 - b (k s0) ≠ 1) (ha : 0 ≤ a) (hb' : ∀ s, b' s = if s = s0 then a else b s) :
    Core A b' k T ∧ (∀ v s, Path A code b' k v s ↔ Path A code b k v s) ∧
    (∀ u, Word A code b' k T u ↔ Word A code b k T u ∧ ¬ (b s0 < -1 ∧ ∃ v0, Path A code b k v0 s0 ∧ u = v0 ++ T (-b s0 - 2))) := by
  have hp0 := C.pos s0 hs
  have hbold : ∀ s, s ≠ s0 → b' s = b s := fun s h => by rw [hb', if_neg h]
  have C' : Core A b' k T := by
    refine ⟨C.k0, ?_, C.pos, C.par, ?_, ?_, C.self, ?_, ?_⟩
    · rw [hbold 0 (by omega)]; exact C.b0
    · intro s h; rw [hbold _ (hchild s h)]; exact C.parb s h
    · intro s h; rw [hbold _ (hchild s h)]; exact C.off s h
    · intro s h ho
      rw [hbold _ (hchild s h)] at ho
      by_cases e : s = s0
      · subst e; exact absurd ho hlet
      · rw [hbold s e]; exact C.leafEnd s h ho
    · intro s h ho
      rw [hbold _ (hchild s h)] at ho
      by_cases e : s = s0
      · subst e; left; rw [hb', if_pos rfl]; exact ha
      · rw [hbold s e]; exact C.leafLet s h ho
  have hpath : ∀ v s, Path A code b' k v s ↔ Path A code b k v s := by
    intro v s
    constructor
    · intro h
      induction h with
      | root => exact .root
      | step d hp hbm hd hk ih =>
        rename_i w m
        have hm : m ≠ s0 := by
          rintro rfl
          have : k (b' m + code d) ≠ -1 := by rw [hk]; omega
          exact hchild _ this hk
        rw [hbold m hm] at hbm hk ⊢
        exact Path.step d ih hbm hd hk
    · intro h
      induction h with
      | root => exact .root
      | step d hp hbm hd hk ih =>
        rename_i w m
        have hm : m ≠ s0 := by
          rintro rfl
          have : k (b m + code d) ≠ -1 := by rw [hk]; omega
          exact hchild _ this hk
        have := Path.step (A := A) (code := code) (b := b') (k := k) d ih (by rw [hbold m hm]; exact hbm) hd
          (by rw [hbold m hm]; exact hk)
        rwa [hbold m hm] at this
  refine ⟨C', hpath, fun u => ?_⟩
  constructor
  · rintro ⟨v, s, hp, hne, hcase⟩
    have hp' := (hpath v s).1 hp
    have hs0 : s ≠ s0 := by
      rintro rfl
      rw [hb', if_pos rfl] at hcase
      omega
    rw [hbold s hs0] at hcase
    refine ⟨⟨v, s, hp', hne, hcase⟩, ?_⟩
    rintro ⟨hb, v0, h0, rfl⟩
    -- two leaves with one word
    have hbs : b s < 0 := by rcases hcase with h | h <;> omega
    have hpre : ∃ x, v0 ++ T (-b s0 - 2) = v ++ x := by
      rcases hcase with h | h
      · exact ⟨_, h.2⟩
      · exact ⟨[], by rw [h.2]; simp⟩
    obtain ⟨x, hx⟩ := hpre
    rcases List.append_eq_append_iff.1 hx with ⟨y, e1, e2⟩ | ⟨y, e1, e2⟩
    · subst e1
      obtain ⟨m, hm, h | h⟩ := hp'.prefix
      · have := Path.det _ h0 hm; rw [h.2] at this; exact hs0 this.symm
      · have := Path.det _ h0 hm; subst this; omega
    · subst e1
      obtain ⟨m, hm, h | h⟩ := h0.prefix
      · have := Path.det _ hp' hm; rw [h.2] at this; exact hs0 this
      · have := Path.det _ hp' hm; subst this; omega
  · rintro ⟨⟨v, s, hp, hne, hcase⟩, hno⟩
    have hs0 : s ≠ s0 := by
      rintro rfl
      rcases hcase with h | h
      · exact hno ⟨h.1, v, hp, h.2⟩
      · rcases C.leafLet s hs hlet with h' | h' <;> omega
    refine ⟨v, s, (hpath v s).2 hp, hne, ?_⟩
    rw [hbold s hs0]; exact hcase

/-- A leaf is removed. -/
theorem dropLeaf (C : Core A b k T) {b' k' : Int → Int} {s0 : Int} (hs : k s0 ≠ -1) (hb : b s0 < 0)
    (hb' : ∀ s, s ≠ s0 → b' s = b s) (hk' : ∀ s, k' s = if s = s0 then -1 else k s) :
    Core A b' k' T ∧ (∀ v s, Path A code b' k' v s ↔ Path A code b k v s ∧ s ≠ s0) ∧
    (∀ u, Word A code b' k' T u ↔ Word A code b k T u ∧ ¬ ∃ v0, Path A code b k v0 s0 ∧
      ((b s0 < -1 ∧ u = v0 ++ T (-b s0 - 2)) ∨ (b s0 = -1 ∧ u = v0))) := by
  have hp0 := C.pos s0 hs
  have hchild : ∀ s, k s ≠ -1 → k s ≠ s0 := fun s h => C.not_child h hb
  have hk2 : ∀ s, k' s ≠ -1 → s ≠ s0 ∧ k s ≠ -1 ∧ k' s = k s := by
    intro s h
    rw [hk'] at h
    by_cases e : s = s0
    · rw [if_pos e] at h; exact absurd rfl h
    · rw [if_neg e] at h; exact ⟨e, h, by rw [hk', if_neg e]⟩
  have C' : Core A b' k' T := by
    refine ⟨?_, ?_, ?_, ?_, ?_, ?_, ?_, ?_, ?_⟩
    · rw [hk', if_neg (by omega), C.k0]
    · rw [hb' 0 (by omega)]; exact C.b0
    · intro s h; exact C.pos s (hk2 s h).2.1
    · intro s h
      obtain ⟨h1, h2, h3⟩ := hk2 s h
      rw [h3]
      rcases C.par s h2 with h4 | h4
      · exact .inl h4
      · right; rw [hk', if_neg (hchild s h2)]; exact h4
    · intro s h
      obtain ⟨h1, h2, h3⟩ := hk2 s h
      rw [h3, hb' _ (hchild s h2)]; exact C.parb s h2
    · intro s h
      obtain ⟨h1, h2, h3⟩ := hk2 s h
      rw [h3, hb' _ (hchild s h2)]; exact C.off s h2
    · intro s h
      obtain ⟨h1, h2, h3⟩ := hk2 s h
      rw [h3]; exact C.self s h2
    · intro s h ho
      obtain ⟨h1, h2, h3⟩ := hk2 s h
      rw [h3, hb' _ (hchild s h2)] at ho
      rw [hb' s h1]; exact C.leafEnd s h2 ho
    · intro s h ho
      obtain ⟨h1, h2, h3⟩ := hk2 s h
      rw [h3, hb' _ (hchild s h2)] at ho
      rw [hb' s h1]; exact C.leafLet s h2 ho
  have hpath : ∀ v s, Path A code b' k' v s ↔ Path A code b k v s ∧ s ≠ s0 := by
    intro v s
    constructor
    · intro h
      induction h with
      | root => exact ⟨.root, by omega⟩
      | step d hp hbm hd hk ih =>
        rename_i w m
        obtain ⟨ih, hm⟩ := ih
        have := C.nonneg (ih.alloc C)
        obtain ⟨h1, h2, h3⟩ := hk2 (b' m + code d) (by rw [hk]; omega)
        rw [hb' m hm] at h1 h2 h3 hbm hk ⊢
        exact ⟨Path.step d ih hbm hd (h3 ▸ hk), h1⟩
    · rintro ⟨h, hs0⟩
      induction h with
      | root => exact .root
      | step d hp hbm hd hk ih =>
        rename_i w m
        have hm : m ≠ s0 := by rintro rfl; omega
        have := Path.step (A := A) (code := code) (b := b') (k := k') d (ih hm) (by rw [hb' m hm]; exact hbm) hd
          (by rw [hb' m hm, hk', if_neg hs0]; exact hk)
        rwa [hb' m hm] at this
  refine ⟨C', hpath, fun u => ?_⟩
  constructor
  · rintro ⟨v, s, hp, hne, hcase⟩
    obtain ⟨hp', hs0⟩ := (hpath v s).1 hp
    rw [hb' s hs0] at hcase
    refine ⟨⟨v, s, hp', hne, hcase⟩, ?_⟩
    rintro ⟨v0, h0, hcase0⟩
    have hbs : b s < 0 := by rcases hcase with h | h <;> omega
    have hpre : ∃ x, u = v ++ x := by
      rcases hcase with h | h
      · exact ⟨_, h.2⟩
      · exact ⟨[], by rw [h.2]; simp⟩
    have hpre0 : ∃ x, u = v0 ++ x := by
      rcases hcase0 with h | h
      · exact ⟨_, h.2⟩
      · exact ⟨[], by rw [h.2]; simp⟩
    obtain ⟨x, hx⟩ := hpre
    obtain ⟨x0, hx0⟩ := hpre0
    rcases List.append_eq_append_iff.1 (hx0.symm.trans hx) with ⟨y, e1, e2⟩ | ⟨y, e1, e2⟩
    · rw [e1] at hp'
      obtain ⟨m, hm, h | h⟩ := hp'.prefix
      · have := Path.det _ h0 hm; rw [h.2] at this; exact hs0 this.symm
      · have := Path.det _ h0 hm; subst this; omega
    · rw [e1] at h0
      obtain ⟨m, hm, h | h⟩ := h0.prefix
      · have := Path.det _ hp' hm; rw [h.2] at this; exact hs0 this
      · have := Path.det _ hp' hm; subst this; omega
  · rintro ⟨⟨v, s, hp, hne, hcase⟩, hno⟩
    have hs0 : s ≠ s0 := by
      rintro rfl
      exact hno ⟨v, hp, hcase⟩
    refine ⟨v, s, (hpath v s).2 ⟨hp, hs0⟩, hne, ?_⟩
    rw [hb' s hs0]; exact hcase

/-- The children of one node move to other slots. -/
theorem moveAll (C : Core A b k T) {b' k' : Int → Int} {m nb : Int} {J : List Int}
    (hm : m = 0 ∨ k m ≠ -1) (hbm : 0 ≤ b m) (hnb : 0 ≤ nb)
    (hJ : ∀ j, j ∈ J ↔ 1 ≤ j ∧ j ≤ 27 ∧ k (b m + j) = m) (hfree : ∀ j ∈ J, k (nb + j) = -1)
    (hb' : ∀ s, b' s = if s = m then nb else if s - nb ∈ J then b (s - nb + b m) else if s - b m ∈ J then -1 else b s)
    (hk' : ∀ s, k' s = if s - nb ∈ J then m else if s - b m ∈ J then -1 else
      if k s - b m ∈ J then k s - b m + nb else k s) :
    let ρ : Int → Int := fun s => if s - b m ∈ J then s - b m + nb else s
    Core A b' k' T ∧ (∀ v s, Path A code b' k' v (ρ s) ∧ (s = 0 ∨ k s ≠ -1) ↔ Path A code b k v s) ∧
      (∀ u, Word A code b' k' T u ↔ Word A code b k T u) ∧
      (∀ t, k' t ≠ -1 → ∃ s, k s ≠ -1 ∧ ρ s = t ∧ (b' t < -1 → b s = b' t)) ∧
      (∀ s, (s = 0 ∨ k s ≠ -1) → (ρ s = 0 ∨ k' (ρ s) ≠ -1) ∧ (s ≠ m → b' (ρ s) = b s)) := by
  intro ρ
  have hm0 := C.nonneg hm
  have hJpos : ∀ j ∈ J, 1 ≤ j ∧ j ≤ 27 := fun j hj => ⟨((hJ j).1 hj).1, ((hJ j).1 hj).2.1⟩
  have hold : ∀ s, s - b m ∈ J ↔ k s = m := by
    intro s
    constructor
    · intro h
      have := ((hJ _).1 h).2.2
      rwa [show b m + (s - b m) = s by omega] at this
    · intro h
      have hks : k s ≠ -1 := by omega
      have := C.off s hks
      rw [h] at this
      exact (hJ _).2 ⟨this.1, this.2, by rw [show b m + (s - b m) = s by omega]; exact h⟩
  have hnew : ∀ s, s - nb ∈ J → k s = -1 := by
    intro s h
    have := hfree _ h
    rwa [show nb + (s - nb) = s by omega] at this
  have hmold : k m ≠ m := by
    rcases hm with h | h
    · rw [h, C.k0]; omega
    · exact C.self m h
  have hmnew : ¬ m - nb ∈ J := by
    intro h
    have h1 := hnew _ h
    rcases hm with h' | h'
    · have := hJpos _ h; omega
    · exact h' h1
  have ρ_old : ∀ s, k s = m → ρ s = s - b m + nb := fun s h => if_pos ((hold s).2 h)
  have ρ_id : ∀ s, k s ≠ m → ρ s = s := fun s h => if_neg (fun h' => h ((hold s).1 h'))
  have ρ_m : ρ m = m := ρ_id m hmold
  have ρ_0 : ρ 0 = 0 := ρ_id 0 (by rw [C.k0]; omega)
  -- the new tables on the images
  have kρ : ∀ s, k s ≠ -1 → k' (ρ s) = ρ (k s) := by
    intro s hs
    by_cases h : k s = m
    · rw [ρ_old s h, hk', if_pos (by rw [show s - b m + nb - nb = s - b m by omega]; exact (hold s).2 h), h, ρ_m]
    · rw [ρ_id s h, hk', if_neg (fun h' => hs (hnew s h')), if_neg (fun h' => h ((hold s).1 h'))]
  have bρ : ∀ s, (s = 0 ∨ k s ≠ -1) → s ≠ m → b' (ρ s) = b s := by
    intro s hs hsm
    by_cases h : k s = m
    · rw [ρ_old s h, hb', if_neg, if_pos (by rw [show s - b m + nb - nb = s - b m by omega]; exact (hold s).2 h)]
      · congr 1; omega
      · intro e
        apply hmnew
        rw [← e, show s - b m + nb - nb = s - b m by omega]; exact (hold s).2 h
    · rw [ρ_id s h, hb', if_neg hsm, if_neg, if_neg (fun h' => h ((hold s).1 h'))]
      intro h'
      rcases hs with rfl | hs
      · have := hJpos _ h'; omega
      · exact hs (hnew s h')
  have bm : b' m = nb := by rw [hb', if_pos rfl]
  have ρ_inj : ∀ s t, (s = 0 ∨ k s ≠ -1) → (t = 0 ∨ k t ≠ -1) → ρ s = ρ t → s = t := by
    have mix : ∀ s t, k s = m → k t ≠ m → (t = 0 ∨ k t ≠ -1) → ρ s ≠ ρ t := by
      intro s t h1 h2 h3 e
      rw [ρ_old s h1, ρ_id t h2] at e
      have hmem := (hold s).2 h1
      have h4 : t - nb ∈ J := by rw [← e, show s - b m + nb - nb = s - b m by omega]; exact hmem
      rcases h3 with rfl | h3
      · have := hJpos _ h4; omega
      · exact h3 (hnew t h4)
    intro s t hs ht e
    by_cases h1 : k s = m <;> by_cases h2 : k t = m
    · rw [ρ_old s h1, ρ_old t h2] at e; omega
    · exact absurd e (mix s t h1 h2 ht)
    · exact absurd e.symm (mix t s h2 h1 hs)
    · rw [ρ_id s h1, ρ_id t h2] at e; exact e
  have ρ_surj : ∀ t, k' t ≠ -1 → ∃ s, k s ≠ -1 ∧ ρ s = t := by
    intro t ht
    by_cases h1 : t - nb ∈ J
    · have h2 : k (t - nb + b m) = m := (hold _).1 (by rw [show t - nb + b m - b m = t - nb by omega]; exact h1)
      exact ⟨t - nb + b m, by omega, by rw [ρ_old _ h2]; omega⟩
    · rw [hk', if_neg h1] at ht
      by_cases h2 : t - b m ∈ J
      · rw [if_pos h2] at ht; exact absurd rfl ht
      · rw [if_neg h2] at ht
        have h3 : k t ≠ m := fun h => h2 ((hold t).2 h)
        refine ⟨t, ?_, ρ_id t h3⟩
        intro e
        rw [if_neg] at ht
        · exact ht e
        · intro h4; have := hJpos _ h4; omega
  have ρ_pos : ∀ s, k s ≠ -1 → 1 ≤ ρ s := by
    intro s hs
    by_cases h : k s = m
    · rw [ρ_old s h]
      have := hJpos _ ((hold s).2 h); omega
    · rw [ρ_id s h]; exact C.pos s hs
  have ρ_nonneg : ∀ s, (s = 0 ∨ k s ≠ -1) → 0 ≤ ρ s := by
    rintro s (rfl | h)
    · rw [ρ_0]; exact Int.le_refl 0
    · have := ρ_pos s h; omega
  have ρ_par : ∀ s, k s ≠ -1 → (k s = 0 ∨ k (k s) ≠ -1) := C.par
  -- offset below the parent
  have ρ_off : ∀ s, k s ≠ -1 → ρ s - b' (ρ (k s)) = s - b (k s) := by
    intro s hs
    by_cases h : k s = m
    · rw [h, ρ_m, bm, ρ_old s h]; omega
    · rw [ρ_id s h, bρ _ (C.par s hs) h]
  have knew : ∀ s, k s ≠ -1 → k' (ρ s) ≠ -1 := by
    intro s hs
    rw [kρ s hs]
    have := ρ_nonneg _ (C.par s hs)
    omega
  have bneg : ∀ s, k s ≠ -1 → b s < 0 → b' (ρ s) = b s := by
    intro s hs h
    refine bρ s (.inr hs) ?_
    rintro rfl; omega
  have bnn : ∀ s, (s = 0 ∨ k s ≠ -1) → 0 ≤ b s → 0 ≤ b' (ρ s) := by
    intro s hs h
    by_cases e : s = m
    · subst e; rw [ρ_m, bm]; exact hnb
    · rw [bρ s hs e]; exact h
  have C' : Core A b' k' T := by
    refine ⟨?_, ?_, ?_, ?_, ?_, ?_, ?_, ?_, ?_⟩
    · by_cases h : k' 0 = -1
      · exact h
      · obtain ⟨s, hs, e⟩ := ρ_surj 0 h
        have := ρ_pos s hs; omega
    · have := bnn 0 (.inl rfl) C.b0; rwa [ρ_0] at this
    · intro t ht
      obtain ⟨s, hs, rfl⟩ := ρ_surj t ht
      exact ρ_pos s hs
    · intro t ht
      obtain ⟨s, hs, rfl⟩ := ρ_surj t ht
      rw [kρ s hs]
      rcases C.par s hs with h | h
      · left; rw [h, ρ_0]
      · right; exact knew _ h
    · intro t ht
      obtain ⟨s, hs, rfl⟩ := ρ_surj t ht
      rw [kρ s hs]
      exact bnn _ (C.par s hs) (C.parb s hs)
    · intro t ht
      obtain ⟨s, hs, rfl⟩ := ρ_surj t ht
      rw [kρ s hs, ρ_off s hs]
      exact C.off s hs
    · intro t ht
      obtain ⟨s, hs, rfl⟩ := ρ_surj t ht
      rw [kρ s hs]
      intro e
      exact C.self s hs (ρ_inj _ _ (C.par s hs) (.inr hs) e)
    · intro t ht ho
      obtain ⟨s, hs, rfl⟩ := ρ_surj t ht
      rw [kρ s hs, ρ_off s hs] at ho
      have h := C.leafEnd s hs ho
      rw [bneg s hs (by rcases h with h | h <;> omega)]
      exact h
    · intro t ht ho
      obtain ⟨s, hs, rfl⟩ := ρ_surj t ht
      rw [kρ s hs, ρ_off s hs] at ho
      rcases C.leafLet s hs ho with h | h
      · exact .inl (bnn s (.inr hs) h)
      · right; rw [bneg s hs (by omega)]; exact h
  have up : ∀ {v s}, Path A code b k v s → Path A code b' k' v (ρ s) := by
    intro v s h
    induction h with
    | root => rw [ρ_0]; exact .root
    | step d hp hb hd hk ih =>
      rename_i w n
      have hn := hp.alloc C
      have hks : k (b n + code d) ≠ -1 := by rw [hk]; have := C.nonneg hn; omega
      have e : ρ (b n + code d) = b' (ρ n) + code d := by
        have := ρ_off _ hks
        rw [hk] at this; omega
      rw [e]
      refine Path.step d ih (bnn n hn hb) hd ?_
      rw [← e, kρ _ hks, hk]
  have down : ∀ {v t}, Path A code b' k' v t → ∃ s, Path A code b k v s ∧ ρ s = t := by
    intro v t h
    induction h with
    | root => exact ⟨0, .root, ρ_0⟩
    | step d hp hb hd hk ih =>
      rename_i w n'
      obtain ⟨n, hn, rfl⟩ := ih
      have hna := hn.alloc C
      have h0 := ρ_nonneg n hna
      obtain ⟨s, hs, e⟩ := ρ_surj (b' (ρ n) + code d) (by rw [hk]; omega)
      rw [← e, kρ s hs] at hk
      have hkn := ρ_inj _ _ (C.par s hs) hna hk
      have ho := ρ_off s hs
      rw [hkn] at ho
      have e2 : s = b n + code d := by omega
      refine ⟨s, ?_, e⟩
      rw [e2]
      refine Path.step d hn ?_ hd (by rw [← e2]; exact hkn)
      have := C.parb s hs
      rwa [hkn] at this
  refine ⟨C', ?_, ?_, ?_, ?_⟩
  · intro v s
    constructor
    · rintro ⟨h, hs⟩
      obtain ⟨s', h', e⟩ := down h
      rwa [ρ_inj _ _ (h'.alloc C) hs e] at h'
    · intro h; exact ⟨up h, h.alloc C⟩
  · intro u
    constructor
    · rintro ⟨v, t, hp, hne, hcase⟩
      obtain ⟨s, hs, rfl⟩ := down hp
      refine ⟨v, s, hs, hne, ?_⟩
      have hsm : s ≠ m := by
        rintro rfl
        rw [ρ_m, bm] at hcase; omega
      rwa [bρ s (hs.alloc C) hsm] at hcase
    · rintro ⟨v, s, hp, hne, hcase⟩
      refine ⟨v, ρ s, up hp, hne, ?_⟩
      have hsm : s ≠ m := by
        rintro rfl; omega
      rwa [bρ s (hp.alloc C) hsm]
  · intro t ht
    obtain ⟨s, hs, rfl⟩ := ρ_surj t ht
    refine ⟨s, hs, rfl, fun h => ?_⟩
    have hsm : s ≠ m := by rintro rfl; rw [ρ_m, bm] at h; omega
    exact (bρ s (.inr hs) hsm).symm
  · intro s hs
    refine ⟨?_, bρ s hs⟩
    rcases hs with rfl | hs
    · exact .inl ρ_0
    · exact .inr (knew s hs)

end

end Trie
