import Verif.Spec.JsonCut
import Verif.Proof.JsonLooseDoc

/-! # Helper lemmas for texts which end too early -/

namespace Json
open Cpp Spec

theorem strAt_out {str : Str} {n : Nat} (h : str.length < n) : strAt str n = .ub := by
  unfold strAt
  rw [if_neg (by omega), if_neg (by omega)]

theorem At.out {str : Str} {off : Nat} (h : At str off []) : off = str.length := by
  have := h.len
  simpa using this

theorem strAt_len (str : Str) : strAt str (str.length : Nat) = .ok 0 := by
  unfold strAt
  rw [if_neg (by omega), if_pos rfl]

theorem stringGo_out {str : Str} {f n : Nat} {val : Str} (h : str.length < n) (hf : 0 < f) : stringGo str f n val = .ub := by
  obtain ⟨f, rfl⟩ : ∃ g, f = g + 1 := ⟨f - 1, by omega⟩
  unfold stringGo
  rw [strAt_out h]
  rfl

/-- a string without its end -/
theorem stringGo_cut {str : Str} {t s : Str} (b : LBody t s) : ∀ {f off : Nat} {val r : Str},
    At str off (t ++ r) → r = [] ∨ r = [byte '\\'] → t.length + 2 ≤ f → stringGo str f off val = .ub := by
  induction b with
  | nil =>
    intro f off val r h hr hf
    obtain ⟨f, rfl⟩ : ∃ g, f = g + 1 := ⟨f - 1, by omega⟩
    rcases hr with rfl | rfl
    · have := h.out
      subst this
      unfold stringGo
      rw [strAt_len]
      simp only [Out.ok_bind]
      rw [if_neg (by decide), if_neg (by decide)]
      exact stringGo_out (by omega) (by simp at hf; omega)
    · have h2 := (At.cons h).2
      have hl := h2.out
      unfold stringGo
      rw [(At.cons h).1]
      simp only [Out.ok_bind]
      rw [if_neg (by decide), if_pos trivial, hl, strAt_len]
      simp only [Out.ok_bind]
      rw [if_neg (by decide)]
      exact stringGo_out (by omega) (by simp at hf; omega)
  | plain c h1 h2 b ih =>
    intro f off val r h hr hf
    obtain ⟨f, rfl⟩ : ∃ g, f = g + 1 := ⟨f - 1, by simp at hf; omega⟩
    unfold stringGo
    rw [List.cons_append] at h
    rw [h.cons.1]
    simp only [Out.ok_bind]
    rw [if_neg h1, if_neg h2, ih h.cons.2 hr (by simp at hf; omega)]
  | escape e c he b ih =>
    intro f off val r h hr hf
    obtain ⟨f, rfl⟩ : ∃ g, f = g + 1 := ⟨f - 1, by simp at hf; omega⟩
    unfold stringGo
    rw [List.cons_append, List.cons_append] at h
    rw [h.cons.1]
    simp only [Out.ok_bind]
    rw [if_neg (by decide), if_pos trivial, h.cons.2.cons.1]
    simp only [Out.ok_bind]
    have := escapes_ne _ he
    rw [if_neg this.1, ih h.cons.2.cons.2 hr (by simp at hf; omega)]
  | unknown e he hu b ih =>
    intro f off val r h hr hf
    obtain ⟨f, rfl⟩ : ∃ g, f = g + 1 := ⟨f - 1, by simp at hf; omega⟩
    unfold stringGo
    rw [List.cons_append, List.cons_append] at h
    rw [h.cons.1]
    simp only [Out.ok_bind]
    rw [if_neg (by decide), if_pos trivial, h.cons.2.cons.1]
    simp only [Out.ok_bind]
    rw [if_neg hu, ih h.cons.2.cons.2 hr (by simp at hf; omega)]
  | unicode hx hl hh b ih =>
    intro f off val r h hr hf
    obtain ⟨f, rfl⟩ : ∃ g, f = g + 1 := ⟨f - 1, by simp at hf; omega⟩
    unfold stringGo
    rw [List.cons_append, List.cons_append] at h
    rw [h.cons.1]
    simp only [Out.ok_bind]
    rw [if_neg (by decide), if_pos trivial, h.cons.2.cons.1]
    simp only [Out.ok_bind, if_true]
    have ha := h.cons.2.cons.2
    rw [List.append_assoc] at ha
    have hg := hexGo_hex hx ha hh
    rw [hl] at hg
    have ha' := ha.append
    rw [hl] at ha'
    rw [hg]
    simp only [Out.ok_bind]
    rw [ih ha' hr (by simp at hf; omega)]

theorem skip_out {str : Str} {n : Nat} (h : str.length < n) : skip str n = .ub := by
  unfold skip skipGo
  rw [strAt_out h]
  rfl

/-- white space before a value does not matter -/
theorem parseNext_skip {str : Str} {off : Nat} {w t : Str} {f : Nat} (ha : At str off (w ++ t)) (hw : Blank w) (hn : NonSp t) :
    parseNext str f off = parseNext str f (off + w.length) := by
  cases f with
  | zero => simp only [parseNext]
  | succ f =>
    have h1 := skip_blank ha hw hn
    have h2 : skip str (off + w.length) = .ok (off + w.length) := by
      simpa using skip_blank (w := []) (by simpa using ha.append) blank_nil hn
    unfold parseNext
    rw [h1, h2]

theorem cut_head {b : Bool} {r : Str} (c : Cut b r) : ∃ x t, r = x :: t ∧ Start x := by
  cases c with
  | num s v h =>
    obtain ⟨n, hn, rfl, -⟩ := h
    obtain ⟨c, t', e, hc⟩ := hn.head
    exact ⟨c, t', e, .inr (.inr (.inr (.inr (.inr (.inr hc)))))⟩
  | _ => exact ⟨_, _, rfl, by decide⟩

/-- what `parse_next` does with the beginning of a value: the undefined, or it goes beyond the end -/
def CutReads (b : Bool) (r : Str) : Prop :=
  ∀ {str : Str} {off : Nat} {w : Str} {f : Nat}, At str off (w ++ r) → Blank w → 2 * r.length ≤ f →
    parseNext str f off = .ub ∨ (b = true ∧ ∃ v, parseNext str f off = .ok (v, str.length + 1))

theorem arrLoop_cut {b : Bool} {r : Str} (hr : CutReads b r) {w : Str} (hb : Blank w) (l : List LItem) :
    ∀ {str : Str} {off : Nat} {f : Nat},
    (∀ x ∈ l, Blank x.pre ∧ Blank x.post) → (∀ x ∈ l, Loose x.num x.text x.value) →
    At str off (listed (l.map LItem.full) ++ (w ++ r)) → 2 * (listed (l.map LItem.full) ++ (w ++ r)).length + 1 ≤ f →
    arrLoop str f off = .ub := by
  induction l with
  | nil =>
    intro str off f _ _ ha hf
    obtain ⟨f, rfl⟩ : ∃ g, f = g + 1 := ⟨f - 1, by omega⟩
    unfold arrLoop
    rcases hr (f := f) (by simpa [listed] using ha) hb (by simp [listed] at hf; omega) with h | ⟨-, v, h⟩
    · rw [h]; rfl
    · rw [h]
      simp only [Out.ok_bind]
      rw [skip_out (by omega)]
      rfl
  | cons x l ih =>
    intro str off f hw hx ha hf
    obtain ⟨f, rfl⟩ : ∃ g, f = g + 1 := ⟨f - 1, by omega⟩
    have hx1 : LReads x.num x.text x.value := reads_loose (hx x (by simp))
    have hw1 := hw x (by simp)
    unfold arrLoop
    have ha' : At str off (x.pre ++ x.text ++ (x.post ++ byte ',' :: (listed (l.map LItem.full) ++ (w ++ r)))) := by
      simpa [LItem.full, listed] using ha
    obtain ⟨off', e, ho⟩ := hx1 (f := f) ha' hw1.1 (fun _ => ends_mark hw1.2 (.inl (.inr (.inl rfl))))
      (by simp [LItem.full, listed] at hf; omega)
    have ho := ho (fun _ => head_mark hw1.2 (by decide))
    rw [e]
    simp only [Out.ok_bind]
    have ha2 : At str off' (x.post ++ byte ',' :: (listed (l.map LItem.full) ++ (w ++ r))) := by
      have := ha'.append
      rw [List.length_append, ← Nat.add_assoc] at this
      rwa [ho]
    rw [skip_blank ha2 hw1.2 (nonSp_of (by decide))]
    simp only [Out.ok_bind]
    rw [ha2.append.cons.1]
    simp only [Out.ok_bind]
    rw [if_pos trivial, ih (fun y hy => hw y (by simp [hy])) (fun y hy => hx y (by simp [hy])) ha2.append.cons.2
      (by simp [LItem.full, listed] at hf ⊢; omega)]
    rfl

/-- a key, a colon and white space -/
theorem key_reads {str : Str} {off f : Nat} {k : LItem} {w s : Str} (ha : At str off (k.full ++ (byte ':' :: (w ++ s))))
    (kw : Blank k.pre ∧ Blank k.post) (kl : Loose k.num k.text k.value) (kn : k.num = true → k.post ≠ []) (hw : Blank w)
    (hs : NonSp s) (hf : 2 * k.full.length ≤ f) :
    ∃ o1 o2, parseNext str f off = .ok (k.value, o1) ∧ skip str o1 = .ok o2 ∧ strAt str (o2 : Nat) = .ok (byte ':') ∧
      skip str (o2 + 1) = .ok (off + k.full.length + 1 + w.length) := by
  have ha1 : At str off (k.pre ++ k.text ++ (k.post ++ byte ':' :: (w ++ s))) := by simpa [LItem.full] using ha
  obtain ⟨o1, e1, q1⟩ := reads_loose kl (f := f) ha1 kw.1 (fun h => ends_mark kw.2 (.inr (kn h)))
    (by simp [LItem.full] at hf; omega)
  have q1 := q1 (fun _ => head_mark kw.2 (by decide))
  have ha2 := ha1.append
  rw [List.length_append, ← Nat.add_assoc, ← q1] at ha2
  have ha3 := ha2.append
  refine ⟨o1, _, e1, skip_blank ha2 kw.2 (nonSp_of (by decide)), ha3.cons.1, ?_⟩
  rw [skip_blank ha3.cons.2 hw hs, q1]
  simp [LItem.full]; omega

/-- a member and a comma -/
theorem objLoop_member {str : Str} {off f : Nat} {x : LMember} {s : Str} {m : List (Str × Value)}
    (ha : At str off (x.full ++ byte ',' :: s))
    (hw : Blank x.key.pre ∧ Blank x.key.post ∧ Blank x.item.pre ∧ Blank x.item.post)
    (hk : Loose x.key.num x.key.text x.key.value) (hn : x.key.num = true → x.key.post ≠ [])
    (hx : Loose x.item.num x.item.text x.item.value) (hf : 2 * x.full.length ≤ f) :
    ∃ m', objLoop str (f + 1) off m = objLoop str f (off + x.full.length + 1) m' := by
  obtain ⟨hw1, hw2, hw3, hw4⟩ := hw
  obtain ⟨c, t, hc, hs⟩ := loose_head hx
  have ha1 : At str off (x.key.full ++ (byte ':' :: (x.item.pre ++ (x.item.text ++ (x.item.post ++ byte ',' :: s))))) := by
    simpa [LMember.full, LItem.full] using ha
  obtain ⟨o1, o2, e1, e2, e3, e4⟩ := key_reads (f := f) ha1 ⟨hw1, hw2⟩ hk hn hw3 (by rw [hc]; exact nonSp_start hs)
    (by simp [LMember.full] at hf; omega)
  have ha2 := ha1.append.cons.2.append
  obtain ⟨o4, e5, q⟩ := reads_loose hx (f := f) (w := []) (by simpa using ha2) blank_nil
    (fun _ => ends_mark hw4 (.inl (.inr (.inl rfl)))) (by simp [LMember.full, LItem.full] at hf; omega)
  have q := q (fun _ => head_mark hw4 (by decide))
  have ha3 := ha2.append
  simp only [List.length_nil, Nat.add_zero] at q
  rw [← q] at ha3
  refine ⟨put x.key.value.toString x.item.value m, ?_⟩
  conv_lhs => unfold objLoop
  rw [e1]
  simp only [Out.ok_bind]
  rw [e2]
  simp only [Out.ok_bind]
  rw [e3]
  simp only [Out.ok_bind]
  rw [if_neg (by simp), e4]
  simp only [Out.ok_bind]
  rw [e5]
  simp only [Out.ok_bind]
  rw [skip_blank ha3 hw4 (nonSp_of (by decide))]
  simp only [Out.ok_bind]
  rw [ha3.append.cons.1]
  simp only [Out.ok_bind]
  rw [if_pos trivial, q]
  congr 1
  simp [LMember.full, LItem.full]; omega

theorem objLoop_members {str : Str} (l : List LMember) {r : Str} :
    ∀ {off : Nat} {f : Nat} {m : List (Str × Value)},
    (∀ x ∈ l, Blank x.key.pre ∧ Blank x.key.post ∧ Blank x.item.pre ∧ Blank x.item.post) →
    (∀ x ∈ l, Loose x.key.num x.key.text x.key.value) → (∀ x ∈ l, x.key.num = true → x.key.post ≠ []) →
    (∀ x ∈ l, Loose x.item.num x.item.text x.item.value) →
    At str off (listed (l.map LMember.full) ++ r) → 2 * (listed (l.map LMember.full) ++ r).length + 1 ≤ f →
    ∃ g off' m', objLoop str f off m = objLoop str (g + 1) off' m' ∧ At str off' r ∧ 2 * r.length ≤ g := by
  induction l with
  | nil =>
    intro off f m _ _ _ _ ha hf
    exact ⟨f - 1, off, m, by rw [Nat.sub_add_cancel (by omega)], by simpa [listed] using ha, by simp [listed] at hf; omega⟩
  | cons x l ih =>
    intro off f m hw hk hn hx ha hf
    obtain ⟨f, rfl⟩ : ∃ g, f = g + 1 := ⟨f - 1, by omega⟩
    have ha' : At str off (x.full ++ byte ',' :: (listed (l.map LMember.full) ++ r)) := by simpa [listed] using ha
    obtain ⟨m', e⟩ := objLoop_member (m := m) ha' (hw x (by simp)) (hk x (by simp)) (hn x (by simp)) (hx x (by simp))
      (f := f) (by simp [listed] at hf; omega)
    obtain ⟨g, o, m2, e2, h⟩ := ih (f := f) (m := m') (fun y hy => hw y (by simp [hy])) (fun y hy => hk y (by simp [hy]))
      (fun y hy => hn y (by simp [hy])) (fun y hy => hx y (by simp [hy])) ha'.append.cons.2 (by simp [listed] at hf ⊢; omega)
    exact ⟨g, o, m2, e.trans e2, h⟩

theorem objLoop_key {str : Str} {off f : Nat} {m : List (Str × Value)} {b : Bool} {r w : Str} (hr : CutReads b r) (hb : Blank w)
    (ha : At str off (w ++ r)) (hf : 2 * (w ++ r).length ≤ f) : objLoop str (f + 1) off m = .ub := by
  unfold objLoop
  rcases hr (f := f) ha hb (by simp at hf; omega) with h | ⟨-, v, h⟩
  · rw [h]; rfl
  · rw [h]
    simp only [Out.ok_bind]
    rw [skip_out (by omega)]
    rfl

theorem objLoop_item {str : Str} {off f : Nat} {m : List (Str × Value)} {b : Bool} {r w : Str} (hr : CutReads b r) (hb : Blank w)
    (hh : ∃ x t, r = x :: t ∧ Start x) {k : LItem} (kw : Blank k.pre ∧ Blank k.post) (kl : Loose k.num k.text k.value)
    (kn : k.num = true → k.post ≠ []) (ha : At str off (k.full ++ (byte ':' :: (w ++ r))))
    (hf : 2 * (k.full ++ (byte ':' :: (w ++ r))).length ≤ f) : objLoop str (f + 1) off m = .ub := by
  obtain ⟨x, t, e, hs⟩ := hh
  obtain ⟨o1, o2, e1, e2, e3, e4⟩ := key_reads (f := f) ha kw kl kn hb (by rw [e]; exact nonSp_start hs)
    (by simp at hf; omega)
  have ha2 := ha.append.cons.2.append
  unfold objLoop
  rw [e1]
  simp only [Out.ok_bind]
  rw [e2]
  simp only [Out.ok_bind]
  rw [e3]
  simp only [Out.ok_bind]
  rw [if_neg (by simp), e4]
  simp only [Out.ok_bind]
  rcases hr (f := f) (w := []) (by simpa using ha2) blank_nil (by simp at hf; omega) with h | ⟨-, v, h⟩
  · rw [h]; rfl
  · rw [h]
    simp only [Out.ok_bind]
    rw [skip_out (by omega)]
    rfl

theorem arrLoop_skip {str : Str} {off : Nat} {w t : Str} {f : Nat} (ha : At str off (w ++ t)) (hw : Blank w) (hn : NonSp t) :
    arrLoop str f off = arrLoop str f (off + w.length) := by
  cases f with
  | zero => simp only [arrLoop]
  | succ f => unfold arrLoop; rw [parseNext_skip ha hw hn]

theorem objLoop_skip {str : Str} {off : Nat} {w t : Str} {f : Nat} {m : List (Str × Value)} (ha : At str off (w ++ t))
    (hw : Blank w) (hn : NonSp t) : objLoop str f off m = objLoop str f (off + w.length) m := by
  cases f with
  | zero => simp only [objLoop]
  | succ f => unfold objLoop; rw [parseNext_skip ha hw hn]

/-- an opening bracket -/
theorem parseNext_arr {str : Str} {off : Nat} {w s : Str} {f : Nat} (ha : At str off (w ++ byte '[' :: s)) (hw : Blank w)
    (hs : ∃ w' c t, s = w' ++ c :: t ∧ Blank w' ∧ Start c) (hu : arrLoop str f (off + w.length + 1) = .ub) :
    parseNext str (f + 1) off = .ub := by
  obtain ⟨w', c, t, rfl, hw', hc⟩ := hs
  unfold parseNext
  rw [skip_blank ha hw (nonSp_of (by decide))]
  simp only [Out.ok_bind]
  have h1 := ha.append
  rw [h1.cons.1]
  simp only [Out.ok_bind]
  rw [if_pos trivial, skip_blank h1.cons.2 hw' (nonSp_start hc)]
  simp only [Out.ok_bind]
  rw [h1.cons.2.append.cons.1]
  simp only [Out.ok_bind]
  rw [if_neg (start_facts c hc).2.1, ← arrLoop_skip h1.cons.2 hw' (nonSp_start hc), hu]
  rfl

theorem parseNext_obj {str : Str} {off : Nat} {w s : Str} {f : Nat} (ha : At str off (w ++ byte '{' :: s)) (hw : Blank w)
    (hs : ∃ w' c t, s = w' ++ c :: t ∧ Blank w' ∧ Start c) (hu : objLoop str f (off + w.length + 1) [] = .ub) :
    parseNext str (f + 1) off = .ub := by
  obtain ⟨w', c, t, rfl, hw', hc⟩ := hs
  unfold parseNext
  rw [skip_blank ha hw (nonSp_of (by decide))]
  simp only [Out.ok_bind]
  have h1 := ha.append
  rw [h1.cons.1]
  simp only [Out.ok_bind]
  rw [if_neg (by decide), if_pos trivial, skip_blank h1.cons.2 hw' (nonSp_start hc)]
  simp only [Out.ok_bind]
  rw [h1.cons.2.append.cons.1]
  simp only [Out.ok_bind]
  rw [if_neg (start_facts c hc).2.2, ← objLoop_skip h1.cons.2 hw' (nonSp_start hc), hu]
  rfl

theorem parseNext_str {str : Str} {off : Nat} {w s t v : Str} {f : Nat} (ha : At str off (w ++ byte '"' :: (t ++ s))) (hw : Blank w)
    (ht : LBody t v) (hs : s = [] ∨ s = [byte '\\']) : parseNext str (f + 1) off = .ub := by
  unfold parseNext
  rw [skip_blank ha hw (nonSp_of (by decide))]
  simp only [Out.ok_bind]
  have h1 := ha.append
  rw [h1.cons.1]
  simp only [Out.ok_bind]
  rw [if_neg (by decide), if_neg (by decide), if_pos trivial]
  have hl := h1.cons.2.len
  simp at hl
  unfold parseString
  rw [stringGo_cut ht h1.cons.2 hs (by omega)]
  rfl

theorem parseNext_num {str : Str} {off : Nat} {w s : Str} {v : Value} {f : Nat} (ha : At str off (w ++ s)) (hw : Blank w)
    (hv : Numeral s v) : parseNext str (f + 1) off = .ok (v, str.length + 1) := by
  obtain ⟨c, t', e, hc⟩ : ∃ c t, s = c :: t ∧ (isDigit c = true ∨ c = byte '-') := by
    obtain ⟨n, hn, rfl, -⟩ := id hv
    exact hn.head
  have hne := num_start c hc
  have h1 := ha.append
  unfold parseNext
  rw [skip_blank ha hw (by rw [e]; exact nonSp_start (.inr (.inr (.inr (.inr (.inr (.inr hc)))))))]
  simp only [Out.ok_bind]
  rw [show strAt str (off + w.length : Nat) = .ok c from (by rw [e] at h1; exact h1.cons.1)]
  simp only [Out.ok_bind]
  rw [if_neg hne.1, if_neg hne.2.1, if_neg hne.2.2.1, if_neg hne.2.2.2.1, if_neg hne.2.2.2.2, if_pos hc]
  rw [parseNumber_loose hv (r := []) (by simpa using h1) (by intro c hc; simp at hc)]
  have := h1.len
  simp
  omega

theorem head_of_item {x : LItem} {u : Str} (hw : Blank x.pre) (h : Loose x.num x.text x.value) :
    ∃ w' c t, x.full ++ u = w' ++ c :: t ∧ Blank w' ∧ Start c := by
  obtain ⟨c, t, e, hs⟩ := loose_head h
  exact ⟨x.pre, c, t ++ x.post ++ u, by simp [LItem.full, e], hw, hs⟩

theorem cut_reads {b : Bool} {r : Str} (c : Cut b r) : CutReads b r := by
  induction c with
  | str t s h =>
    intro str off w f ha hw hf
    obtain ⟨f, rfl⟩ : ∃ g, f = g + 1 := ⟨f - 1, by simp at hf; omega⟩
    exact .inl (parseNext_str (s := []) (by simpa using ha) hw h (.inl rfl))
  | escape t s h =>
    intro str off w f ha hw hf
    obtain ⟨f, rfl⟩ : ∃ g, f = g + 1 := ⟨f - 1, by simp at hf; omega⟩
    exact .inl (parseNext_str ha hw h (.inr rfl))
  | num s v h =>
    intro str off w f ha hw hf
    obtain ⟨c, t, e, -⟩ := cut_head (.num s v h)
    obtain ⟨f, rfl⟩ : ∃ g, f = g + 1 := ⟨f - 1, by simp [e] at hf; omega⟩
    exact .inr ⟨rfl, v, parseNext_num ha hw h⟩
  | arr l hws h w' hb c ih =>
    rename_i b' r'
    intro str off w f ha hw hf
    obtain ⟨f, rfl⟩ : ∃ g, f = g + 1 := ⟨f - 1, by simp at hf; omega⟩
    refine .inl (parseNext_arr ha hw ?_ (arrLoop_cut ih hb l hws h ha.append.cons.2 (by simp at hf ⊢; omega)))
    cases l with
    | nil =>
      obtain ⟨x, t, e, hs⟩ := cut_head c
      exact ⟨w', x, t, by simp [listed, e], hb, hs⟩
    | cons x l =>
      have := head_of_item (u := [byte ','] ++ (listed (l.map LItem.full) ++ (w' ++ r'))) (hws x (by simp)).1 (h x (by simp))
      simpa [listed] using this
  | key l hws hk hn h w' hb c ih =>
    rename_i b' r'
    intro str off w f ha hw hf
    obtain ⟨f, rfl⟩ : ∃ g, f = g + 1 := ⟨f - 1, by simp at hf; omega⟩
    obtain ⟨g, o, m, e, h1, h2⟩ := objLoop_members l (f := f) (m := []) hws hk hn h ha.append.cons.2 (by simp at hf ⊢; omega)
    refine .inl (parseNext_obj ha hw ?_ (e.trans (objLoop_key ih hb h1 h2)))
    cases l with
    | nil =>
      obtain ⟨x, t, e, hs⟩ := cut_head c
      exact ⟨w', x, t, by simp [listed, e], hb, hs⟩
    | cons x l =>
      have := head_of_item (u := [byte ':'] ++ x.item.full ++ [byte ','] ++ (listed (l.map LMember.full) ++ (w' ++ r')))
        (hws x (by simp)).1 (hk x (by simp))
      simpa [listed, LMember.full] using this
  | item l hws hk hn h k kw kl kn w' hb c ih =>
    rename_i b' r'
    intro str off w f ha hw hf
    obtain ⟨f, rfl⟩ : ∃ g, f = g + 1 := ⟨f - 1, by simp at hf; omega⟩
    obtain ⟨g, o, m, e, h1, h2⟩ := objLoop_members l (f := f) (m := []) hws hk hn h ha.append.cons.2 (by simp at hf ⊢; omega)
    refine .inl (parseNext_obj ha hw ?_ (e.trans (objLoop_item ih hb (cut_head c) kw kl kn h1 h2)))
    cases l with
    | nil => simpa [listed] using head_of_item (u := byte ':' :: (w' ++ r')) kw.1 kl
    | cons x l =>
      have := head_of_item (u := [byte ':'] ++ x.item.full ++ [byte ','] ++ (listed (l.map LMember.full) ++ (k.full ++ (byte ':' :: (w' ++ r')))))
        (hws x (by simp)).1 (hk x (by simp))
      simpa [listed, LMember.full] using this

theorem load_cut {w r : Str} (hw : Blank w) (c : Cut false r) : loadJSON (w ++ r) = .ub := by
  unfold loadJSON
  rcases cut_reads c (f := 2 * (w ++ r).length + 3) (At.zero _) hw (by simp; omega) with h | ⟨h, -⟩
  · rw [h]; rfl
  · cases h

end Json
