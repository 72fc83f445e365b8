import Verif.Spec.JsonInside
import Verif.Proof.JsonCut

/-! # Helper lemmas for exponents inside of brackets -/

namespace Json
open Cpp Spec

/-- a character after which neither loop goes on -/
def Stops (str : Str) (o : Nat) : Prop := skip str o = .ok o ∧ ∃ c, strAt str (o : Nat) = .ok c ∧ (isDigit c = true ∨ c = byte '-' ∨ c = 0)

theorem stops_facts : ∀ c : Byte, (isDigit c = true ∨ c = byte '-' ∨ c = 0) →
    isspace c = .ok false ∧ c ≠ byte ',' ∧ c ≠ byte ']' ∧ c ≠ byte '}' ∧ c ≠ byte ':' :=
  forall_byte (by decide +kernel)

theorem stops_of {str : Str} {o : Nat} {c : Byte} (h : strAt str (o : Nat) = .ok c) (hc : isDigit c = true ∨ c = byte '-' ∨ c = 0) :
    Stops str o := by
  refine ⟨?_, c, h, hc⟩
  unfold skip skipGo
  rw [h]
  simp only [Out.ok_bind]
  rw [(stops_facts c hc).1]
  rfl

/-- the number is read, and the position afterwards is that of its last character (or the end) -/
theorem parseNumber_stops {str : Str} {s : Str} {v : Value} (hv : Expo s v) {off : Nat} {r : Str}
    (ha : At str off (s ++ r)) (hr : EndsNum r) : ∃ o, parseNumber str off = .ok (v, o) ∧ Stops str o := by
  obtain ⟨n, e, x, ds, k, hn, he, hd, hdx, hk, hki, rfl, rfl⟩ := hv
  have ha' : At str off (n.text ++ e :: x :: (ds ++ r)) := by simpa using ha
  have hl := ha'.len
  simp only [List.length_append, List.length_cons] at hl
  have he' : ¬ (e = byte '-' ∨ isDigit e = true) ∧ e ≠ byte '.' := by
    rcases he with rfl | rfl <;> decide
  have ha2 : At str (off + n.text.length + 1) (x :: (ds ++ r)) := ha'.append.cons.2
  have ha3 : At str (off + n.text.length + 1 + 1 + ds.length) r := ha2.cons.2.append
  unfold parseNumber
  rw [numGo_ok n.text ha' hn.chars (fun c hc => by simp at hc; subst hc; exact he') (by omega)]
  simp only [Out.ok_bind, List.nil_append, Bool.false_or, List.head?_cons, Option.getD_some]
  rw [if_pos he.symm, if_neg (by omega), ha2.cons.1]
  simp only [Out.ok_bind]
  rw [expGo_loose ds ha2.cons.2 hd hr (by omega)]
  simp only [Out.ok_bind]
  rw [castDouble_exp hd hdx, ← hk]
  simp only [Out.ok_bind, Rat.num_intCast]
  rw [int_ok hki]
  simp only [Out.ok_bind]
  have hes : (if x = byte '-' then [x] else []) ++ ds ≠ [] := by
    rcases hdx with rfl | h
    · simp
    · simp [h]
  rw [if_pos (.inr hes), castDouble_loose hn]
  refine ⟨_, rfl, ?_⟩
  by_cases h0 : r.head?.getD 0 = 0
  · rw [if_neg (by simpa using h0)]
    refine stops_of (c := 0) ?_ (.inr (.inr rfl))
    cases r with
    | nil => exact ha3.nil
    | cons y r => simp at h0; subst h0; exact ha3.cons.1
  · rw [if_pos (by simpa using h0)]
    rcases List.eq_nil_or_concat ds with rfl | ⟨d, z, rfl⟩
    · rcases hdx with rfl | h
      · exact stops_of (c := byte '-') (by simpa using ha2.cons.1) (.inr (.inl rfl))
      · exact absurd rfl h
    · have hz := hd z (by simp)
      have ha4 : At str (off + n.text.length + 1 + 1 + d.length) (z :: r) := by
        have : At str (off + n.text.length + 1 + 1) (d ++ z :: r) := by simpa using ha2.cons.2
        exact this.append
      refine stops_of (c := z) ?_ (.inl ?_)
      · have := ha4.cons.1
        simpa [← Nat.add_assoc] using this
      · simp [isDigit]; exact hz

theorem expo_head {s : Str} {v : Value} (h : Expo s v) : ∃ c t, s = c :: t ∧ (isDigit c = true ∨ c = byte '-') := by
  obtain ⟨n, e, x, ds, k, hn, he, hd, hdx, hk, hki, rfl, rfl⟩ := h
  obtain ⟨c, t, e', hc⟩ := hn.head
  exact ⟨c, t ++ e :: x :: ds, by rw [e']; rfl, hc⟩

theorem expIn_head {b : Bool} {r : Str} (c : ExpIn b r) : ∃ x t, r = x :: t ∧ Start x := by
  cases c with
  | num s v h rest hr =>
    obtain ⟨c, t, rfl, hc⟩ := expo_head h
    exact ⟨c, t ++ rest, rfl, .inr (.inr (.inr (.inr (.inr (.inr hc)))))⟩
  | _ => exact ⟨_, _, rfl, by decide⟩

/-- what `parse_next` does: the number is read with the wrong position, or the program ends -/
def ExpReads (b : Bool) (r : Str) : Prop :=
  ∀ {str : Str} {off : Nat} {w : Str} {f : Nat}, At str off (w ++ r) → Blank w → 2 * r.length ≤ f →
    parseNext str f off = .exit ∨ (b = true ∧ ∃ v o, parseNext str f off = .ok (v, o) ∧ Stops str o)

theorem arrLoop_expIn {b : Bool} {r : Str} (hr : ExpReads b r) {w : Str} (hb : Blank w) (l : List LItem) :
    ∀ {str : Str} {off : Nat} {f : Nat},
    (∀ x ∈ l, Blank x.pre ∧ Blank x.post) → (∀ x ∈ l, Loose x.num x.text x.value) →
    At str off (listed (l.map LItem.full) ++ (w ++ r)) → 2 * (listed (l.map LItem.full) ++ (w ++ r)).length + 1 ≤ f →
    arrLoop str f off = .exit := by
  induction l with
  | nil =>
    intro str off f _ _ ha hf
    obtain ⟨f, rfl⟩ : ∃ g, f = g + 1 := ⟨f - 1, by omega⟩
    unfold arrLoop
    rcases hr (f := f) (by simpa [listed] using ha) hb (by simp [listed] at hf; omega) with h | ⟨-, v, o, h, hs, c, hc, hc'⟩
    · rw [h]; rfl
    · rw [h]
      simp only [Out.ok_bind]
      rw [hs]
      simp only [Out.ok_bind]
      rw [hc]
      simp only [Out.ok_bind]
      rw [if_neg (stops_facts c hc').2.1, if_neg (stops_facts c hc').2.2.1]
  | cons x l ih =>
    intro str off f hw hx ha hf
    obtain ⟨f, rfl⟩ : ∃ g, f = g + 1 := ⟨f - 1, by omega⟩
    have hx1 : LReads x.num x.text x.value := reads_loose (hx x (by simp))
    have hw1 := hw x (by simp)
    unfold arrLoop
    have ha' : At str off (x.pre ++ x.text ++ (x.post ++ byte ',' :: (listed (l.map LItem.full) ++ (w ++ r)))) := by
      simpa [LItem.full, listed] using ha
    obtain ⟨off', e, ho⟩ := hx1 (f := f) ha' hw1.1 (fun _ => ends_mark hw1.2 (.inl (.inr (.inl rfl))))
      (by simp [LItem.full, listed] at hf; omega)
    have ho := ho (fun _ => head_mark hw1.2 (by decide))
    rw [e]
    simp only [Out.ok_bind]
    have ha2 : At str off' (x.post ++ byte ',' :: (listed (l.map LItem.full) ++ (w ++ r))) := by
      have := ha'.append
      rw [List.length_append, ← Nat.add_assoc] at this
      rwa [ho]
    rw [skip_blank ha2 hw1.2 (nonSp_of (by decide))]
    simp only [Out.ok_bind]
    rw [ha2.append.cons.1]
    simp only [Out.ok_bind]
    rw [if_pos trivial, ih (fun y hy => hw y (by simp [hy])) (fun y hy => hx y (by simp [hy])) ha2.append.cons.2
      (by simp [LItem.full, listed] at hf ⊢; omega)]
    rfl

theorem objLoop_keyExp {str : Str} {off f : Nat} {m : List (Str × Value)} {b : Bool} {r w : Str} (hr : ExpReads b r) (hb : Blank w)
    (ha : At str off (w ++ r)) (hf : 2 * (w ++ r).length ≤ f) : objLoop str (f + 1) off m = .exit := by
  unfold objLoop
  rcases hr (f := f) ha hb (by simp at hf; omega) with h | ⟨-, v, o, h, hs, c, hc, hc'⟩
  · rw [h]; rfl
  · rw [h]
    simp only [Out.ok_bind]
    rw [hs]
    simp only [Out.ok_bind]
    rw [hc]
    simp only [Out.ok_bind]
    rw [if_pos (stops_facts c hc').2.2.2.2]

theorem objLoop_itemExp {str : Str} {off f : Nat} {m : List (Str × Value)} {b : Bool} {r w : Str} (hr : ExpReads b r) (hb : Blank w)
    (hh : ∃ x t, r = x :: t ∧ Start x) {k : LItem} (kw : Blank k.pre ∧ Blank k.post) (kl : Loose k.num k.text k.value)
    (kn : k.num = true → k.post ≠ []) (ha : At str off (k.full ++ (byte ':' :: (w ++ r))))
    (hf : 2 * (k.full ++ (byte ':' :: (w ++ r))).length ≤ f) : objLoop str (f + 1) off m = .exit := by
  obtain ⟨x, t, e, hst⟩ := hh
  obtain ⟨o1, o2, e1, e2, e3, e4⟩ := key_reads (f := f) ha kw kl kn hb (by rw [e]; exact nonSp_start hst)
    (by simp at hf; omega)
  have ha2 := ha.append.cons.2.append
  unfold objLoop
  rw [e1]
  simp only [Out.ok_bind]
  rw [e2]
  simp only [Out.ok_bind]
  rw [e3]
  simp only [Out.ok_bind]
  rw [if_neg (by simp), e4]
  simp only [Out.ok_bind]
  rcases hr (f := f) (w := []) (by simpa using ha2) blank_nil (by simp at hf; omega) with h | ⟨-, v, o, h, hs, c, hc, hc'⟩
  · rw [h]; rfl
  · rw [h]
    simp only [Out.ok_bind]
    rw [hs]
    simp only [Out.ok_bind]
    rw [hc]
    simp only [Out.ok_bind]
    rw [if_neg (stops_facts c hc').2.1, if_neg (stops_facts c hc').2.2.2.1]

/-- an opening bracket -/
theorem parseNext_arrExit {str : Str} {off : Nat} {w s : Str} {f : Nat} (ha : At str off (w ++ byte '[' :: s)) (hw : Blank w)
    (hs : ∃ w' c t, s = w' ++ c :: t ∧ Blank w' ∧ Start c) (hu : arrLoop str f (off + w.length + 1) = .exit) :
    parseNext str (f + 1) off = .exit := by
  obtain ⟨w', c, t, rfl, hw', hc⟩ := hs
  unfold parseNext
  rw [skip_blank ha hw (nonSp_of (by decide))]
  simp only [Out.ok_bind]
  have h1 := ha.append
  rw [h1.cons.1]
  simp only [Out.ok_bind]
  rw [if_pos trivial, skip_blank h1.cons.2 hw' (nonSp_start hc)]
  simp only [Out.ok_bind]
  rw [h1.cons.2.append.cons.1]
  simp only [Out.ok_bind]
  rw [if_neg (start_facts c hc).2.1, ← arrLoop_skip h1.cons.2 hw' (nonSp_start hc), hu]
  rfl

theorem parseNext_objExit {str : Str} {off : Nat} {w s : Str} {f : Nat} (ha : At str off (w ++ byte '{' :: s)) (hw : Blank w)
    (hs : ∃ w' c t, s = w' ++ c :: t ∧ Blank w' ∧ Start c) (hu : objLoop str f (off + w.length + 1) [] = .exit) :
    parseNext str (f + 1) off = .exit := by
  obtain ⟨w', c, t, rfl, hw', hc⟩ := hs
  unfold parseNext
  rw [skip_blank ha hw (nonSp_of (by decide))]
  simp only [Out.ok_bind]
  have h1 := ha.append
  rw [h1.cons.1]
  simp only [Out.ok_bind]
  rw [if_neg (by decide), if_pos trivial, skip_blank h1.cons.2 hw' (nonSp_start hc)]
  simp only [Out.ok_bind]
  rw [h1.cons.2.append.cons.1]
  simp only [Out.ok_bind]
  rw [if_neg (start_facts c hc).2.2, ← objLoop_skip h1.cons.2 hw' (nonSp_start hc), hu]
  rfl

theorem expIn_reads {b : Bool} {r : Str} (c : ExpIn b r) : ExpReads b r := by
  induction c with
  | num s v h rest hr =>
    intro str off w f ha hw hf
    obtain ⟨c, t, e, hc⟩ := expo_head h
    obtain ⟨f, rfl⟩ : ∃ g, f = g + 1 := ⟨f - 1, by simp [e] at hf; omega⟩
    refine .inr ⟨rfl, v, ?_⟩
    have hne := num_start c hc
    have h1 := ha.append
    obtain ⟨o, ho, hs⟩ := parseNumber_stops h h1 hr
    refine ⟨o, ?_, hs⟩
    unfold parseNext
    rw [skip_blank ha hw (by rw [e]; exact nonSp_start (.inr (.inr (.inr (.inr (.inr (.inr hc)))))))]
    simp only [Out.ok_bind]
    rw [show strAt str (off + w.length : Nat) = .ok c from (by rw [e] at h1; exact h1.cons.1)]
    simp only [Out.ok_bind]
    rw [if_neg hne.1, if_neg hne.2.1, if_neg hne.2.2.1, if_neg hne.2.2.2.1, if_neg hne.2.2.2.2, if_pos hc, ho]
  | arr l hws h w' hb c ih =>
    rename_i b' r'
    intro str off w f ha hw hf
    obtain ⟨f, rfl⟩ : ∃ g, f = g + 1 := ⟨f - 1, by simp at hf; omega⟩
    refine .inl (parseNext_arrExit ha hw ?_ (arrLoop_expIn ih hb l hws h ha.append.cons.2 (by simp at hf ⊢; omega)))
    cases l with
    | nil =>
      obtain ⟨x, t, e, hs⟩ := expIn_head c
      exact ⟨w', x, t, by simp [listed, e], hb, hs⟩
    | cons x l =>
      have := head_of_item (u := [byte ','] ++ (listed (l.map LItem.full) ++ (w' ++ r'))) (hws x (by simp)).1 (h x (by simp))
      simpa [listed] using this
  | key l hws hk hn h w' hb c ih =>
    rename_i b' r'
    intro str off w f ha hw hf
    obtain ⟨f, rfl⟩ : ∃ g, f = g + 1 := ⟨f - 1, by simp at hf; omega⟩
    obtain ⟨g, o, m, e, h1, h2⟩ := objLoop_members l (f := f) (m := []) hws hk hn h ha.append.cons.2 (by simp at hf ⊢; omega)
    refine .inl (parseNext_objExit ha hw ?_ (e.trans (objLoop_keyExp ih hb h1 h2)))
    cases l with
    | nil =>
      obtain ⟨x, t, e, hs⟩ := expIn_head c
      exact ⟨w', x, t, by simp [listed, e], hb, hs⟩
    | cons x l =>
      have := head_of_item (u := [byte ':'] ++ x.item.full ++ [byte ','] ++ (listed (l.map LMember.full) ++ (w' ++ r')))
        (hws x (by simp)).1 (hk x (by simp))
      simpa [listed, LMember.full] using this
  | item l hws hk hn h k kw kl kn w' hb c ih =>
    rename_i b' r'
    intro str off w f ha hw hf
    obtain ⟨f, rfl⟩ : ∃ g, f = g + 1 := ⟨f - 1, by simp at hf; omega⟩
    obtain ⟨g, o, m, e, h1, h2⟩ := objLoop_members l (f := f) (m := []) hws hk hn h ha.append.cons.2 (by simp at hf ⊢; omega)
    refine .inl (parseNext_objExit ha hw ?_ (e.trans (objLoop_itemExp ih hb (expIn_head c) kw kl kn h1 h2)))
    cases l with
    | nil => simpa [listed] using head_of_item (u := byte ':' :: (w' ++ r')) kw.1 kl
    | cons x l =>
      have := head_of_item (u := [byte ':'] ++ x.item.full ++ [byte ','] ++ (listed (l.map LMember.full) ++ (k.full ++ (byte ':' :: (w' ++ r')))))
        (hws x (by simp)).1 (hk x (by simp))
      simpa [listed, LMember.full] using this

theorem load_expIn {w r : Str} (hw : Blank w) (c : ExpIn false r) : loadJSON (w ++ r) = .exit := by
  unfold loadJSON
  rcases expIn_reads c (f := 2 * (w ++ r).length + 3) (At.zero _) hw (by simp; omega) with h | ⟨h, -⟩
  · rw [h]; rfl
  · cases h

end Json
