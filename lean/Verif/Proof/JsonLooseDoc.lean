import Verif.Proof.JsonLoose

/-! # Helper lemmas for the texts taken for JSON: whole texts -/

namespace Json
open Cpp Spec

/-! ## what has been read -/

/-- where and how the reading of a value ends -/
inductive DocEnd (str : Str) (v : Value) (o : Nat) (d r : Str) : Prop
  | closed (h : Loose false d v) (ho : At str o r)
  | number (h : Loose true d v) (c : Byte) (r' : Str) (hr : r = c :: r') (hc : EndC c) (ho : At str o r)
  | out (h : Loose true d v) (hr : r = []) (ho : o = str.length + 1)
  | exp (h : Expo d v) (hr : EndsNum r) (c : Byte) (ho : strAt str o = .ok c) (hc : isDigit c = true ∨ c = byte '-' ∨ c = 0)

theorem stuck_facts : ∀ c : Byte, isDigit c = true ∨ c = byte '-' ∨ c = 0 →
    isspace c = .ok false ∧ c ≠ byte ',' ∧ c ≠ byte ']' ∧ c ≠ byte '}' ∧ c ≠ byte ':' := forall_byte (by decide +kernel)

theorem mark_facts {c : Byte} (h : c = byte ',' ∨ c = byte ']' ∨ c = byte '}' ∨ c = byte ':') : c ≠ 0 := by
  rcases h with rfl | rfl | rfl | rfl <;> decide

/-- inside of brackets, a value is followed by white space and a mark -/
theorem DocEnd.next {str : Str} {v : Value} {o : Nat} {d r : Str} (h : DocEnd str v o d r) {o2 : Nat} (hs : skip str o = .ok o2)
    {c : Byte} (hc : strAt str o2 = .ok c) (hm : c = byte ',' ∨ c = byte ']' ∨ c = byte '}' ∨ c = byte ':') :
    ∃ b w r', Loose b d v ∧ Blank w ∧ r = w ++ c :: r' ∧ At str (o2 + 1) r' ∧ (c = byte ':' → b = true → w ≠ []) := by
  obtain ⟨w, r1, k1, k2, k3, k4, k5⟩ := skip_at hs
  obtain ⟨r', ha⟩ : ∃ r', At str o2 (c :: r') := by
    rcases strAt_at hc with h | ⟨-, h⟩
    · exact h
    · exact absurd h (mark_facts hm)
  have e1 := k3.eq ha
  subst e1
  cases h with
  | closed h ho => exact ⟨false, w, r', h, k1, ho.eq k2, ha.cons.2, by simp⟩
  | number h c1 r1 hr hc1 ho =>
    have e := ho.eq k2
    refine ⟨true, w, r', h, k1, e, ha.cons.2, ?_⟩
    rintro rfl - rfl
    rw [hr] at e
    simp at e
    exact (endC_facts c1 hc1).2.2.2 e.1
  | out h hr ho =>
    have := k2.1
    omega
  | exp h hr c0 ho hc0 =>
    have hf := stuck_facts c0 hc0
    cases w with
    | nil =>
      simp at k5
      subst k5
      rw [hc] at ho
      cases ho
      rcases hm with h | h | h | h <;> simp_all
    | cons x w =>
      rw [List.cons_append] at k2
      rw [k2.cons.1] at ho
      cases ho
      have := (isspace_iff c0).2 (k1 c0 (by simp))
      rw [hf.1] at this
      cases this

theorem keyOf_toString (v : Value) : KeyOf v v.toString := by
  cases v with
  | str s => exact ⟨escape_escaped s, escape_body s⟩
  | _ => rfl

theorem puts_cons (p : Str × Value) (ps m : List (Str × Value)) : puts (p :: ps) m = puts ps (put p.1 p.2 m) := rfl

theorem pre_commas {α : Type} (full : α → Str) (w : Str) (x : α) (l : List α) (y : α)
    (h : full y = w ++ full x) : commas ((y :: l).map full) = w ++ commas ((x :: l).map full) := by
  cases l with
  | nil => simp [commas, h]
  | cons z l => simp [commas, h]

theorem parse_at (str : Str) : ∀ f : Nat,
    (∀ off v o, parseNext str f off = .ok (v, o) →
      ∃ w d r, Blank w ∧ At str off (w ++ d ++ r) ∧ DocEnd str v o d r) ∧
    (∀ off vs o, arrLoop str f off = .ok (vs, o) →
      ∃ (l : List LItem) (r : Str), l ≠ [] ∧ (∀ x ∈ l, Blank x.pre ∧ Blank x.post) ∧ (∀ x ∈ l, Loose x.num x.text x.value) ∧
        vs = l.map LItem.value ∧ At str off (commas (l.map LItem.full) ++ byte ']' :: r) ∧ At str o r) ∧
    (∀ off m m' o, objLoop str f off m = .ok (m', o) →
      ∃ (l : List LMember) (ps : List (Str × Value)) (r : Str), l ≠ [] ∧
        (∀ x ∈ l, Blank x.key.pre ∧ Blank x.key.post ∧ Blank x.item.pre ∧ Blank x.item.post) ∧
        (∀ x ∈ l, Loose x.key.num x.key.text x.key.value) ∧ (∀ x ∈ l, x.key.num = true → x.key.post ≠ []) ∧
        (∀ x ∈ l, Loose x.item.num x.item.text x.item.value) ∧
        List.Forall₂ (fun (x : LMember) (p : Str × Value) => KeyOf x.key.value p.1 ∧ p.2 = x.item.value) l ps ∧
        m' = puts ps m ∧ At str off (commas (l.map LMember.full) ++ byte '}' :: r) ∧ At str o r) := by
  intro f
  induction f with
  | zero => exact ⟨fun _ _ _ h => (by cases h), fun _ _ _ h => (by cases h), fun _ _ _ _ h => (by cases h)⟩
  | succ f ih =>
    obtain ⟨ih1, ih2, ih3⟩ := ih
    refine ⟨fun off v o h => ?_, fun off vs o h => ?_, fun off m m' o h => ?_⟩
    · unfold parseNext at h
      obtain ⟨o1, h1, h⟩ := Out.bind_eq_ok.1 h
      obtain ⟨c, hc, h⟩ := Out.bind_eq_ok.1 h
      obtain ⟨w, r1, k1, k2, k3, k4, k5⟩ := skip_at h1
      -- the value begins with a character
      have start : c ≠ 0 → ∃ r, At str o1 (c :: r) := fun h0 => by
        rcases strAt_at hc with h | ⟨-, h⟩
        · exact h
        · exact absurd h h0
      have fin : ∀ {d r : Str}, At str o1 (d ++ r) → DocEnd str v o d r →
          ∃ w d r, Blank w ∧ At str off (w ++ d ++ r) ∧ DocEnd str v o d r := fun {d r} ha he => by
        rw [k3.eq ha, ← List.append_assoc] at k2
        exact ⟨w, d, r, k1, k2, he⟩
      split at h
      · rename_i hb
        subst hb
        obtain ⟨r, ha⟩ := start (by decide)
        obtain ⟨o2, h2, h⟩ := Out.bind_eq_ok.1 h
        obtain ⟨c2, hc2, h⟩ := Out.bind_eq_ok.1 h
        obtain ⟨w2, r2, j1, j2, j3, j4, j5⟩ := skip_at h2
        split at h
        · rename_i hb
          subst hb
          cases h
          rcases strAt_at hc2 with ⟨r3, h3⟩ | ⟨-, h3⟩
          · rw [j3.eq h3] at j2
            refine fin (d := [byte '['] ++ w2 ++ [byte ']']) (r := r3) ?_ (.closed (.arr0 w2 j1) h3.cons.2)
            simpa using ha.back j2
          · exact absurd h3 (by decide)
        · obtain ⟨⟨vs, o3⟩, hr, h⟩ := Out.bind_eq_ok.1 h
          cases h
          obtain ⟨l, r3, l1, l2, l3, l4, l5, l6⟩ := ih2 _ _ _ hr
          cases l with
          | nil => exact absurd rfl l1
          | cons x l =>
            let y : LItem := ⟨w2 ++ x.pre, x.text, x.post, x.value, x.num⟩
            have hcm := pre_commas LItem.full w2 x l y (by simp [LItem.full, y])
            have hl := Loose.arr (y :: l) (by simp)
              (by
                intro z hz
                rcases List.mem_cons.1 hz with rfl | hz
                · exact ⟨j1.append (l2 x (by simp)).1, (l2 x (by simp)).2⟩
                · exact l2 z (by simp [hz]))
              (by
                intro z hz
                rcases List.mem_cons.1 hz with rfl | hz
                · exact l3 x (by simp)
                · exact l3 z (by simp [hz]))
            have hv : (y :: l).map LItem.value = (x :: l).map LItem.value := rfl
            rw [hv, ← l4] at hl
            refine fin (r := r3) ?_ (.closed hl l6)
            rw [hcm]
            rw [j3.eq l5] at j2
            simpa using ha.back j2
      · split at h
        · rename_i hb
          subst hb
          obtain ⟨r, ha⟩ := start (by decide)
          obtain ⟨o2, h2, h⟩ := Out.bind_eq_ok.1 h
          obtain ⟨c2, hc2, h⟩ := Out.bind_eq_ok.1 h
          obtain ⟨w2, r2, j1, j2, j3, j4, j5⟩ := skip_at h2
          split at h
          · rename_i hb
            subst hb
            cases h
            rcases strAt_at hc2 with ⟨r3, h3⟩ | ⟨-, h3⟩
            · rw [j3.eq h3] at j2
              refine fin (d := [byte '{'] ++ w2 ++ [byte '}']) (r := r3) ?_ (.closed (.obj0 w2 j1) h3.cons.2)
              simpa using ha.back j2
            · exact absurd h3 (by decide)
          · obtain ⟨⟨m', o3⟩, hr, h⟩ := Out.bind_eq_ok.1 h
            cases h
            obtain ⟨l, ps, r3, l1, l2, l3, l4, l5, l6, l7, l8, l9⟩ := ih3 _ _ _ _ hr
            cases l with
            | nil => exact absurd rfl l1
            | cons x l =>
              let y : LMember := ⟨⟨w2 ++ x.key.pre, x.key.text, x.key.post, x.key.value, x.key.num⟩, x.item⟩
              have hcm := pre_commas LMember.full w2 x l y (by simp [LMember.full, LItem.full, y])
              have hl := Loose.obj (y :: l) ps m' (by simp)
                (by
                  intro z hz
                  rcases List.mem_cons.1 hz with rfl | hz
                  · exact ⟨j1.append (l2 x (by simp)).1, (l2 x (by simp)).2⟩
                  · exact l2 z (by simp [hz]))
                (by
                  intro z hz
                  rcases List.mem_cons.1 hz with rfl | hz
                  · exact l3 x (by simp)
                  · exact l3 z (by simp [hz]))
                (by
                  intro z hz
                  rcases List.mem_cons.1 hz with rfl | hz
                  · exact l4 x (by simp)
                  · exact l4 z (by simp [hz]))
                (by
                  intro z hz
                  rcases List.mem_cons.1 hz with rfl | hz
                  · exact l5 x (by simp)
                  · exact l5 z (by simp [hz]))
                (by
                  cases l6 with
                  | cons a b => exact .cons a b)
                (by
                  rw [l7]; exact puts_mapOf ps)
              refine fin (r := r3) ?_ (.closed hl l9)
              rw [hcm]
              rw [j3.eq l8] at j2
              simpa using ha.back j2
        · split at h
          · rename_i hb
            subst hb
            obtain ⟨r, ha⟩ := start (by decide)
            unfold parseString at h
            obtain ⟨⟨s, o2⟩, hs, h⟩ := Out.bind_eq_ok.1 h
            cases h
            obtain ⟨t, s', r2, b, e1, e2, e3⟩ := stringGo_at hs
            simp only [List.nil_append] at e1
            subst e1
            refine fin (r := r2) ?_ (.closed (.str t s b) e3)
            simpa using ha.back e2
          · split at h
            · unfold parseBool at h
              split at h
              · rename_i ht
                cases h
                have ha : At str o1 (bytes ['t', 'r', 'u', 'e'] ++ str.drop (o1 + 4)) := by
                  refine ⟨k3.1, ?_⟩
                  rw [← ht, ← List.drop_drop, List.take_append_drop]
                exact fin ha (.closed .true ha.append)
              · split at h
                · rename_i ht
                  cases h
                  have ha : At str o1 (bytes ['f', 'a', 'l', 's', 'e'] ++ str.drop (o1 + 5)) := by
                    refine ⟨k3.1, ?_⟩
                    rw [← ht, ← List.drop_drop, List.take_append_drop]
                  exact fin ha (.closed .false ha.append)
                · cases h
            · split at h
              · unfold parseNull at h
                split at h
                · rename_i ht
                  cases h
                  have ha : At str o1 (bytes ['n', 'u', 'l', 'l'] ++ str.drop (o1 + 4)) := by
                    refine ⟨k3.1, ?_⟩
                    rw [← ht, ← List.drop_drop, List.take_append_drop]
                  exact fin ha (.closed .null ha.append)
                · cases h
              · split at h
                · rename_i hd
                  obtain ⟨d, r, ha, he⟩ := parseNumber_at hc hd h
                  cases he with
                  | here h c r' hr hc h0 ho => exact fin ha (.number (.num d v h) c r' hr hc ho)
                  | nul h r' hr ho =>
                    subst hr
                    exact fin (d := d ++ [0]) (r := r') (by simpa using ha) (.closed (.numNul d v h) ho)
                  | out h hr ho => exact fin ha (.out (.num d v h) hr ho)
                  | exp h hr c ho hc => exact fin ha (.exp h hr c ho hc)
                · cases h
    · unfold arrLoop at h
      obtain ⟨⟨v, o1⟩, h1, h⟩ := Out.bind_eq_ok.1 h
      obtain ⟨o2, h2, h⟩ := Out.bind_eq_ok.1 h
      obtain ⟨c, hc, h⟩ := Out.bind_eq_ok.1 h
      obtain ⟨w, d, r, k1, k2, k3⟩ := ih1 _ _ _ h1
      split at h
      · rename_i hb
        obtain ⟨⟨vs', o3⟩, hr, h⟩ := Out.bind_eq_ok.1 h
        cases h
        obtain ⟨b, w', r', n1, n2, n3, n4, -⟩ := k3.next h2 hc (.inl hb)
        obtain ⟨l, r3, l1, l2, l3, l4, l5, l6⟩ := ih2 _ _ _ hr
        refine ⟨⟨w, d, w', v, b⟩ :: l, r3, by simp, ?_, ?_, by rw [l4]; rfl, ?_, l6⟩
        · intro z hz
          rcases List.mem_cons.1 hz with rfl | hz
          · exact ⟨k1, n2⟩
          · exact l2 z hz
        · intro z hz
          rcases List.mem_cons.1 hz with rfl | hz
          · exact n1
          · exact l3 z hz
        · rw [List.map_cons, commas_cons _ (by simpa using l1)]
          rw [n3, n4.eq l5, hb] at k2
          simpa [LItem.full] using k2
      · split at h
        · rename_i hb
          cases h
          obtain ⟨b, w', r', n1, n2, n3, n4, -⟩ := k3.next h2 hc (.inr (.inl hb))
          refine ⟨[⟨w, d, w', v, b⟩], r', by simp, by simp [k1, n2], by simpa using n1, rfl, ?_, n4⟩
          rw [n3, hb] at k2
          simpa [LItem.full, commas] using k2
        · cases h
    · unfold objLoop at h
      obtain ⟨⟨v, o1⟩, h1, h⟩ := Out.bind_eq_ok.1 h
      obtain ⟨o2, h2, h⟩ := Out.bind_eq_ok.1 h
      obtain ⟨c, hc, h⟩ := Out.bind_eq_ok.1 h
      obtain ⟨w, d, r, k1, k2, k3⟩ := ih1 _ _ _ h1
      split at h
      · cases h
      · rename_i hb
        obtain ⟨o3, h3, h⟩ := Out.bind_eq_ok.1 h
        obtain ⟨⟨v', o4⟩, h4, h⟩ := Out.bind_eq_ok.1 h
        obtain ⟨o5, h5, h⟩ := Out.bind_eq_ok.1 h
        obtain ⟨c6, h6, h⟩ := Out.bind_eq_ok.1 h
        push Not at hb
        obtain ⟨b, w', r', n1, n2, n3, n4, n5⟩ := k3.next h2 hc (.inr (.inr (.inr hb)))
        obtain ⟨w3, r3, j1, j2, j3, -, -⟩ := skip_at h3
        obtain ⟨w4, d4, r4, i1, i2, i3⟩ := ih1 _ _ _ h4
        rw [j3.eq i2] at j2
        rw [n3, n4.eq j2, hb] at k2
        split at h
        · rename_i hb'
          obtain ⟨b', w'', r'', q1, q2, q3, q4, -⟩ := i3.next h5 h6 (.inl hb')
          obtain ⟨l, ps, r5, l1, l2, l3, l4, l5, l6, l7, l8, l9⟩ := ih3 _ _ _ _ h
          refine ⟨⟨⟨w, d, w', v, b⟩, ⟨w3 ++ w4, d4, w'', v', b'⟩⟩ :: l, (v.toString, v') :: ps, r5, by simp, ?_, ?_, ?_, ?_,
            .cons ⟨keyOf_toString v, rfl⟩ l6, l7, ?_, l9⟩
          · intro z hz
            rcases List.mem_cons.1 hz with rfl | hz
            · exact ⟨k1, n2, j1.append i1, q2⟩
            · exact l2 z hz
          · intro z hz
            rcases List.mem_cons.1 hz with rfl | hz
            · exact n1
            · exact l3 z hz
          · intro z hz
            rcases List.mem_cons.1 hz with rfl | hz
            · exact n5 hb
            · exact l4 z hz
          · intro z hz
            rcases List.mem_cons.1 hz with rfl | hz
            · exact q1
            · exact l5 z hz
          · rw [List.map_cons, commas_cons _ (by simpa using l1)]
            rw [q3, q4.eq l8, hb'] at k2
            simpa [LMember.full, LItem.full] using k2
        · split at h
          · rename_i hb'
            cases h
            obtain ⟨b', w'', r'', q1, q2, q3, q4, -⟩ := i3.next h5 h6 (.inr (.inr (.inl hb')))
            refine ⟨[⟨⟨w, d, w', v, b⟩, ⟨w3 ++ w4, d4, w'', v', b'⟩⟩], [(v.toString, v')], r'', by simp, ?_, ?_, ?_, ?_,
              .cons ⟨keyOf_toString v, rfl⟩ .nil, rfl, ?_, q4⟩
            · intro z hz
              rcases List.mem_cons.1 hz with rfl | hz
              · exact ⟨k1, n2, j1.append i1, q2⟩
              · simp at hz
            · simpa using n1
            · simpa using n5 hb
            · simpa using q1
            · rw [q3, hb'] at k2
              simpa [LMember.full, LItem.full, commas] using k2
          · cases h

/-! ## what is read -/

theorem keyOf_eq {v : Value} {k : Str} (h : KeyOf v k) : k = v.toString := by
  cases v with
  | str s =>
    obtain ⟨h1, h2⟩ := h
    show k = jsonEscape s
    rw [jsonEscape_eq]
    induction h2 with
    | nil => rfl
    | plain c hq hb b ih =>
      cases h1 with
      | plain _ hc r =>
        rw [List.flatMap_cons, ← ih r]
        rcases escapeChar_cases c with ⟨e, -⟩ | ⟨p, hp, e, e2, hm⟩
        · rw [e]; rfl
        · exfalso
          have : ∀ p ∈ escapes, p.1 ∈ bytes ['"', '\\', 'b', 'f', 'n', 'r', 't'] →
              p.2 ∈ [byte '"', byte '\\', 8, 9, 10, 12, 13] := by decide
          exact hc (e ▸ this p hp hm)
      | escape e he r => exact absurd rfl hb
    | escape e c he b ih =>
      cases h1 with
      | plain _ hc r => simp at hc
      | escape _ he' r =>
        rw [List.flatMap_cons, ← ih r]
        have : ∀ p ∈ escapes, p.1 ∈ bytes ['"', '\\', 'b', 'f', 'n', 'r', 't'] → escapeChar p.2 = [byte '\\', p.1] := by decide
        rw [this _ he he']
        rfl
  | _ => exact h

theorem loose_head {b : Bool} {t : Str} {v : Value} (d : Loose b t v) : ∃ c t', t = c :: t' ∧ Start c := by
  have num : ∀ {s : Str} {v : Value}, Numeral s v → ∃ c t', s = c :: t' ∧ Start c := by
    rintro s v ⟨n, hn, rfl, -⟩
    obtain ⟨c, t', e, hc⟩ := hn.head
    exact ⟨c, t', e, .inr (.inr (.inr (.inr (.inr (.inr hc)))))⟩
  cases d with
  | null => exact ⟨_, _, rfl, by decide⟩
  | true => exact ⟨_, _, rfl, by decide⟩
  | false => exact ⟨_, _, rfl, by decide⟩
  | num s v h => exact num h
  | numNul s v h =>
    obtain ⟨c, t', e, hc⟩ := num h
    exact ⟨c, t' ++ [0], by rw [e]; rfl, hc⟩
  | str t s h => exact ⟨_, _, rfl, by decide⟩
  | arr0 w h => exact ⟨_, _, rfl, by decide⟩
  | arr l hne hw h => exact ⟨_, _, rfl, by decide⟩
  | obj0 w h => exact ⟨_, _, rfl, by decide⟩
  | obj l ps m hne hw hk hn h hp hm => exact ⟨_, _, rfl, by decide⟩

/-- what `parse_next` does with a text of the grammar -/
def LReads (b : Bool) (t : Str) (v : Value) : Prop :=
  ∀ {str : Str} {off : Nat} {w r : Str} {f : Nat}, At str off (w ++ t ++ r) → Blank w → (b = true → EndsNum r) →
    2 * t.length ≤ f → ∃ off', parseNext str f off = .ok (v, off') ∧
      ((b = true → ∃ c ∈ r.head?, c ≠ 0) → off' = off + w.length + t.length)

theorem ends_mark {w : Str} (hw : Blank w) {c : Byte} {r : Str} (hc : EndC c ∨ w ≠ []) : EndsNum (w ++ c :: r) := by
  intro x hx
  cases w with
  | nil =>
    simp at hx
    subst hx
    rcases hc with h | h
    · exact h
    · exact absurd rfl h
  | cons y w => simp at hx; subst hx; exact .inl (hw y (by simp))

theorem head_mark {w : Str} (hw : Blank w) {c : Byte} {r : Str} (hc : c ≠ 0) : ∃ x ∈ (w ++ c :: r).head?, x ≠ 0 := by
  cases w with
  | nil => exact ⟨c, rfl, hc⟩
  | cons y w =>
    refine ⟨y, rfl, ?_⟩
    rintro rfl
    have := hw 0 (by simp)
    revert this
    decide

theorem arrLoop_loose (l : List LItem) (hne : l ≠ []) : ∀ {str : Str} {off : Nat} {r : Str} {f : Nat},
    (∀ x ∈ l, Blank x.pre ∧ Blank x.post) → (∀ x ∈ l, LReads x.num x.text x.value) →
    At str off (commas (l.map LItem.full) ++ byte ']' :: r) → 2 * (commas (l.map LItem.full)).length + 1 ≤ f →
    arrLoop str f off = .ok (l.map LItem.value, off + (commas (l.map LItem.full)).length + 1) := by
  induction l with
  | nil => exact absurd rfl hne
  | cons x l ih =>
    intro str off r f hw hx ha hf
    obtain ⟨f, rfl⟩ : ∃ g, f = g + 1 := ⟨f - 1, by omega⟩
    have hx1 : LReads x.num x.text x.value := hx x (by simp)
    have hw1 := hw x (by simp)
    unfold arrLoop
    by_cases hl : l = []
    · subst hl
      simp only [List.map_cons, List.map_nil, commas] at ha hf ⊢
      have ha' : At str off (x.pre ++ x.text ++ (x.post ++ byte ']' :: r)) := by
        simpa [LItem.full] using ha
      obtain ⟨off', e, ho⟩ := hx1 (f := f) ha' hw1.1 (fun _ => ends_mark hw1.2 (.inl (.inr (.inr (.inl rfl)))))
        (by simp [LItem.full] at hf; omega)
      have ho := ho (fun _ => head_mark hw1.2 (by decide))
      rw [e]
      simp only [Out.ok_bind]
      have ha2 : At str off' (x.post ++ byte ']' :: r) := by
        have := ha'.append
        rw [List.length_append, ← Nat.add_assoc] at this
        rwa [ho]
      rw [skip_blank ha2 hw1.2 (nonSp_of (by decide))]
      simp only [Out.ok_bind]
      rw [ha2.append.cons.1]
      simp only [Out.ok_bind]
      rw [if_neg (by decide), if_pos trivial, ho]
      simp [LItem.full]; omega
    · have hc : commas ((x :: l).map LItem.full) = x.full ++ byte ',' :: commas (l.map LItem.full) := by
        rw [List.map_cons, commas_cons _ (by simpa using hl)]
      rw [hc] at ha hf ⊢
      have ha' : At str off (x.pre ++ x.text ++ (x.post ++ byte ',' :: (commas (l.map LItem.full) ++ byte ']' :: r))) := by
        simpa [LItem.full] using ha
      obtain ⟨off', e, ho⟩ := hx1 (f := f) ha' hw1.1 (fun _ => ends_mark hw1.2 (.inl (.inr (.inl rfl))))
        (by simp [LItem.full] at hf; omega)
      have ho := ho (fun _ => head_mark hw1.2 (by decide))
      rw [e]
      simp only [Out.ok_bind]
      have ha2 : At str off' (x.post ++ byte ',' :: (commas (l.map LItem.full) ++ byte ']' :: r)) := by
        have := ha'.append
        rw [List.length_append, ← Nat.add_assoc] at this
        rwa [ho]
      rw [skip_blank ha2 hw1.2 (nonSp_of (by decide))]
      simp only [Out.ok_bind]
      rw [ha2.append.cons.1]
      simp only [Out.ok_bind]
      rw [if_pos trivial, ih hl (fun y hy => hw y (by simp [hy])) (fun y hy => hx y (by simp [hy])) ha2.append.cons.2
        (by simp at hf; omega), ho]
      simp [LItem.full]; omega

theorem objLoop_loose (l : List LMember) (hne : l ≠ []) : ∀ {str : Str} {off : Nat} {r : Str} {f : Nat}
    {m ps : List (Str × Value)},
    (∀ x ∈ l, Blank x.key.pre ∧ Blank x.key.post ∧ Blank x.item.pre ∧ Blank x.item.post) →
    (∀ x ∈ l, LReads x.key.num x.key.text x.key.value) → (∀ x ∈ l, x.key.num = true → x.key.post ≠ []) →
    (∀ x ∈ l, LReads x.item.num x.item.text x.item.value ∧ ∃ c t, x.item.text = c :: t ∧ Start c) →
    List.Forall₂ (fun (x : LMember) (p : Str × Value) => KeyOf x.key.value p.1 ∧ p.2 = x.item.value) l ps →
    At str off (commas (l.map LMember.full) ++ byte '}' :: r) → 2 * (commas (l.map LMember.full)).length + 1 ≤ f →
    objLoop str f off m = .ok (puts ps m, off + (commas (l.map LMember.full)).length + 1) := by
  induction l with
  | nil => exact absurd rfl hne
  | cons x l ih =>
    intro str off r f m ps hw hk hn hx hp ha hf
    obtain ⟨f, rfl⟩ : ∃ g, f = g + 1 := ⟨f - 1, by omega⟩
    cases hp with
    | cons hp1 hp2 =>
      rename_i p ps
      have hk1 : LReads x.key.num x.key.text x.key.value := hk x (by simp)
      have hn1 := hn x (by simp)
      obtain ⟨hx1, c0, t0, hx2, hx3⟩ := hx x (by simp)
      obtain ⟨hw1, hw2, hw3, hw4⟩ := hw x (by simp)
      have common : ∀ {s : Str} {c : Byte}, c = byte ',' ∨ c = byte '}' → At str off (x.full ++ c :: s) →
          2 * x.full.length ≤ f → ∃ o1 o2 o3 o4 o5, parseNext str f off = .ok (x.key.value, o1) ∧ skip str o1 = .ok o2 ∧
            strAt str (o2 : Nat) = .ok (byte ':') ∧ skip str (o2 + 1) = .ok o3 ∧ parseNext str f o3 = .ok (x.item.value, o4) ∧
            skip str o4 = .ok o5 ∧ At str o5 (c :: s) ∧ o5 = off + x.full.length := by
        intro s c hc ha hf
        have hcE : EndC c := by rcases hc with rfl | rfl <;> unfold EndC <;> simp
        have hc0 : c ≠ 0 := by rcases hc with rfl | rfl <;> decide
        have hcs : isspace c = .ok false := by rcases hc with rfl | rfl <;> decide
        have ha1 : At str off (x.key.pre ++ x.key.text ++ (x.key.post ++ byte ':' ::
            (x.item.pre ++ (x.item.text ++ (x.item.post ++ c :: s))))) := by
          simpa [LMember.full, LItem.full] using ha
        have hlen : x.full.length = x.key.pre.length + x.key.text.length + x.key.post.length + 1 + x.item.pre.length +
            x.item.text.length + x.item.post.length := by simp [LMember.full, LItem.full]; omega
        have hne : x.key.num = true → ∃ z ∈ (x.key.post ++ byte ':' ::
            (x.item.pre ++ (x.item.text ++ (x.item.post ++ c :: s)))).head?, z ≠ 0 := fun _ => head_mark hw2 (by decide)
        obtain ⟨o1, e1, q1⟩ := hk1 (f := f) ha1 hw1 (fun h => ends_mark hw2 (.inr (hn1 h))) (by omega)
        have q1 := q1 hne
        have ha2 := ha1.append
        rw [List.length_append, ← Nat.add_assoc, ← q1] at ha2
        have ha3 := ha2.append
        have ha4 := ha3.cons.2
        have ha5 := ha4.append
        have ha5' := ha5
        rw [hx2, List.cons_append] at ha5'
        have ha5'' : At str (o1 + x.key.post.length + 1 + x.item.pre.length) ([] ++ x.item.text ++ (x.item.post ++ c :: s)) := by
          simpa using ha5
        obtain ⟨o4, e4, q4⟩ := hx1 (f := f) ha5'' blank_nil (fun _ => ends_mark hw4 (.inl hcE)) (by omega)
        have q4 := q4 (fun _ => head_mark hw4 hc0)
        have ha6 := ha5.append
        simp only [List.length_nil, Nat.add_zero] at q4
        rw [← q4] at ha6
        have ha7 := ha6.append
        refine ⟨o1, _, _, o4, _, e1, skip_blank ha2 hw2 (nonSp_of (by decide)), ha3.cons.1,
          skip_blank ha4 hw3 (by rw [hx2]; exact nonSp_start hx3), e4, skip_blank ha6 hw4 (nonSp_of hcs), ha7, ?_⟩
        rw [hlen]; omega
      have hput : put x.key.value.toString x.item.value m = put p.1 p.2 m := by rw [← keyOf_eq hp1.1, hp1.2]
      unfold objLoop
      by_cases hl : l = []
      · subst hl
        simp only [List.map_cons, List.map_nil, commas] at ha hf ⊢
        cases hp2
        obtain ⟨o1, o2, o3, o4, o5, e1, e2, e3, e4, e5, e6, e7, e8⟩ := common (.inr rfl) ha (by omega)
        rw [e1]
        simp only [Out.ok_bind]
        rw [e2]
        simp only [Out.ok_bind]
        rw [e3]
        simp only [Out.ok_bind]
        rw [if_neg (by simp), e4]
        simp only [Out.ok_bind]
        rw [e5]
        simp only [Out.ok_bind]
        rw [e6]
        simp only [Out.ok_bind]
        rw [e7.cons.1]
        simp only [Out.ok_bind]
        rw [if_neg (by decide), if_pos trivial, hput, e8]
        rfl
      · have hc : commas ((x :: l).map LMember.full) = x.full ++ byte ',' :: commas (l.map LMember.full) := by
          rw [List.map_cons, commas_cons _ (by simpa using hl)]
        rw [hc] at ha hf ⊢
        obtain ⟨o1, o2, o3, o4, o5, e1, e2, e3, e4, e5, e6, e7, e8⟩ :=
          common (s := commas (l.map LMember.full) ++ byte '}' :: r) (.inl rfl) (by simpa using ha)
            (by simp at hf; omega)
        rw [e1]
        simp only [Out.ok_bind]
        rw [e2]
        simp only [Out.ok_bind]
        rw [e3]
        simp only [Out.ok_bind]
        rw [if_neg (by simp), e4]
        simp only [Out.ok_bind]
        rw [e5]
        simp only [Out.ok_bind]
        rw [e6]
        simp only [Out.ok_bind]
        rw [e7.cons.1]
        simp only [Out.ok_bind]
        rw [if_pos trivial, ih hl (fun y hy => hw y (by simp [hy])) (fun y hy => hk y (by simp [hy]))
          (fun y hy => hn y (by simp [hy])) (fun y hy => hx y (by simp [hy])) hp2 e7.cons.2
          (by simp at hf; omega), hput, e8, puts_cons]
        simp; omega

theorem reads_loose {b : Bool} {t : Str} {v : Value} (d : Loose b t v) : LReads b t v := by
  -- the beginning, common to all cases
  have begin_ : ∀ {t : Str} {str : Str} {off : Nat} {w r : Str} {c : Byte} {t' : Str}, t = c :: t' → Start c →
      At str off (w ++ t ++ r) → Blank w →
      skip str off = .ok (off + w.length) ∧ strAt str (off + w.length : Nat) = .ok c ∧
        At str (off + w.length) (c :: (t' ++ r)) := by
    intro t str off w r c t' e hs ha hw
    rw [e, List.append_assoc, List.cons_append] at ha
    exact ⟨skip_blank ha hw (nonSp_start hs), ha.append.cons.1, ha.append⟩
  have num : ∀ {s : Str} {v : Value}, Numeral s v → ∀ {str : Str} {off : Nat} {w r : Str} {f : Nat},
      At str off (w ++ s ++ r) → Blank w → EndsNum r → 2 * s.length ≤ f →
      parseNext str f off = .ok (v, off + w.length + s.length + if r.head?.getD 0 = 0 then 1 else 0) := by
    intro s v hv str off w r f ha hw hr hf
    obtain ⟨c, t', e, hc⟩ : ∃ c t, s = c :: t ∧ (isDigit c = true ∨ c = byte '-') := by
      obtain ⟨n, hn, rfl, -⟩ := hv
      exact hn.head
    obtain ⟨f, rfl⟩ : ∃ g, f = g + 1 := ⟨f - 1, by rw [e] at hf; simp at hf; omega⟩
    obtain ⟨b1, b2, b3⟩ := begin_ e (.inr (.inr (.inr (.inr (.inr (.inr hc)))))) ha hw
    unfold parseNext
    rw [b1]
    simp only [Out.ok_bind]
    rw [b2]
    simp only [Out.ok_bind]
    have hne := num_start c hc
    rw [if_neg hne.1, if_neg hne.2.1, if_neg hne.2.2.1, if_neg hne.2.2.2.1, if_neg hne.2.2.2.2, if_pos hc]
    rw [List.append_assoc] at ha
    exact parseNumber_loose hv ha.append hr
  induction d with
  | null =>
    intro str off w r f ha hw hr hf
    obtain ⟨f, rfl⟩ : ∃ g, f = g + 1 := ⟨f - 1, by simp [bytes] at hf; omega⟩
    obtain ⟨b1, b2, b3⟩ := begin_ rfl (by decide) ha hw
    unfold parseNext
    rw [b1]
    simp only [Out.ok_bind]
    rw [b2]
    simp only [Out.ok_bind]
    rw [if_neg (by decide), if_neg (by decide), if_neg (by decide), if_neg (by decide), if_pos (by decide)]
    rw [List.append_assoc] at ha
    unfold parseNull
    rw [if_pos (at_take 4 rfl ha.append)]
    exact ⟨_, rfl, fun _ => rfl⟩
  | true =>
    intro str off w r f ha hw hr hf
    obtain ⟨f, rfl⟩ : ∃ g, f = g + 1 := ⟨f - 1, by simp [bytes] at hf; omega⟩
    obtain ⟨b1, b2, b3⟩ := begin_ rfl (by decide) ha hw
    unfold parseNext
    rw [b1]
    simp only [Out.ok_bind]
    rw [b2]
    simp only [Out.ok_bind]
    rw [if_neg (by decide), if_neg (by decide), if_neg (by decide), if_pos (by decide)]
    rw [List.append_assoc] at ha
    unfold parseBool
    rw [if_pos (at_take 4 rfl ha.append)]
    exact ⟨_, rfl, fun _ => rfl⟩
  | false =>
    intro str off w r f ha hw hr hf
    obtain ⟨f, rfl⟩ : ∃ g, f = g + 1 := ⟨f - 1, by simp [bytes] at hf; omega⟩
    obtain ⟨b1, b2, b3⟩ := begin_ rfl (by decide) ha hw
    unfold parseNext
    rw [b1]
    simp only [Out.ok_bind]
    rw [b2]
    simp only [Out.ok_bind]
    rw [if_neg (by decide), if_neg (by decide), if_neg (by decide), if_pos (by decide)]
    rw [List.append_assoc] at ha
    unfold parseBool
    rw [if_neg, if_pos (at_take 5 rfl ha.append)]
    · exact ⟨_, rfl, fun _ => rfl⟩
    · rw [ha.append.2]
      intro h
      have := congrArg List.head? h
      revert this
      simp [bytes]
      decide
  | num s v h =>
    intro str off w r f ha hw hr hf
    rw [num h ha hw (hr rfl) hf]
    refine ⟨_, rfl, fun hz => ?_⟩
    obtain ⟨c, hc, h0⟩ := hz rfl
    rw [Option.mem_def.1 hc]
    simp [h0]
  | numNul s v h =>
    intro str off w r f ha hw hr hf
    rw [num h (r := 0 :: r) (by simpa using ha) hw (by intro c hc; simp at hc; subst hc; simp) (by simp at hf; omega)]
    exact ⟨_, rfl, fun _ => by simp; omega⟩
  | str t s hb =>
    intro str off w r f ha hw hr hf
    obtain ⟨f, rfl⟩ : ∃ g, f = g + 1 := ⟨f - 1, by simp at hf; omega⟩
    obtain ⟨b1, b2, b3⟩ := begin_ rfl (by decide) ha hw
    unfold parseNext
    rw [b1]
    simp only [Out.ok_bind]
    rw [b2]
    simp only [Out.ok_bind]
    rw [if_neg (by decide), if_neg (by decide), if_pos (by decide)]
    have b4 : At str (off + w.length + 1) (t ++ byte '"' :: r) := by simpa using b3.cons.2
    have hl := b4.len
    simp at hl
    unfold parseString
    rw [stringGo_loose hb b4 (by omega)]
    exact ⟨_, rfl, fun _ => by simp; omega⟩
  | arr0 w' hw' =>
    intro str off w r f ha hw hr hf
    obtain ⟨f, rfl⟩ : ∃ g, f = g + 1 := ⟨f - 1, by simp at hf; omega⟩
    obtain ⟨b1, b2, b3⟩ := begin_ rfl (by decide) ha hw
    unfold parseNext
    rw [b1]
    simp only [Out.ok_bind]
    rw [b2]
    simp only [Out.ok_bind]
    rw [if_pos (by decide)]
    have b4 : At str (off + w.length + 1) (w' ++ byte ']' :: r) := by simpa using b3.cons.2
    rw [skip_blank b4 hw' (nonSp_of (by decide))]
    simp only [Out.ok_bind]
    rw [b4.append.cons.1]
    simp only [Out.ok_bind, if_true]
    exact ⟨_, rfl, fun _ => by simp; omega⟩
  | obj0 w' hw' =>
    intro str off w r f ha hw hr hf
    obtain ⟨f, rfl⟩ : ∃ g, f = g + 1 := ⟨f - 1, by simp at hf; omega⟩
    obtain ⟨b1, b2, b3⟩ := begin_ rfl (by decide) ha hw
    unfold parseNext
    rw [b1]
    simp only [Out.ok_bind]
    rw [b2]
    simp only [Out.ok_bind]
    rw [if_neg (by decide), if_pos (by decide)]
    have b4 : At str (off + w.length + 1) (w' ++ byte '}' :: r) := by simpa using b3.cons.2
    rw [skip_blank b4 hw' (nonSp_of (by decide))]
    simp only [Out.ok_bind]
    rw [b4.append.cons.1]
    simp only [Out.ok_bind, if_true]
    exact ⟨_, rfl, fun _ => by simp; omega⟩
  | arr l hne hws hd ih =>
    intro str off w r f ha hw hr hf
    obtain ⟨f, rfl⟩ : ∃ g, f = g + 1 := ⟨f - 1, by simp at hf; omega⟩
    obtain ⟨b1, b2, b3⟩ := begin_ rfl (by decide) ha hw
    unfold parseNext
    rw [b1]
    simp only [Out.ok_bind]
    rw [b2]
    simp only [Out.ok_bind]
    rw [if_pos (by decide)]
    have b4 : At str (off + w.length + 1) (commas (l.map LItem.full) ++ byte ']' :: r) := by simpa using b3.cons.2
    cases l with
    | nil => exact absurd rfl hne
    | cons x l =>
      obtain ⟨c, t', hx, hs⟩ := loose_head (hd x (by simp))
      let x' : LItem := ⟨[], x.text, x.post, x.value, x.num⟩
      have hcm : commas ((x :: l).map LItem.full) = x.pre ++ commas ((x' :: l).map LItem.full) :=
        pre_commas LItem.full x.pre x' l x (by simp [LItem.full, x'])
      have hcm' : ∃ u, commas ((x' :: l).map LItem.full) = c :: u := by
        cases l with
        | nil => simp [commas, LItem.full, x', hx]
        | cons y l => simp [commas, LItem.full, x', hx]
      obtain ⟨u, hu⟩ := hcm'
      rw [hcm] at b4 hf ⊢
      rw [List.append_assoc] at b4
      rw [skip_blank b4 (hws x (by simp)).1 (by rw [hu]; exact nonSp_start hs)]
      simp only [Out.ok_bind]
      have b5 := b4.append
      have b6 := b5
      rw [hu] at b6
      rw [b6.cons.1]
      simp only [Out.ok_bind]
      rw [if_neg (start_facts c hs).2.1]
      have hall : ∀ y ∈ x' :: l, (Blank y.pre ∧ Blank y.post) ∧ LReads y.num y.text y.value := by
        intro y hy
        rcases List.mem_cons.1 hy with rfl | hy
        · exact ⟨⟨blank_nil, (hws x (by simp)).2⟩, ih x (by simp)⟩
        · exact ⟨hws y (by simp [hy]), ih y (by simp [hy])⟩
      rw [arrLoop_loose (x' :: l) (by simp) (fun y hy => (hall y hy).1) (fun y hy => (hall y hy).2) b5
        (by simp at hf ⊢; omega)]
      exact ⟨_, rfl, fun _ => by simp; omega⟩
  | obj l ps m hne hws hk hn hd hp hm ihk ih =>
    intro str off w r f ha hw hr hf
    obtain ⟨f, rfl⟩ : ∃ g, f = g + 1 := ⟨f - 1, by simp at hf; omega⟩
    obtain ⟨b1, b2, b3⟩ := begin_ rfl (by decide) ha hw
    unfold parseNext
    rw [b1]
    simp only [Out.ok_bind]
    rw [b2]
    simp only [Out.ok_bind]
    rw [if_neg (by decide), if_pos (by decide)]
    have b4 : At str (off + w.length + 1) (commas (l.map LMember.full) ++ byte '}' :: r) := by simpa using b3.cons.2
    cases l with
    | nil => exact absurd rfl hne
    | cons x l =>
      obtain ⟨c, t', hx, hs⟩ := loose_head (hk x (by simp))
      let x' : LMember := ⟨⟨[], x.key.text, x.key.post, x.key.value, x.key.num⟩, x.item⟩
      have hcm : commas ((x :: l).map LMember.full) = x.key.pre ++ commas ((x' :: l).map LMember.full) :=
        pre_commas LMember.full x.key.pre x' l x (by simp [LMember.full, LItem.full, x'])
      have hcm' : ∃ u, commas ((x' :: l).map LMember.full) = c :: u := by
        cases l with
        | nil => simp [commas, LMember.full, LItem.full, x', hx]
        | cons y l => simp [commas, LMember.full, LItem.full, x', hx]
      obtain ⟨u, hu⟩ := hcm'
      rw [hcm] at b4 hf ⊢
      rw [List.append_assoc] at b4
      rw [skip_blank b4 (hws x (by simp)).1 (by rw [hu]; exact nonSp_start hs)]
      simp only [Out.ok_bind]
      have b5 := b4.append
      have b6 := b5
      rw [hu] at b6
      rw [b6.cons.1]
      simp only [Out.ok_bind]
      rw [if_neg (start_facts c hs).2.2]
      have hall : ∀ y ∈ x' :: l, (Blank y.key.pre ∧ Blank y.key.post ∧ Blank y.item.pre ∧ Blank y.item.post) ∧
          LReads y.key.num y.key.text y.key.value ∧ (y.key.num = Bool.true → y.key.post ≠ []) ∧
          (LReads y.item.num y.item.text y.item.value ∧ ∃ c t, y.item.text = c :: t ∧ Start c) := by
        intro y hy
        rcases List.mem_cons.1 hy with rfl | hy
        · exact ⟨⟨blank_nil, (hws x (by simp)).2⟩, ihk x (by simp), hn x (by simp), ih x (by simp),
            loose_head (hd x (by simp))⟩
        · exact ⟨hws y (by simp [hy]), ihk y (by simp [hy]), hn y (by simp [hy]), ih y (by simp [hy]),
            loose_head (hd y (by simp [hy]))⟩
      have hp' : List.Forall₂ (fun (x : LMember) (p : Str × Value) => KeyOf x.key.value p.1 ∧ p.2 = x.item.value) (x' :: l) ps := by
        cases hp with
        | cons h1 h2 => exact .cons h1 h2
      rw [objLoop_loose (x' :: l) (by simp) (fun y hy => (hall y hy).1) (fun y hy => (hall y hy).2.1)
        (fun y hy => (hall y hy).2.2.1) (fun y hy => (hall y hy).2.2.2) hp' b5 (by simp at hf ⊢; omega), mapOf_eq hm]
      exact ⟨_, rfl, fun _ => by simp; omega⟩

theorem loose_load {t : Str} {v : Value} (h : LooseText t v) : loadJSON t = .ok v := by
  obtain ⟨w, d, r, hw, rfl, h⟩ := h
  have ha : At (w ++ d ++ r) 0 (w ++ d ++ r) := At.zero _
  unfold loadJSON
  have hread : ∀ b, Loose b d v → (b = true → EndsNum r) →
      (do let (v, _) ← parseNext (w ++ d ++ r) (2 * (w ++ d ++ r).length + 3) 0; .ok v) = Out.ok v := by
    intro b hb hr
    obtain ⟨o, e, -⟩ := reads_loose hb (f := 2 * (w ++ d ++ r).length + 3) ha hw hr (by simp; omega)
    rw [e]
    rfl
  rcases h with h | ⟨h, hr⟩ | ⟨h, hr⟩
  · exact hread _ h (by simp)
  · exact hread _ h (fun _ => hr)
  · obtain ⟨c, t', e, hc⟩ : ∃ c t, d = c :: t ∧ (isDigit c = true ∨ c = byte '-') := by
      obtain ⟨n, e, x, ds, k, hn, -, -, -, -, -, hd, -⟩ := h
      obtain ⟨c, t, e, hc⟩ := hn.head
      exact ⟨c, _, by rw [hd, e]; rfl, hc⟩
    have ha' : At (w ++ d ++ r) 0 (w ++ (c :: (t' ++ r))) := by rw [e] at ha ⊢; simpa using ha
    have hs : skip (w ++ d ++ r) 0 = .ok (0 + w.length) :=
      skip_blank ha' hw (nonSp_start (.inr (.inr (.inr (.inr (.inr (.inr hc)))))))
    have ha2 : At (w ++ d ++ r) (0 + w.length) (d ++ r) := by
      rw [List.append_assoc] at ha ⊢
      exact ha.append
    obtain ⟨o, ho⟩ := parseNumber_expo h ha2 hr
    have hne := num_start c hc
    show (do let (v, _) ← parseNext (w ++ d ++ r) ((2 * (w ++ d ++ r).length + 2) + 1) 0; .ok v) = Out.ok v
    unfold parseNext
    rw [hs]
    simp only [Out.ok_bind]
    rw [ha'.append.cons.1]
    simp only [Out.ok_bind]
    rw [if_neg hne.1, if_neg hne.2.1, if_neg hne.2.2.1, if_neg hne.2.2.2.1, if_neg hne.2.2.2.2, if_pos hc, ho]
    rfl

theorem load_loose {t : Str} {v : Value} (h : loadJSON t = .ok v) : LooseText t v := by
  unfold loadJSON at h
  obtain ⟨⟨v', o⟩, hr, h⟩ := Out.bind_eq_ok.1 h
  cases h
  obtain ⟨w, d, r, k1, k2, k3⟩ := (parse_at t _).1 _ _ _ hr
  refine ⟨w, d, r, k1, (At.zero t).eq k2, ?_⟩
  cases k3 with
  | closed h ho => exact .inl h
  | number h c r' hr hc ho =>
    refine .inr (.inl ⟨h, ?_⟩)
    rw [hr]
    intro x hx
    simp at hx
    subst hx
    exact hc
  | out h hr ho => exact .inr (.inl ⟨h, by rw [hr]; simp [EndsNum]⟩)
  | exp h hr c ho hc => exact .inr (.inr ⟨h, hr⟩)

end Json
