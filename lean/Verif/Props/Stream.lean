import Verif.Proof.Stream

/-! # Text input and output of Vector<int>, stringCast<int>: properties C85, C86, C87 -/

namespace Stream.Props
open Cpp Spec

/-- **C85.**  From a text that denotes a vector of integers in the range of `int`, followed by anything, `>>` reads that
vector and leaves what follows. -/
theorem C85_read (t : Str) (v : List Int) (h : VecText t v) (rest : Str) :
    readVector { rest := t ++ rest } = .ok (v, { back := t.reverse, rest := rest }) := by
  cases h with
  | nil a b ha hb =>
    have e : (a ++ byte '{' :: b ++ [byte '}']) ++ rest = a ++ byte '{' :: (b ++ byte '}' :: rest) := by simp
    rw [e]
    unfold readVector
    rw [getChar_good [] ha brace_facts.2.2.2.2.2.1]
    simp only [use, Out.ok_bind]
    rw [if_neg (by simp), getChar_good _ hb brace_facts.2.1]
    simp
  | items a ha xs hne h =>
    obtain ⟨x, xs, rfl⟩ := List.exists_cons_of_ne_nil hne
    have hx := h x (by simp)
    obtain ⟨ch, n, hn, e⟩ := readVector_start [] a ha x xs hx (byte '}' :: rest)
    have e1 : (a ++ byte '{' :: commas (x :: xs) ++ [byte '}']) ++ rest =
        a ++ byte '{' :: (commas (x :: xs) ++ byte '}' :: rest) := by simp
    have hok : ∀ y ∈ ({ x with pre := [] } : Item) :: xs, y.Ok := by
      intro y hy
      rw [List.mem_cons] at hy
      rcases hy with rfl | hy
      · exact item_pre hx
      · exact h y (by simp [hy])
    have hlen := commas_length _ hok
    have hn' : (({ x with pre := [] } : Item) :: xs).length ≤ n + 2 := by
      rw [commas_pre] at hn
      simp at hn hlen ⊢
      omega
    rw [e1, e, readLoop_items _ (by simp) hok (byte '}') brace_facts.1 brace_facts.2.1 brace_facts.2.2.2.2.1.symm rest (n + 2) hn',
      if_pos rfl]
    simp only [commas_pre x xs]
    simp

/-- **C85.**  What `<<` writes for a Vector of ints is a text that denotes it, and `>>` reads the same Vector from it, with
anything behind it. -/
theorem C85_roundtrip (v : List Int) (hv : ∀ x ∈ v, IsInt x) (hlen : (v.length : Int) ≤ INT_MAX) (rest : Str) :
    ∃ t, printVector v = .ok t ∧ VecText t v ∧ readVector { rest := t ++ rest } = .ok (v, { back := t.reverse, rest := rest }) := by
  suffices ∃ t, printVector v = .ok t ∧ VecText t v by
    obtain ⟨t, h1, h2⟩ := this
    exact ⟨t, h1, h2, C85_read t v h2 rest⟩
  have hs : Cont.Vector.size v = v.length := by
    rw [Cont.Vector.size, toInt_small (by unfold INT_MAX at hlen; omega)]
  unfold printVector
  rw [hs]
  rcases List.eq_nil_or_concat v with rfl | ⟨u, x, rfl⟩
  · exact ⟨_, rfl, .nil [] [] (by simp [Ws]) (by simp [Ws])⟩
  · rw [List.concat_eq_append] at *
    have hlast : Cont.Vector.last (u ++ [x]) = .ok x := by
      simp [Cont.Vector.last, Cont.Vector.emptyCheck, Stl.back]
    rw [if_neg (by simp; omega), hlast]
    -- the elements: the first without white space before it, the others with one blank
    let item (p : Str) (i : Int) : Item := ⟨p, Json.decInt i, [], i⟩
    have hok : ∀ p, Ws p → ∀ i ∈ u ++ [x], (item p i).Ok :=
      fun p hp i hi => ⟨hp, decInt_num i, by simp [item, Ws], hv i hi⟩
    have hblank : Ws [32] := by simp [Ws]
    cases u with
    | nil =>
      refine ⟨_, rfl, ?_⟩
      have := VecText.items [] (by simp [Ws]) [item [] x] (by simp) (by
        intro y hy
        simp only [List.mem_singleton] at hy
        rw [hy]; exact hok [] (by simp [Ws]) x (by simp))
      simpa [commas, Item.text, item, bytes] using this
    | cons y u =>
      rw [if_neg (by simp; omega)]
      refine ⟨_, rfl, ?_⟩
      have hcm : ∀ (u : List Int) (p : Str) (y : Int), commas (item p y :: (u ++ [x]).map (item [32])) =
          p ++ copyOut (y :: u) ++ Json.decInt x := by
        intro u
        induction u with
        | nil => intro p y; simp [commas, Item.text, item, copyOut, bytes, byte]
        | cons z u ih =>
          intro p y
          rw [List.cons_append, List.map_cons, commas, ih [32] z]
          · simp [Item.text, item, copyOut, bytes, byte]
          · simp
      have := VecText.items [] (by simp [Ws]) (item [] y :: (u ++ [x]).map (item [32])) (by simp) (by
        intro z hz
        rw [List.mem_cons, List.mem_map] at hz
        rcases hz with rfl | ⟨i, hi, rfl⟩
        · exact hok [] (by simp [Ws]) y (by simp)
        · exact hok [32] hblank i (by simp at hi ⊢; exact .inr hi))
      rw [hcm] at this
      have hm : (item [] y :: (u ++ [x]).map (item [32])).map Item.val = y :: u ++ [x] := by
        simp [item, Function.comp_def]
      rw [hm] at this
      have hdl : (y :: u ++ [x]).dropLast = y :: u := List.dropLast_concat
      rw [hdl]
      simpa [bytes] using this

/-- a text of a vector, with white space, signs and a leading zero -/
def sample : Str := bytes [' ', '{', '1', ',', '\n', '-', '0', '2', ' ', ',', '+', '3', '}']

theorem sample_text : VecText sample [1, -2, 3] :=
  .items [32] (by decide) [⟨[], [49], [], 1⟩, ⟨[10], bytes ['-', '0', '2'], [32], -2⟩, ⟨[], bytes ['+', '3'], [], 3⟩] (by simp)
    (by
      have hnil : Ws [] := by decide
      intro x hx
      simp only [List.mem_cons, List.not_mem_nil, or_false] at hx
      rcases hx with rfl | rfl | rfl
      · exact ⟨hnil, .plain [49] (by decide), hnil, by decide⟩
      · exact ⟨by show Ws [10]; decide, .minus (bytes ['0', '2']) (by decide), by show Ws [32]; decide, by decide⟩
      · exact ⟨hnil, .plus [51] (by decide), hnil, by decide⟩)

example : readVector { rest := sample ++ bytes [' ', '7'] } =
    .ok ([1, -2, 3], { back := sample.reverse, rest := bytes [' ', '7'] }) := C85_read _ _ sample_text _

example : printVector [10, -3, 0] = .ok (bytes ['{', '1', '0', ',', ' ', '-', '3', ',', ' ', '0', '}']) := by decide +kernel
example : ∃ t, printVector [10, -3, 0] = .ok t ∧ VecText t [10, -3, 0] ∧
    readVector { rest := t ++ [65] } = .ok ([10, -3, 0], { back := t.reverse, rest := [65] }) :=
  C85_roundtrip _ (by decide) (by decide) _

/-! ## malformed texts -/

/-- **C86, refuted.**  Malformed texts that are not reported: an element that is no number, a comma before the brace, an
element out of the range of `int`, an empty text and a text that ends after the brace or a comma make the program use a
variable without a value. -/
theorem C86_refuted :
    readVector { rest := bytes ['{', '1', ',', 'x', '}'] } = .ub ∧
    readVector { rest := bytes ['{', '1', ',', '}'] } = .ub ∧
    readVector { rest := bytes ['{', '1', ',', '9', '9', '9', '9', '9', '9', '9', '9', '9', '9', '}'] } = .ub ∧
    readVector { rest := [] } = .ub ∧ readVector { rest := bytes ['{'] } = .ub ∧
    readVector { rest := bytes ['{', '1', ','] } = .ub := by
  refine ⟨?_, ?_, ?_, ?_, ?_, ?_⟩ <;> rfl

/-- **C86, what holds.**  A text that does not begin with `{` ends the program. -/
theorem C86_start_partial (a : Str) (ha : Ws a) (c : Byte) (hc : ¬ Ws [c]) (hb : c ≠ byte '{') (t : Str) :
    readVector { rest := a ++ c :: t } = .exit := by
  have hw : isWs c = false := by
    rw [← Bool.not_eq_true, isWs_iff]
    intro h
    exact hc (by simpa [Ws] using h)
  unfold readVector
  rw [getChar_good [] ha hw]
  simp only [use, Out.ok_bind]
  rw [if_pos hb]

/-- **C86, what holds.**  If the elements are followed by the end of the text, or by a character that cannot come there,
the program is ended. -/
theorem C86_end_partial (a : Str) (ha : Ws a) (xs : List Item) (hne : xs ≠ []) (h : ∀ x ∈ xs, x.Ok) :
    readVector { rest := a ++ byte '{' :: commas xs } = .exit ∧
    ∀ (c : Byte) (_ : ¬ Ws [c]) (_ : ¬ Digits [c]) (_ : c ≠ byte ',') (_ : c ≠ byte '}') (t : Str),
      readVector { rest := a ++ byte '{' :: commas xs ++ c :: t } = .exit := by
  obtain ⟨x, xs, rfl⟩ := List.exists_cons_of_ne_nil hne
  have hx := h x (by simp)
  have hok : ∀ y ∈ ({ x with pre := [] } : Item) :: xs, y.Ok := by
    intro y hy
    rw [List.mem_cons] at hy
    rcases hy with rfl | hy
    · exact item_pre hx
    · exact h y (by simp [hy])
  have hlen := commas_length _ hok
  constructor
  · obtain ⟨ch, n, hn, e⟩ := readVector_start [] a ha x xs hx []
    simp only [List.append_nil] at e
    rw [e]
    refine readLoop_items_end _ (by simp) hok _ ?_ _ _ _
    rw [commas_pre] at hn
    simp at hn hlen ⊢
    omega
  · intro c h1 h2 h3 h4 t
    obtain ⟨ch, n, hn, e⟩ := readVector_start [] a ha x xs hx (c :: t)
    have hw : isWs c = false := by
      rw [← Bool.not_eq_true, isWs_iff]
      intro h
      exact h1 (by simpa [Ws] using h)
    have hd : Json.isDigit c = false := by
      rw [← Bool.not_eq_true, Json.digit_iff]
      intro h
      exact h2 ⟨by simp, by simpa using h⟩
    rw [List.append_assoc, List.cons_append, e, readLoop_items _ (by simp) hok c hd hw h3 t, if_neg h4]
    rw [commas_pre] at hn
    simp at hn hlen ⊢
    omega

/-- **C86.**  Reading never runs for ever, whatever the text. -/
theorem C86_terminates_partial (s : IStream) : readVector s ≠ .diverge := by
  unfold readVector
  cases h1 : s.getChar none with
  | mk ch s1 =>
    dsimp only
    cases ch with
    | none => simp [use]
    | some c =>
      simp only [use, Out.ok_bind]
      split
      · simp
      · cases h2 : s1.getChar (some c) with
        | mk ch s2 =>
          dsimp only
          cases ch with
          | none => simp
          | some d =>
            simp only [Out.ok_bind]
            split
            · exact readLoop_ends _ _ _ _ (.inr (Nat.le_refl _))
            · simp

example : readVector { rest := bytes [' ', '[', '1', '}'] } = .exit :=
  C86_start_partial [32] (by decide) (byte '[') (by decide) (by decide) _
example : readVector { rest := bytes ['{', '1', '2', ';'] } = .exit :=
  (C86_end_partial [] (by decide) [⟨[], bytes ['1', '2'], [], 12⟩] (by simp) (by
    intro x hx
    rw [List.mem_singleton] at hx
    subst hx
    exact ⟨by show Ws []; decide, .plain (bytes ['1', '2']) (by decide), by show Ws []; decide, by decide⟩)).2 (byte ';')
    (by decide) (by decide) (by decide) (by decide) []

/-! ## stringCast -/

/-- **C87, what holds.**  `stringCast<int>` of a text that begins with an integer, perhaps after white space, is that
integer, or the nearest `int` if it is out of range. -/
theorem C87_value_partial (w n t : Str) (v : Int) (hw : Ws w) (hn : Num n v) (ht : ∀ c ∈ t.head?, ¬ Digits [c]) :
    castInt (w ++ n ++ t) = .ok (max INT_MIN (min INT_MAX v)) := by
  unfold castInt
  have h : ∀ c ∈ t.head?, Json.isDigit c = false := by
    intro c hc
    rw [← Bool.not_eq_true, Json.digit_iff]
    intro h
    exact ht c hc ⟨by simp, by simpa using h⟩
  rw [List.append_assoc, getInt_num [] hw hn h]
  rfl

/-- **C87, what holds.**  It is 0 if the first character after white space is neither a digit nor a sign. -/
theorem C87_zero_partial (w t : Str) (c : Byte) (hw : Ws w) (h1 : ¬ Ws [c]) (h2 : ¬ Digits [c]) (h3 : c ≠ byte '-')
    (h4 : c ≠ byte '+') : castInt (w ++ c :: t) = .ok 0 := by
  have hc : isWs c = false := by
    rw [← Bool.not_eq_true, isWs_iff]
    intro h
    exact h1 (by simpa [Ws] using h)
  have hd : Json.isDigit c = false := by
    rw [← Bool.not_eq_true, Json.digit_iff]
    intro h
    exact h2 ⟨by simp, by simpa using h⟩
  unfold castInt IStream.getInt
  rw [sentry_good [] hw ⟨c, by simp, hc⟩]
  simp [h3, h4, hd, use]

/-- **C87, what holds.**  It is 0 for a sign that is not followed by a digit. -/
theorem C87_sign_partial (w t : Str) (c : Byte) (hw : Ws w) (h1 : c = byte '-' ∨ c = byte '+') (ht : ∀ d ∈ t.head?, ¬ Digits [d]) :
    castInt (w ++ c :: t) = .ok 0 := by
  have hc : isWs c = false := by rcases h1 with rfl | rfl <;> decide
  have hd : t.takeWhile Json.isDigit = [] := by
    cases t with
    | nil => rfl
    | cons d t =>
      have : Json.isDigit d = false := by
        rw [← Bool.not_eq_true, Json.digit_iff]
        intro h
        exact ht d (by simp) ⟨by simp, by simpa using h⟩
      simp [this]
  unfold castInt IStream.getInt
  rw [sentry_good [] hw ⟨c, by simp, hc⟩]
  rcases h1 with rfl | rfl <;> simp [hd, use]

example : castInt (bytes [' ', '-', ' ', '1']) = .ok 0 :=
  C87_sign_partial [32] (bytes [' ', '1']) (byte '-') (by decide) (.inl rfl) (by decide)

/-- **C87, refuted.**  The result for an empty text, or one of white space only, is a variable without a value. -/
theorem C87_refuted (w : Str) (hw : Ws w) : castInt w = .ub := by
  unfold castInt IStream.getInt
  rw [sentry_end [] hw]
  rfl

example : castInt (bytes ['\n', '-', '4', '2', 'k', 'g']) = .ok (-42) :=
  C87_value_partial [10] (bytes ['-', '4', '2']) (bytes ['k', 'g']) (-42) (by decide) (.minus (bytes ['4', '2']) (by decide))
    (by decide)
example : castInt (bytes ['9', '9', '9', '9', '9', '9', '9', '9', '9', '9']) = .ok 2147483647 :=
  C87_value_partial [] (bytes ['9', '9', '9', '9', '9', '9', '9', '9', '9', '9']) [] 9999999999 (by decide)
    (.plain _ (by decide)) (by simp)
example : castInt (bytes [' ', 'k', '1']) = .ok 0 := C87_zero_partial [32] [49] (byte 'k') (by decide) (by decide) (by decide)
  (by decide) (by decide)
example : castInt (bytes [' ', ' ']) = .ub := C87_refuted _ (by decide)

end Stream.Props
