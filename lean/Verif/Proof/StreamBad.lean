import Verif.Proof.Stream
import Mathlib.Data.List.TakeWhile
import Verif.Spec.StreamBad

/-! # Every text read as a vector of integers -/

namespace Stream
open Cpp Spec

theorem nws_of {c : Byte} (h : ¬ Ws [c]) : isWs c = false := by
  rw [← Bool.not_eq_true, isWs_iff]
  intro h'
  exact h (by simpa [Ws] using h')

theorem of_nws {c : Byte} (h : isWs c = false) : ¬ Ws [c] := by
  intro h'
  rw [← Bool.not_eq_true, isWs_iff] at h
  exact h (by simpa [Ws] using h')

theorem ndigit_of {c : Byte} (h : ¬ Digits [c]) : Json.isDigit c = false := by
  rw [← Bool.not_eq_true, Json.digit_iff]
  intro h'
  exact h ⟨by simp, by simpa using h'⟩

theorem of_ndigit {c : Byte} (h : Json.isDigit c = false) : ¬ Digits [c] := by
  rintro ⟨-, h'⟩
  rw [← Bool.not_eq_true, Json.digit_iff] at h
  exact h (by simpa using h')

/-- what `getInt` does where there is no number -/
theorem getInt_word (b : Str) {w s t : Str} (hw : Ws w) (hs : s = [] ∨ s = [byte '+'] ∨ s = [byte '-'])
    (ht : ∀ c ∈ t.head?, Json.isDigit c = false) (h0 : s = [] → ∃ c ∈ t.head?, isWs c = false ∧ c ≠ byte '+' ∧ c ≠ byte '-')
    (value : Option Int) :
    IStream.getInt ⟨b, w ++ (s ++ t), false, false⟩ value =
      (some 0, ⟨s.reverse ++ (w.reverse ++ b), t, decide (t = []), true⟩) := by
  have hd : t.takeWhile Json.isDigit = [] := by
    cases t with
    | nil => rfl
    | cons c t => simp [ht c (by simp)]
  have sg : isWs (byte '+') = false ∧ isWs (byte '-') = false := by decide
  unfold IStream.getInt
  rcases hs with rfl | rfl | rfl
  · obtain ⟨c, hc, h1, h2, h3⟩ := h0 rfl
    obtain ⟨t', rfl⟩ : ∃ t', t = c :: t' := by
      cases t with
      | nil => simp at hc
      | cons d t => simp at hc; exact ⟨t, by rw [hc]⟩
    rw [List.nil_append, sentry_good b hw ⟨c, by simp, h1⟩]
    have hd' : Json.isDigit c = false := ht c (by simp)
    simp [h2, h3, hd', IStream.take]
  · rw [sentry_good b hw ⟨byte '+', by simp, sg.1⟩]
    simp [IStream.take, hd]
  · rw [sentry_good b hw ⟨byte '-', by simp, sg.2⟩]
    simp [IStream.take, hd]

/-- what follows a failure in `getInt` -/
theorem readLoop_fail (fuel : Nat) (is : IStream) (c : Byte) (vec : List Int) (b t : Str) (v : Int)
    (h : is.getInt none = (some v, ⟨b, t, decide (t = []), true⟩)) (hc : c ≠ byte '}') :
    readLoop (fuel + 2) is (some c) vec = if t = [] ∨ c ≠ byte ',' then .exit else .ub := by
  rw [readLoop, h]
  simp only [use, Out.ok_bind]
  by_cases ht : t = []
  · subst ht
    simp [IStream.getChar, IStream.sentry]
  · simp only [IStream.getChar, IStream.sentry, ht, decide_false, Bool.or_true, if_true, Bool.false_eq_true, if_false, false_or,
      Out.ok_bind, if_neg hc]
    by_cases hc' : c = byte ','
    · subst hc'
      simp [readLoop, IStream.getInt, IStream.sentry, use]
    · simp [hc']

theorem comma_ne : byte ',' ≠ byte '}' := by decide

/-- behind a comma there is no `int` -/
theorem readLoop_noInt (fuel : Nat) (b : Str) (vec : List Int) {r : Str} (h : NoInt r) :
    readLoop (fuel + 2) ⟨b, r, false, false⟩ (some (byte ',')) vec = .ub := by
  cases h with
  | nothing w hw =>
    rw [readLoop]
    unfold IStream.getInt
    rw [sentry_end b hw]
    rfl
  | word w s c t hw hs hd hc =>
    rw [List.append_assoc, readLoop_fail fuel _ _ vec _ _ _ (getInt_word b (t := c :: t) hw hs ?_ ?_ none) comma_ne]
    · simp
    · intro d h'
      simp at h'
      rw [← h']
      exact ndigit_of hd
    · intro h'
      exact ⟨c, by simp, nws_of (hc h').1, (hc h').2⟩
  | range w n v c t hw hn hv hd =>
    rw [List.append_assoc]
    have := getInt_num b (t := c :: t) hw hn (by
      intro d h'
      simp at h'
      rw [← h']
      exact ndigit_of hd) none
    rw [if_neg hv] at this
    rw [readLoop_fail fuel _ _ vec _ _ _ this comma_ne]
    simp

/-- one element and the character after it, which may be a digit if there is white space between -/
theorem readLoop_item' (fuel : Nat) (b : Str) (x : Item) (hx : x.Ok) (c : Byte) (t : Str)
    (hd : ∀ d ∈ (x.post ++ c :: t).head?, Json.isDigit d = false) (hw : isWs c = false) (ch : Option Byte) (vec : List Int) :
    readLoop (fuel + 1) ⟨b, x.text ++ c :: t, false, false⟩ ch vec =
      if c = byte '}' then .ok (vec ++ [x.val], ⟨c :: (x.text.reverse ++ b), t, false, false⟩)
      else if c ≠ byte ',' then .exit
      else readLoop fuel ⟨c :: (x.text.reverse ++ b), t, false, false⟩ (some c) (vec ++ [x.val]) := by
  obtain ⟨h1, h2, h3, h4⟩ := hx
  rw [readLoop]
  have e : x.text ++ c :: t = x.pre ++ (x.num ++ (x.post ++ c :: t)) := by simp [Item.text]
  rw [e, getInt_num b h1 h2 hd]
  have hm : max INT_MIN (min INT_MAX x.val) = x.val := by
    unfold IsInt at h4; omega
  have hne : decide (x.post ++ c :: t = []) = false := by simp
  simp only [use, Out.ok_bind, hm, hne, if_pos h4]
  rw [getChar_good _ h3 hw]
  simp [Item.text]

/-- the white space before a text -/
theorem cut_ws (r : Str) : ∃ w r', r = w ++ r' ∧ Ws w ∧ ∀ c ∈ r'.head?, isWs c = false := by
  refine ⟨r.takeWhile isWs, r.dropWhile isWs, (List.takeWhile_append_dropWhile).symm, ?_, ?_⟩
  · intro c hc
    exact (isWs_iff c).1 (List.mem_takeWhile_imp hc)
  · intro c hc
    have := List.head?_dropWhile_not isWs r
    rw [Option.mem_def.1 hc] at this
    simpa using this

/-- the digits before a text -/
theorem cut_digits (r : Str) : ∃ ds r', r = ds ++ r' ∧ (ds ≠ [] → Digits ds) ∧ ∀ c ∈ r'.head?, Json.isDigit c = false := by
  refine ⟨r.takeWhile Json.isDigit, r.dropWhile Json.isDigit, (List.takeWhile_append_dropWhile).symm, ?_, ?_⟩
  · intro h
    exact ⟨h, fun c hc => (Json.digit_iff c).1 (List.mem_takeWhile_imp hc)⟩
  · intro c hc
    have := List.head?_dropWhile_not Json.isDigit r
    rw [Option.mem_def.1 hc] at this
    simpa using this

/-- a text behind a comma or brace: nothing, no number, a number out of range, or an element -/
theorem cut_item (r : Str) :
    Ws r ∨
    (∃ w s t, r = w ++ (s ++ t) ∧ Ws w ∧ (s = [] ∨ s = [byte '+'] ∨ s = [byte '-']) ∧ (∀ c ∈ t.head?, Json.isDigit c = false) ∧
      (s = [] → ∃ c ∈ t.head?, isWs c = false ∧ c ≠ byte '+' ∧ c ≠ byte '-')) ∨
    (∃ w n v t, r = w ++ (n ++ t) ∧ Ws w ∧ Num n v ∧ ¬ IsInt v ∧ ∀ c ∈ t.head?, Json.isDigit c = false) ∨
    (∃ x : Item, x.Ok ∧ r = x.text) ∨
    ∃ (x : Item) (c : Byte) (t : Str), x.Ok ∧ r = x.text ++ c :: t ∧ isWs c = false ∧
      ∀ d ∈ (x.post ++ c :: t).head?, Json.isDigit d = false := by
  obtain ⟨w, r', rfl, hw, hr⟩ := cut_ws r
  have num : ∀ (s ds t : Str) (v : Int), r' = s ++ ds ++ t → Num (s ++ ds) v → (∀ c ∈ t.head?, Json.isDigit c = false) →
      (∃ w' n v t, w ++ r' = w' ++ (n ++ t) ∧ Ws w' ∧ Num n v ∧ ¬ IsInt v ∧ ∀ c ∈ t.head?, Json.isDigit c = false) ∨
      (∃ x : Item, x.Ok ∧ w ++ r' = x.text) ∨
      ∃ (x : Item) (c : Byte) (t : Str), x.Ok ∧ w ++ r' = x.text ++ c :: t ∧ isWs c = false ∧
        ∀ d ∈ (x.post ++ c :: t).head?, Json.isDigit d = false := by
    intro s ds t v e hn ht
    by_cases hv : IsInt v
    · obtain ⟨p, t', e', hp, ht'⟩ := cut_ws t
      cases t' with
      | nil => exact .inr (.inl ⟨⟨w, s ++ ds, p, v⟩, ⟨hw, hn, hp, hv⟩, by simp [Item.text, e, e']⟩)
      | cons c t' =>
        refine .inr (.inr ⟨⟨w, s ++ ds, p, v⟩, c, t', ⟨hw, hn, hp, hv⟩, by simp [Item.text, e, e'], ht' c (by simp), ?_⟩)
        rw [← e']
        exact ht
    · exact .inl ⟨w, s ++ ds, v, t, by rw [e], hw, hn, hv, ht⟩
  cases r' with
  | nil => left; rwa [List.append_nil]
  | cons c0 r0 =>
    have h0 := hr c0 (by simp)
    by_cases hp : c0 = byte '+'
    · subst hp
      obtain ⟨ds, t, rfl, hds, ht⟩ := cut_digits r0
      by_cases hn : ds = []
      · subst hn
        exact .inr (.inl ⟨w, [byte '+'], t, by simp, hw, by simp, ht, by simp⟩)
      · exact .inr (.inr (num [byte '+'] ds t _ (by simp) (.plus ds (hds hn)) ht))
    · by_cases hm : c0 = byte '-'
      · subst hm
        obtain ⟨ds, t, rfl, hds, ht⟩ := cut_digits r0
        by_cases hn : ds = []
        · subst hn
          exact .inr (.inl ⟨w, [byte '-'], t, by simp, hw, by simp, ht, by simp⟩)
        · exact .inr (.inr (num [byte '-'] ds t _ (by simp) (.minus ds (hds hn)) ht))
      · obtain ⟨ds, t, e, hds, ht⟩ := cut_digits (c0 :: r0)
        by_cases hn : ds = []
        · subst hn
          rw [List.nil_append] at e
          exact .inr (.inl ⟨w, [], c0 :: r0, by simp, hw, by simp, by rw [e]; exact ht, fun _ => ⟨c0, by simp, h0, hp, hm⟩⟩)
        · exact .inr (.inr (num [] ds t _ (by simpa using e) (.plain ds (hds hn)) ht))

/-- the text in the loop, from behind a comma on -/
theorem readLoop_all : ∀ (k : Nat) (r b : Str) (vec : List Int) (fuel : Nat), r.length ≤ k → k + 2 ≤ fuel →
    (∃ xs : List Item, (∀ x ∈ xs, x.Ok) ∧ ∃ t, NoInt t ∧ r = (xs.flatMap fun x => x.text ++ [byte ',']) ++ t) ∨
    (∃ xs : List Item, xs ≠ [] ∧ (∀ x ∈ xs, x.Ok) ∧ ∃ t, r = commas xs ++ byte '}' :: t) ∨
    readLoop fuel ⟨b, r, false, false⟩ (some (byte ',')) vec = .exit := by
  intro k
  induction k with
  | zero =>
    intro r b vec fuel hr hf
    have : r = [] := List.length_eq_zero_iff.1 (by omega)
    subst this
    exact .inl ⟨[], by simp, [], .nothing [] (by simp [Ws]), rfl⟩
  | succ k ih =>
    intro r b vec fuel hr hf
    obtain ⟨f, rfl⟩ : ∃ f, fuel = f + 2 := ⟨fuel - 2, by omega⟩
    rcases cut_item r with h | ⟨w, s, t, rfl, hw, hs, ht, h0⟩ | ⟨w, n, v, t, rfl, hw, hn, hv, ht⟩ | ⟨x, hx, rfl⟩ | ⟨x, c, t, hx, rfl, hc, hd⟩
    · exact .inl ⟨[], by simp, r, .nothing r h, rfl⟩
    · cases t with
      | nil =>
        right; right
        rw [readLoop_fail f _ _ vec _ _ _ (getInt_word b hw hs ht h0 none) comma_ne]
        simp
      | cons c t =>
        refine .inl ⟨[], by simp, _, .word w s c t hw hs (of_ndigit (ht c (by simp))) ?_, by simp⟩
        intro h
        obtain ⟨d, hd, h1, h2⟩ := h0 h
        simp at hd
        subst hd
        exact ⟨of_nws h1, h2⟩
    · cases t with
      | nil =>
        right; right
        have := getInt_num b (t := []) hw hn ht none
        rw [if_neg hv] at this
        rw [readLoop_fail f _ _ vec _ _ _ this comma_ne]
        simp
      | cons c t => exact .inl ⟨[], by simp, _, .range w n v c t hw hn hv (of_ndigit (ht c (by simp))), by simp⟩
    · exact .inr (.inr (readLoop_end _ _ x hx _ _))
    · by_cases h1 : c = byte '}'
      · subst h1
        exact .inr (.inl ⟨[x], by simp, by simpa using hx, t, rfl⟩)
      · by_cases h2 : c = byte ','
        · subst h2
          rw [readLoop_item' (f + 1) b x hx _ t hd hc, if_neg h1, if_neg (by simp)]
          rw [List.length_append, List.length_cons] at hr
          have hf' : k + 2 ≤ f + 1 := by omega
          rcases ih t (byte ',' :: (x.text.reverse ++ b)) (vec ++ [x.val]) (f + 1) (by omega) hf' with
            ⟨xs, hok, t', h3, rfl⟩ | ⟨xs, hne, hok, t', rfl⟩ | h3
          · exact .inl ⟨x :: xs, by simpa using ⟨hx, hok⟩, t', h3, by simp⟩
          · refine .inr (.inl ⟨x :: xs, by simp, by simpa using ⟨hx, hok⟩, t', ?_⟩)
            obtain ⟨y, ys, rfl⟩ := List.exists_cons_of_ne_nil hne
            simp [commas]
          · exact .inr (.inr h3)
        · right; right
          rw [readLoop_item' (f + 1) b x hx c t hd hc, if_neg h1, if_pos h2]

/-- the same on a text with elements first -/
theorem readLoop_later (xs : List Item) (hx : ∀ x ∈ xs, x.Ok) {t : Str} (ht : NoInt t) : ∀ (fuel : Nat) (_ : xs.length + 2 ≤ fuel)
    (b : Str) (ch : Option Byte) (_ : xs = [] → ch = some (byte ',')) (vec : List Int),
    readLoop fuel ⟨b, (xs.flatMap fun x => x.text ++ [byte ',']) ++ t, false, false⟩ ch vec = .ub := by
  induction xs with
  | nil =>
    intro fuel hf b ch hch vec
    obtain ⟨f, rfl⟩ : ∃ f, fuel = f + 2 := ⟨fuel - 2, by simp at hf; omega⟩
    rw [hch rfl]
    exact readLoop_noInt f b vec ht
  | cons x xs ih =>
    intro fuel hf b ch _ vec
    obtain ⟨f, rfl⟩ : ∃ f, fuel = f + 1 := ⟨fuel - 1, by simp at hf; omega⟩
    have e : ((x :: xs).flatMap fun x => x.text ++ [byte ',']) ++ t =
        x.text ++ byte ',' :: ((xs.flatMap fun x => x.text ++ [byte ',']) ++ t) := by simp
    rw [e, readLoop_item f b x (hx x (by simp)) _ brace_facts.2.2.1 brace_facts.2.2.2.1, if_neg comma_ne, if_neg (by simp)]
    exact ih (fun y hy => hx y (by simp [hy])) f (by simp at hf; omega) _ _ (fun _ => rfl) _

theorem commas_flat (xs : List Item) (hne : xs ≠ []) (t : Str) :
    commas xs ++ byte ',' :: t = (xs.flatMap fun x => x.text ++ [byte ',']) ++ t := by
  induction xs with
  | nil => exact (hne rfl).elim
  | cons x xs ih =>
    cases xs with
    | nil => simp [commas]
    | cons y ys =>
      have := ih (by simp)
      rw [commas, List.append_assoc, List.cons_append, this]
      · simp
      · simp

/-- the start: the brace and the first character behind it -/
theorem readVector_open (a : Str) (ha : Ws a) (w : Str) (hw : Ws w) (c : Byte) (hc : isWs c = false) (hb : c ≠ byte '}') (t : Str) :
    ∃ b n, (c :: t).length + 2 = n ∧
      readVector { rest := a ++ byte '{' :: (w ++ c :: t) } = readLoop n ⟨b, c :: t, false, false⟩ (some c) [] := by
  refine ⟨w.reverse ++ (byte '{' :: (a.reverse ++ [])), _, rfl, ?_⟩
  rw [readVector, getChar_good [] ha brace_facts.2.2.2.2.2.1]
  simp only [use, Out.ok_bind]
  rw [if_neg (by simp), getChar_good _ hw hc]
  simp only [Out.ok_bind]
  rw [if_pos hb]
  rfl

theorem undefined_ub {s : Str} (h : Undefined s) : readVector { rest := s } = .ub := by
  cases h with
  | blank _ ha =>
    rw [readVector, IStream.getChar, sentry_end [] ha]
    rfl
  | opened a b ha hb =>
    rw [readVector, getChar_good [] ha brace_facts.2.2.2.2.2.1]
    simp only [use, Out.ok_bind]
    rw [if_neg (by simp), IStream.getChar, sentry_end _ hb]
    rfl
  | comma a b t ha hb =>
    obtain ⟨b', n, rfl, e⟩ := readVector_open a ha b hb (byte ',') brace_facts.2.2.2.1 comma_ne t
    rw [e]
    exact readLoop_noInt _ _ _ (.word [] [] (byte ',') t (by simp [Ws]) (.inl rfl) (by decide) (fun _ => by decide))
  | later a xs t ha hne h ht =>
    obtain ⟨x, xs, rfl⟩ := List.exists_cons_of_ne_nil hne
    have hx := h x (by simp)
    obtain ⟨ch, n, hn, e⟩ := readVector_start [] a ha x xs hx (byte ',' :: t)
    have hok : ∀ y ∈ ({ x with pre := [] } : Item) :: xs, y.Ok := by
      intro y hy
      rw [List.mem_cons] at hy
      rcases hy with rfl | hy
      · exact item_pre hx
      · exact h y (by simp [hy])
    have hlen := commas_length _ hok
    rw [e, commas_flat _ (by simp)]
    refine readLoop_later _ hok ht _ ?_ _ _ (by simp) _
    rw [commas_pre] at hn
    simp at hn hlen ⊢
    omega

/-- every text: undefined, a vector, or an error -/
theorem readVector_all (s : Str) : Undefined s ∨ (∃ t v rest, VecText t v ∧ s = t ++ rest) ∨ readVector { rest := s } = .exit := by
  obtain ⟨a, s', rfl, ha, hs⟩ := cut_ws s
  cases s' with
  | nil => rw [List.append_nil]; exact .inl (.blank a ha)
  | cons c0 s' =>
    have h0 := hs c0 (by simp)
    by_cases hb : c0 = byte '{'
    swap
    · right; right
      rw [readVector, getChar_good [] ha h0]
      simp only [use, Out.ok_bind]
      rw [if_pos hb]
    subst hb
    obtain ⟨w, r, rfl, hw, hr⟩ := cut_ws s'
    cases r with
    | nil => rw [List.append_nil]; exact .inl (.opened a w ha hw)
    | cons c r =>
      have hc := hr c (by simp)
      by_cases h1 : c = byte '}'
      · subst h1
        exact .inr (.inl ⟨_, _, r, .nil a w ha hw, by simp⟩)
      by_cases h2 : c = byte ','
      · subst h2
        exact .inl (.comma a w r ha hw)
      obtain ⟨b', n, hn, e⟩ := readVector_open a ha w hw c hc h1 r
      rw [e]
      -- the first element
      have exact_item : ∀ x : Item, x.Ok → ∀ u, c :: r = x.text ++ u →
          ({ x with pre := w ++ x.pre } : Item).Ok ∧ w ++ c :: r = ({ x with pre := w ++ x.pre } : Item).text ++ u := by
        rintro x hx u e
        refine ⟨⟨?_, hx.2⟩, by rw [e]; simp [Item.text]⟩
        intro d hd
        rcases List.mem_append.1 hd with h | h
        · exact hw d h
        · exact hx.1 d h
      rcases cut_item (c :: r) with h | ⟨w', s, t, hs', hw', hs, ht, h0⟩ | ⟨w', n', v, t, hs', hw', hn', hv, ht⟩ | ⟨x, hx, hs'⟩ |
        ⟨x, d, t, hx, hs', hd, hd'⟩
      · have := (isWs_iff c).2 (h c (by simp))
        rw [hc] at this
        cases this
      · right; right
        subst hn
        rw [hs', show (w' ++ (s ++ t)).length + 2 = (w' ++ (s ++ t)).length + 2 from rfl,
          readLoop_fail _ _ _ _ _ _ _ (getInt_word b' hw' hs ht h0 none) h1, if_pos (.inr h2)]
      · right; right
        subst hn
        have := getInt_num b' hw' hn' ht none
        rw [if_neg hv] at this
        rw [hs', readLoop_fail _ _ _ _ _ _ _ this h1, if_pos (.inr h2)]
      · right; right
        subst hn
        rw [hs']
        exact readLoop_end _ _ x hx _ _
      · subst hn
        obtain ⟨hx', hs''⟩ := exact_item x hx _ hs'
        rw [hs'']
        rw [hs', show (x.text ++ d :: t).length + 2 = (x.text ++ d :: t).length + 1 + 1 from rfl, readLoop_item' _ b' x hx d t hd' hd]
        by_cases h3 : d = byte '}'
        · subst h3
          exact .inr (.inl ⟨_, _, t, .items a ha [{ x with pre := w ++ x.pre }] (by simp) (by simpa using hx'), by simp [commas]⟩)
        · rw [if_neg h3]
          by_cases h4 : d = byte ','
          · subst h4
            rw [if_neg (by simp)]
            rcases readLoop_all t.length t (byte ',' :: (x.text.reverse ++ b')) ([] ++ [x.val])
              ((x.text ++ byte ',' :: t).length + 1) le_rfl (by simp) with ⟨xs, hok, t', h5, e'⟩ | ⟨xs, hne, hok, t', e'⟩ | h5
            · left
              have := Undefined.later a ({ x with pre := w ++ x.pre } :: xs) t' ha (by simp) (by simpa using ⟨hx', hok⟩) h5
              rw [commas_flat _ (by simp)] at this
              rw [e']
              simpa using this
            · right; left
              refine ⟨_, _, t', .items a ha ({ x with pre := w ++ x.pre } :: xs) (by simp) (by simpa using ⟨hx', hok⟩), ?_⟩
              obtain ⟨y, ys, rfl⟩ := List.exists_cons_of_ne_nil hne
              rw [e']
              simp [commas]
            · exact .inr (.inr h5)
          · rw [if_pos h4]
            exact .inr (.inr rfl)

end Stream
