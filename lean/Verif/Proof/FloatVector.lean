import Verif.Model.FloatVector
import Verif.Spec.FloatVector
import Verif.Proof.FloatText

/-! # Helper lemmas for vectors of `float`s; as for `double` in `Proof/DoubleText.lean` -/

set_option exponentiation.threshold 2000

namespace Stream
open Cpp Spec
open Json (F64 flt32)
open Json.Spec (IsFloat)

/-- what is read for a number -/
def readLit32 (l : Lit) : F64 := ⟨l.neg, .fin (if l.neg then -readMag32 |l.value| else readMag32 |l.value|)⟩

theorem Spec.RItem.OkF.ok {x : RItem} (h : x.OkF) : RItem.Ok x :=
  ⟨h.1, h.2.1, h.2.2.1, h.2.2.2.trans (by norm_num)⟩

theorem getFloat_lit (b : Str) {w : Str} {l : Lit} {t : Str} (hw : Ws w) (h : l.Ok) (ht : Ends t) (value : Option F64) :
    IStream.getFloat ⟨b, w ++ (l.text ++ t), false, false⟩ value =
      (some ⟨l.neg, .fin (if l.neg then -readMag32 |l.value| else readMag32 |l.value|)⟩,
        ⟨l.text.reverse ++ (w.reverse ++ b), t, decide (t = []), decide (2 ^ 128 ≤ flt32 |l.value|)⟩) := by
  unfold IStream.getFloat
  rw [sentry_good b hw (lit_head h t)]
  simp only [if_true, collect_lit h ht, chars_all, take_pre, chars_valid h, chars_value, chars_neg]
  unfold readMag32
  by_cases hr : 2 ^ 128 ≤ flt32 |l.value|
  · simp [hr]
  · simp [hr]

theorem not_large {l : Lit} (h : |l.value| ≤ (2 ^ 24 - 1) * 2 ^ 104) : decide (2 ^ 128 ≤ flt32 |l.value|) = false :=
  decide_eq_false (not_le.2 ((flt32_le_max h).trans_lt max_lt))

theorem readLoopF_item (fuel : Nat) (b : Str) (x : RItem) (hx : x.OkF) (c : Byte) (hc : c = byte ',' ∨ c = byte '}')
    (t : Str) (ch : Option Byte) (vec : List F64) :
    readLoopF (fuel + 1) ⟨b, x.text ++ c :: t, false, false⟩ ch vec =
      if c = byte '}' then .ok (vec ++ [readLit32 x.lit], ⟨c :: (x.text.reverse ++ b), t, false, false⟩)
      else readLoopF fuel ⟨c :: (x.text.reverse ++ b), t, false, false⟩ (some c) (vec ++ [readLit32 x.lit]) := by
  obtain ⟨h1, h2, h3, h4⟩ := hx
  rw [readLoopF]
  have e : x.text ++ c :: t = x.pre ++ (x.lit.text ++ (x.post ++ c :: t)) := by simp [RItem.text]
  rw [e, getFloat_lit b h1 h2 (ends_ws h3 hc t)]
  have hne : decide (x.post ++ c :: t = []) = false := by simp
  have hw : isWs c = false := by rcases hc with rfl | rfl <;> decide
  simp only [use, Out.ok_bind, hne, not_large h4]
  rw [getChar_good _ h3 hw]
  simp only [Bool.false_eq_true, if_false, Out.ok_bind, readLit32]
  rcases hc with rfl | rfl
  · rw [if_neg brace_facts.2.2.2.2.1, if_neg (show ¬ (byte ',' ≠ byte ',') by simp), if_neg brace_facts.2.2.2.2.1]
    simp [RItem.text]
  · simp [RItem.text]

theorem readLoopF_items (xs : List RItem) (hne : xs ≠ []) (hx : ∀ x ∈ xs, x.OkF) (t : Str) :
    ∀ (fuel : Nat) (_ : xs.length ≤ fuel) (b : Str) (ch : Option Byte) (vec : List F64),
    readLoopF fuel ⟨b, rcommas xs ++ byte '}' :: t, false, false⟩ ch vec =
      .ok (vec ++ xs.map (fun x => readLit32 x.lit), ⟨byte '}' :: ((rcommas xs).reverse ++ b), t, false, false⟩) := by
  induction xs with
  | nil => exact absurd rfl hne
  | cons x xs ih =>
    intro fuel hf b ch vec
    obtain ⟨fuel, rfl⟩ : ∃ f, fuel = f + 1 := ⟨fuel - 1, by simp at hf; omega⟩
    cases xs with
    | nil =>
      rw [rcommas, readLoopF_item fuel b x (hx x (by simp)) _ (.inr rfl), if_pos rfl]
      rfl
    | cons y ys =>
      rw [rcommas, List.append_assoc, List.cons_append, readLoopF_item fuel b x (hx x (by simp)) _ (.inl rfl),
        if_neg brace_facts.2.2.2.2.1, ih (by simp) (fun z hz => hx z (by simp [hz])) fuel (by simp at hf ⊢; omega)]
      · simp
      · simp

theorem readVectorF_start (b a : Str) (ha : Ws a) (x : RItem) (xs : List RItem) (hx : x.OkF) (t : Str) :
    ∃ (ch : Option Byte) (n : Nat), (rcommas (x :: xs) ++ t).length ≤ n + x.pre.length ∧
    readVectorF ⟨b, a ++ byte '{' :: (rcommas (x :: xs) ++ t), false, false⟩ =
      readLoopF (n + 2) ⟨x.pre.reverse ++ (byte '{' :: (a.reverse ++ b)), rcommas ({ x with pre := [] } :: xs) ++ t, false, false⟩ ch [] := by
  obtain ⟨c, n', e, h1, h2⟩ := lit_cons hx.2.1
  obtain ⟨u, hu⟩ : ∃ u, rcommas ({ x with pre := [] } :: xs) ++ t = c :: u := by
    cases xs with
    | nil => exact ⟨n' ++ x.post ++ t, by simp [rcommas, RItem.text, e]⟩
    | cons y ys => exact ⟨_, by simp [rcommas, RItem.text, e]; rfl⟩
  refine ⟨some c, (c :: u).length, ?_, ?_⟩
  · rw [rcommas_pre, List.append_assoc, hu]
    simp; omega
  · unfold readVectorF
    rw [getChar_good b ha brace_facts.2.2.2.2.2.1]
    simp only [use, Out.ok_bind]
    rw [if_neg (by simp), rcommas_pre, List.append_assoc, hu, getChar_good _ hx.1 h1]
    simp only [Out.ok_bind]
    rw [if_pos h2]
    rfl

theorem readVectorF_items (a : Str) (ha : Ws a) (xs : List RItem) (hne : xs ≠ []) (h : ∀ x ∈ xs, x.OkF) (rest : Str) :
    readVectorF { rest := a ++ byte '{' :: (rcommas xs ++ byte '}' :: rest) } =
      .ok (xs.map (fun x => readLit32 x.lit), { back := (a ++ byte '{' :: (rcommas xs ++ [byte '}'])).reverse, rest := rest }) := by
  obtain ⟨x, xs, rfl⟩ := List.exists_cons_of_ne_nil hne
  have hx := h x (by simp)
  obtain ⟨ch, n, hn, e⟩ := readVectorF_start [] a ha x xs hx (byte '}' :: rest)
  have hok : ∀ y ∈ ({ x with pre := [] } : RItem) :: xs, y.OkF := by
    intro y hy
    rw [List.mem_cons] at hy
    rcases hy with rfl | hy
    · exact ⟨by simp [Ws], hx.2⟩
    · exact h y (by simp [hy])
  have hlen := rcommas_length _ fun y hy => (hok y hy).ok
  have hn' : (({ x with pre := [] } : RItem) :: xs).length ≤ n + 2 := by
    rw [rcommas_pre] at hn
    simp at hn hlen ⊢
    omega
  rw [e, readLoopF_items _ (by simp) hok rest (n + 2) hn']
  simp only [rcommas_pre x xs]
  simp

theorem readLoopF_bad (fuel : Nat) (b : Str) (x : RItem) (hx : x.OkF) (t : Str) (ht : Ends t)
    (hb : ∀ c ∈ t.head?, isWs c = false ∧ c ≠ byte ',' ∧ c ≠ byte '}') (ch : Option Byte) (vec : List F64) :
    readLoopF (fuel + 1) ⟨b, x.text ++ t, false, false⟩ ch vec = .exit := by
  obtain ⟨h1, h2, h3, h4⟩ := hx
  rw [readLoopF]
  have e : x.text ++ t = x.pre ++ (x.lit.text ++ (x.post ++ t)) := by simp [RItem.text]
  rw [e, getFloat_lit b h1 h2 (ends_bad h3 ht)]
  simp only [use, Out.ok_bind, not_large h4]
  cases t with
  | nil =>
    by_cases hp : x.post = []
    · simp [hp, IStream.getChar, IStream.sentry]
    · have : decide (x.post ++ [] = []) = false := by simpa using hp
      rw [this, List.append_nil]
      unfold IStream.getChar
      rw [sentry_end _ h3]
      simp
  | cons c t =>
    obtain ⟨b1, b2, b3⟩ := hb c rfl
    have hne : decide (x.post ++ c :: t = []) = false := by simp
    rw [hne, getChar_good _ h3 b1]
    simp only [Bool.false_eq_true, if_false, Out.ok_bind]
    rw [if_neg b3, if_pos b2]

theorem readLoopF_items_bad (xs : List RItem) (hne : xs ≠ []) (hx : ∀ x ∈ xs, x.OkF) (t : Str) (ht : Ends t)
    (hb : ∀ c ∈ t.head?, isWs c = false ∧ c ≠ byte ',' ∧ c ≠ byte '}') :
    ∀ (fuel : Nat) (_ : xs.length ≤ fuel) (b : Str) (ch : Option Byte) (vec : List F64),
    readLoopF fuel ⟨b, rcommas xs ++ t, false, false⟩ ch vec = .exit := by
  induction xs with
  | nil => exact absurd rfl hne
  | cons x xs ih =>
    intro fuel hf b ch vec
    obtain ⟨fuel, rfl⟩ : ∃ f, fuel = f + 1 := ⟨fuel - 1, by simp at hf; omega⟩
    cases xs with
    | nil => exact readLoopF_bad fuel b x (hx x (by simp)) t ht hb ch vec
    | cons y ys =>
      rw [rcommas, List.append_assoc, List.cons_append, readLoopF_item fuel b x (hx x (by simp)) _ (.inl rfl),
        if_neg brace_facts.2.2.2.2.1]
      · exact ih (by simp) (fun z hz => hx z (by simp [hz])) fuel (by simp at hf ⊢; omega) _ _ _
      · simp

theorem readVectorF_bad (a : Str) (ha : Ws a) (xs : List RItem) (hne : xs ≠ []) (h : ∀ x ∈ xs, x.OkF) (t : Str) (ht : Ends t)
    (hb : ∀ c ∈ t.head?, isWs c = false ∧ c ≠ byte ',' ∧ c ≠ byte '}') :
    readVectorF { rest := a ++ byte '{' :: (rcommas xs ++ t) } = .exit := by
  obtain ⟨x, xs, rfl⟩ := List.exists_cons_of_ne_nil hne
  have hx := h x (by simp)
  obtain ⟨ch, n, hn, e⟩ := readVectorF_start [] a ha x xs hx t
  have hok : ∀ y ∈ ({ x with pre := [] } : RItem) :: xs, y.OkF := by
    intro y hy
    rw [List.mem_cons] at hy
    rcases hy with rfl | hy
    · exact ⟨by simp [Ws], hx.2⟩
    · exact h y (by simp [hy])
  have hlen := rcommas_length _ fun y hy => (hok y hy).ok
  have hn' : (({ x with pre := [] } : RItem) :: xs).length ≤ n + 2 := by
    rw [rcommas_pre] at hn
    simp at hn hlen ⊢
    omega
  rw [e]
  exact readLoopF_items_bad _ (by simp) hok t ht hb (n + 2) hn' _ _ _

/-- the elements as they are written -/
theorem print_itemsF (v : List F64) (hv : ∀ d ∈ v, ∃ q, d.val = .fin q ∧ IsFloat q) (hlen : (v.length : Int) ≤ INT_MAX)
    (hne : v ≠ []) : ∃ xs : List RItem, xs ≠ [] ∧ (∀ x ∈ xs, x.OkF) ∧ printVectorD v = .ok (byte '{' :: (rcommas xs ++ [byte '}'])) ∧
      List.Forall₂ (fun d x => castFloat (putDouble d) = .ok (readLit32 x.lit)) v xs := by
  have hs : Cont.Vector.size v = v.length := by
    rw [Cont.Vector.size, toInt_small (by unfold INT_MAX at hlen; omega)]
  let lit (d : F64) : Lit := match d.val with | .fin q => litD d.neg q | _ => litD d.neg 0
  have hlit : ∀ d ∈ v, (lit d).Ok ∧ (lit d).text = putDouble d ∧ |(lit d).value| ≤ (2 ^ 24 - 1) * 2 ^ 104 := by
    intro d hd
    obtain ⟨q, hq, hq'⟩ := hv d hd
    obtain ⟨neg, val⟩ := d
    dsimp only at hq
    subst hq
    exact ⟨litD_ok neg q, litD_text neg q, by
      show |(litD neg q).value| ≤ _
      rw [litD_abs]; exact written_le32 (float_abs_le hq')⟩
  let item (p : Str) (d : F64) : RItem := ⟨p, lit d, []⟩
  have hok : ∀ p, Ws p → ∀ d ∈ v, (item p d).OkF := fun p hp d hd => ⟨hp, (hlit d hd).1, by simp [item, Ws], (hlit d hd).2.2⟩
  have hcast : ∀ p, ∀ d ∈ v, castFloat (putDouble d) = .ok (readLit32 (item p d).lit) := by
    intro p d hd
    have := castFloat_lit (w := []) (t := []) (by simp [Ws]) (hlit d hd).1 (by simp [Ends])
    rw [List.nil_append, List.append_nil, (hlit d hd).2.1] at this
    exact this
  have hblank : Ws [32] := by simp [Ws]
  have hnil : Ws [] := by simp [Ws]
  unfold printVectorD
  rw [hs]
  rcases List.eq_nil_or_concat v with rfl | ⟨u, x, rfl⟩
  · exact absurd rfl hne
  · rw [List.concat_eq_append] at *
    have hlast : Cont.Vector.last (u ++ [x]) = .ok x := by
      simp [Cont.Vector.last, Cont.Vector.emptyCheck, Stl.back]
    rw [if_neg (by simp; omega), hlast]
    cases u with
    | nil =>
      refine ⟨[item [] x], by simp, ?_, ?_, ?_⟩
      · intro y hy
        rw [List.mem_singleton] at hy
        rw [hy]; exact hok [] hnil x (by simp)
      · have := (hlit x (by simp)).2.1
        simp [rcommas, RItem.text, item, this, bytes]
      · exact List.Forall₂.cons (hcast [] x (by simp)) .nil
    | cons y u =>
      rw [if_neg (by simp; omega)]
      refine ⟨item [] y :: (u ++ [x]).map (item [32]), by simp, ?_, ?_, ?_⟩
      · intro z hz
        rw [List.mem_cons, List.mem_map] at hz
        rcases hz with rfl | ⟨i, hi, rfl⟩
        · exact hok [] hnil y (by simp)
        · exact hok [32] hblank i (by simp at hi ⊢; exact .inr hi)
      · have hcm : ∀ (u : List F64) (p : Str) (y : F64), (∀ d ∈ y :: u ++ [x], (lit d).text = putDouble d) →
            rcommas (item p y :: (u ++ [x]).map (item [32])) =
            p ++ ((y :: u).flatMap fun v => putDouble v ++ bytes [',', ' ']) ++ putDouble x := by
          intro u
          induction u with
          | nil =>
            intro p y ht
            have h1 := ht y (by simp)
            have h2 := ht x (by simp)
            simp [rcommas, RItem.text, item, bytes, byte, h1, h2]
          | cons z u ih =>
            intro p y ht
            rw [List.cons_append, List.map_cons, rcommas, ih [32] z (fun d hd => ht d (by
              simp only [List.cons_append, List.mem_cons] at hd ⊢; exact .inr hd))]
            · have h1 := ht y (by simp)
              simp [RItem.text, item, bytes, byte, h1]
            · simp
        have hdl : (y :: u ++ [x]).dropLast = y :: u := List.dropLast_concat
        rw [hdl, hcm u [] y fun d hd => (hlit d hd).2.1]
        simp [bytes]
      · refine List.Forall₂.cons (hcast [] y (by simp)) ?_
        rw [List.forall₂_map_right_iff]
        refine List.forall₂_same.2 fun d hd => ?_
        exact hcast [32] d (by simp at hd ⊢; exact .inr hd)

theorem vector_tripF (v : List F64) (hv : ∀ d ∈ v, ∃ q, d.val = .fin q ∧ IsFloat q) (hlen : (v.length : Int) ≤ INT_MAX)
    (rest : Str) : ∃ t v', printVectorD v = .ok t ∧ readVectorF { rest := t ++ rest } = .ok (v', { back := t.reverse, rest := rest }) ∧
      List.Forall₂ (fun d d' => castFloat (putDouble d) = .ok d') v v' := by
  by_cases hne : v = []
  · subst hne
    exact ⟨bytes ['{', '}'], [], rfl, rfl, .nil⟩
  · obtain ⟨xs, h1, h2, h3, h4⟩ := print_itemsF v hv hlen hne
    refine ⟨_, xs.map fun x => readLit32 x.lit, h3, ?_, ?_⟩
    · have := readVectorF_items [] (by simp [Ws]) xs h1 h2 rest
      simpa using this
    · rw [List.forall₂_map_right_iff]
      exact h4

/-! ## numbers out of range -/

theorem is_large {l : Lit} (h : (10 : ℚ) ^ 39 ≤ |l.value|) : decide (2 ^ 128 ≤ flt32 |l.value|) = true := by
  rw [decide_eq_true_eq]
  have h1 := (abs_le.1 (flt32_close (x := |l.value|) ((by norm_num : (10 : ℚ) ^ (-38 : Int) ≤ 10 ^ 39).trans h))).1
  have h2 : (2 : ℚ) ^ 128 ≤ (1 - 3 / 2 ^ 25) * 10 ^ 39 := by norm_num
  have h3 := mul_le_mul_of_nonneg_left h (by norm_num : (0 : ℚ) ≤ 1 - 3 / 2 ^ 25)
  linarith

theorem readLoopF_large (fuel : Nat) (b : Str) (x : RItem) (hx : x.LargeF) (c : Byte) (hc : c = byte ',' ∨ c = byte '}') (t : Str)
    (d : Byte) (vec : List F64) :
    (d = byte ',' → readLoopF (fuel + 2) ⟨b, x.text ++ c :: t, false, false⟩ (some d) vec = .ub) ∧
    (d ≠ byte ',' → d ≠ byte '}' → readLoopF (fuel + 2) ⟨b, x.text ++ c :: t, false, false⟩ (some d) vec = .exit) := by
  obtain ⟨h1, h2, h3, h4⟩ := hx
  have e : x.text ++ c :: t = x.pre ++ (x.lit.text ++ (x.post ++ c :: t)) := by simp [RItem.text]
  have hne : decide (x.post ++ c :: t = []) = false := by simp
  rw [readLoopF, e, getFloat_lit b h1 h2 (ends_ws h3 hc t)]
  simp only [use, Out.ok_bind, hne, is_large h4]
  constructor
  · rintro rfl
    simp [IStream.getChar, IStream.sentry, readLoopF, IStream.getFloat, use, brace_facts.2.2.2.2.1]
  · intro g1 g2
    simp [IStream.getChar, IStream.sentry, g1, g2]

theorem readLoopF_items_large (xs : List RItem) (hx : ∀ x ∈ xs, x.OkF) (y : RItem) (hy : y.LargeF) (c : Byte)
    (hc : c = byte ',' ∨ c = byte '}') (t : Str) :
    ∀ (fuel : Nat) (_ : xs.length + 2 ≤ fuel) (b : Str) (vec : List F64),
    readLoopF fuel ⟨b, rcommas (xs ++ [y]) ++ c :: t, false, false⟩ (some (byte ',')) vec = .ub := by
  induction xs with
  | nil =>
    intro fuel hf b vec
    obtain ⟨fuel, rfl⟩ : ∃ f, fuel = f + 2 := ⟨fuel - 2, by simp at hf; omega⟩
    exact (readLoopF_large fuel b y hy c hc t _ vec).1 rfl
  | cons x xs ih =>
    intro fuel hf b vec
    obtain ⟨fuel, rfl⟩ : ∃ f, fuel = f + 1 := ⟨fuel - 1, by simp at hf; omega⟩
    have hr : rcommas (x :: xs ++ [y]) = x.text ++ byte ',' :: rcommas (xs ++ [y]) := by
      cases xs <;> rfl
    rw [hr, List.append_assoc, List.cons_append, readLoopF_item fuel b x (hx x (by simp)) _ (.inl rfl),
      if_neg brace_facts.2.2.2.2.1]
    exact ih (fun z hz => hx z (by simp [hz])) fuel (by simp at hf ⊢; omega) _ _

theorem lit_cons_comma {l : Lit} (h : l.Ok) : ∃ c u, l.text = c :: u ∧ isWs c = false ∧ c ≠ byte ',' := by
  obtain ⟨c, hc, hw⟩ := lit_head h []
  rw [List.append_nil] at hc
  cases ht : l.text with
  | nil => rw [ht] at hc; simp at hc
  | cons d u =>
    refine ⟨d, u, rfl, ?_, ?_⟩
    · rw [ht] at hc
      simp only [List.head?_cons, Option.mem_def, Option.some.injEq] at hc
      rw [hc]; exact hw
    · rintro rfl
      unfold Lit.text at ht
      match hs : l.sign with
      | some true => rw [hs] at ht; simp [signText, byte] at ht
      | some false => rw [hs] at ht; simp [signText, byte] at ht
      | none =>
        rw [hs] at ht
        by_cases hi : l.int = []
        · rw [hi, if_pos (h.2.2.1 (h.2.1.resolve_left (by simp [hi])))] at ht
          simp [signText, byte] at ht
        · obtain ⟨c', i, hc'⟩ := List.exists_cons_of_ne_nil hi
          have := h.1 c' (by rw [hc']; simp)
          rw [hc'] at ht
          simp only [signText, List.nil_append, List.cons_append, List.cons.injEq] at ht
          rw [ht.1] at this
          exact absurd this (by decide)

theorem readVectorF_large (a : Str) (ha : Ws a) (xs : List RItem) (hx : ∀ x ∈ xs, x.OkF) (y : RItem) (hy : y.LargeF) (c : Byte)
    (hc : c = byte ',' ∨ c = byte '}') (t : Str) :
    readVectorF { rest := a ++ byte '{' :: (rcommas (xs ++ [y]) ++ c :: t) } = if xs = [] then .exit else .ub := by
  cases xs with
  | nil =>
    rw [if_pos rfl]
    obtain ⟨d, u, e, h1, h2⟩ := lit_cons hy.2.1
    obtain ⟨d', u', e', -, h3⟩ := lit_cons_comma hy.2.1
    obtain ⟨rfl, rfl⟩ := List.cons.inj (e.symm.trans e')
    have h4 := (readLoopF_large (d :: (u ++ (y.post ++ c :: t))).length (y.pre.reverse ++ (byte '{' :: (a.reverse ++ [])))
      { y with pre := [] } ⟨by simp [Ws], hy.2⟩ c hc t d []).2 h3 h2
    have h5 : ({ y with pre := [] } : RItem).text ++ c :: t = d :: (u ++ (y.post ++ c :: t)) := by simp [RItem.text, e]
    have h6 : rcommas ([] ++ [y]) ++ c :: t = y.pre ++ d :: (u ++ (y.post ++ c :: t)) := by simp [rcommas, RItem.text, e]
    rw [h5] at h4
    rw [← h4, h6]
    unfold readVectorF
    rw [getChar_good [] ha brace_facts.2.2.2.2.2.1]
    simp only [use, Out.ok_bind]
    rw [if_neg (by simp), getChar_good _ hy.1 h1]
    simp only [Out.ok_bind]
    rw [if_pos h2]
    rfl
  | cons x xs =>
    rw [if_neg (by simp)]
    have hx0 := hx x (by simp)
    obtain ⟨ch, n, hn, e⟩ := readVectorF_start [] a ha x (xs ++ [y]) hx0 (c :: t)
    have hok : ∀ z ∈ xs, z.OkF := fun z hz => hx z (by simp [hz])
    have hlen : (xs ++ [y]).length ≤ (rcommas (xs ++ [y])).length := by
      clear hn e hx
      induction xs with
      | nil =>
        obtain ⟨d, u, e, -⟩ := lit_cons hy.2.1
        simp [rcommas, RItem.text, e]; omega
      | cons z zs ih =>
        have hr : rcommas (z :: zs ++ [y]) = z.text ++ byte ',' :: rcommas (zs ++ [y]) := by cases zs <;> rfl
        rw [hr]
        have := ih fun w hw => hok w (by simp [hw])
        simp at this ⊢
        omega
    have hr : rcommas (({ x with pre := [] } : RItem) :: (xs ++ [y])) =
        ({ x with pre := [] } : RItem).text ++ byte ',' :: rcommas (xs ++ [y]) := by cases xs <;> rfl
    have hr' : (rcommas (x :: (xs ++ [y]))).length = x.pre.length + (({ x with pre := [] } : RItem).text.length + (1 + (rcommas (xs ++ [y])).length)) := by
      rw [rcommas_pre, hr]; simp; omega
    have hn' : xs.length + 2 ≤ n + 1 := by
      rw [List.length_append, hr'] at hn
      simp at hn hlen
      omega
    rw [List.cons_append, e, hr, List.append_assoc, List.cons_append,
      readLoopF_item (n + 1) _ { x with pre := [] } ⟨by simp [Ws], hx0.2⟩ _ (.inl rfl), if_neg brace_facts.2.2.2.2.1]
    exact readLoopF_items_large xs hok y hy c hc t _ hn' _ _

end Stream
