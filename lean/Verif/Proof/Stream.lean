import Verif.Model.Stream
import Verif.Spec.Stream
import Verif.Proof.JsonDump
import Mathlib.Tactic.SplitIfs

/-! # Helper lemmas for text input and output of Vector<int> -/

namespace Stream
open Cpp Spec

theorem isWs_iff (c : Byte) : isWs c = true ↔ c = 32 ∨ 9 ≤ c ∧ c ≤ 13 := by
  unfold isWs; rw [decide_eq_true_eq]

theorem takeWhile_pre {p : Byte → Bool} {w t : Str} (hw : ∀ c ∈ w, p c = true) (ht : ∀ c ∈ t.head?, p c = false) :
    (w ++ t).takeWhile p = w := by
  induction w with
  | nil =>
    cases t with
    | nil => rfl
    | cons c t => simp [ht c (by simp)]
  | cons c w ih =>
    rw [List.cons_append, List.takeWhile_cons, if_pos (hw c (by simp)), ih fun d hd => hw d (by simp [hd])]

theorem take_pre (b w t : Str) : IStream.take ⟨b, w ++ t, false, false⟩ w.length = ⟨w.reverse ++ b, t, false, false⟩ := by
  simp [IStream.take]

theorem sentry_good (b : Str) {w t : Str} (hw : Ws w) (ht : ∃ c ∈ t.head?, isWs c = false) :
    IStream.sentry ⟨b, w ++ t, false, false⟩ = (true, ⟨w.reverse ++ b, t, false, false⟩) := by
  obtain ⟨c, hc, hn⟩ := ht
  unfold IStream.sentry
  have e : (w ++ t).takeWhile isWs = w := by
    refine takeWhile_pre (fun d hd => (isWs_iff d).2 (hw d hd)) fun d hd => ?_
    rw [Option.mem_def] at hc hd
    rw [hc] at hd; cases hd; exact hn
  dsimp only
  rw [e, take_pre]
  have : t ≠ [] := by rintro rfl; simp at hc
  simp [this]

theorem sentry_end (b : Str) {w : Str} (hw : Ws w) :
    IStream.sentry ⟨b, w, false, false⟩ = (false, ⟨w.reverse ++ b, [], true, true⟩) := by
  unfold IStream.sentry
  have e : w.takeWhile isWs = w := by
    have := takeWhile_pre (t := []) (fun d hd => (isWs_iff d).2 (hw d hd)) (by simp)
    simpa using this
  dsimp only
  have := take_pre b w []
  rw [List.append_nil] at this
  rw [e, this]
  rfl

theorem getChar_good (b : Str) {w : Str} (hw : Ws w) {c : Byte} (hc : isWs c = false) (t : Str) (ch : Option Byte) :
    IStream.getChar ⟨b, w ++ c :: t, false, false⟩ ch = (some c, ⟨c :: (w.reverse ++ b), t, false, false⟩) := by
  unfold IStream.getChar
  rw [sentry_good b hw ⟨c, by simp, hc⟩]
  rfl

theorem digits_isDigit {ds : Str} (h : Digits ds) : ∀ c ∈ ds, Json.isDigit c = true :=
  fun c hc => (Json.digit_iff c).2 (h.2 c hc)

theorem natVal_nat (s : Str) : Json.natVal s = nat s := Json.natVal_eq s

/-- the first character of a number -/
theorem num_head {n : Str} {v : Int} (h : Num n v) :
    ∃ c n', n = c :: n' ∧ isWs c = false ∧ c ≠ byte '}' ∧ (Json.isDigit c = true ∨ c = byte '+' ∨ c = byte '-') := by
  cases h with
  | plain ds h =>
    cases n with
    | nil => exact absurd rfl h.1
    | cons c n' =>
      have h1 := h.2 c (by simp)
      have key : ∀ c : Byte, 48 ≤ c ∧ c ≤ 57 → isWs c = false ∧ c ≠ byte '}' := forall_byte (by decide +kernel)
      exact ⟨c, n', rfl, (key c h1).1, (key c h1).2, .inl ((Json.digit_iff c).2 h1)⟩
  | plus ds h => exact ⟨_, ds, rfl, by decide, by decide, .inr (.inl rfl)⟩
  | minus ds h => exact ⟨_, ds, rfl, by decide, by decide, .inr (.inr rfl)⟩

theorem clamp_int {v : Int} (s : IStream) :
    (if v > INT_MAX then (some INT_MAX, { s with fail := true })
      else if v < INT_MIN then (some INT_MIN, { s with fail := true }) else (some v, s)) =
    (some (max INT_MIN (min INT_MAX v)), ({ s with fail := if IsInt v then s.fail else true } : IStream)) := by
  have hc : (INT_MIN = -2147483648) ∧ INT_MAX = 2147483647 := ⟨rfl, rfl⟩
  split
  · have hn : ¬ IsInt v := by unfold IsInt; omega
    rw [if_neg hn, show max INT_MIN (min INT_MAX v) = INT_MAX by omega]
  · split
    · have hn : ¬ IsInt v := by unfold IsInt; omega
      rw [if_neg hn, show max INT_MIN (min INT_MAX v) = INT_MIN by omega]
    · have hn : IsInt v := by unfold IsInt; omega
      rw [if_pos hn, show max INT_MIN (min INT_MAX v) = v by omega]

theorem getInt_num (b : Str) {w n t : Str} {v : Int} (hw : Ws w) (hn : Num n v)
    (ht : ∀ c ∈ t.head?, Json.isDigit c = false) (value : Option Int) :
    IStream.getInt ⟨b, w ++ (n ++ t), false, false⟩ value = (some (max INT_MIN (min INT_MAX v)),
      ⟨n.reverse ++ (w.reverse ++ b), t, decide (t = []), if IsInt v then false else true⟩) := by
  unfold IStream.getInt
  obtain ⟨c, n', e, h1, -⟩ := num_head hn
  rw [sentry_good b hw ⟨c, by rw [e]; simp, h1⟩]
  simp only [if_true]
  cases hn with
  | plain ds hd =>
    have hc : c ∈ n := by rw [e]; simp
    have hd1 := hd.2 c hc
    have key : ∀ c : Byte, 48 ≤ c ∧ c ≤ 57 → ¬ (c = byte '-' ∨ c = byte '+') := forall_byte (by decide +kernel)
    have e1 : ((n ++ t).take 1).filter (fun c => decide (c = byte '-' ∨ c = byte '+')) = [] := by
      rw [e]
      simp [key c hd1]
    have e2 : (n ++ t).takeWhile Json.isDigit = n := takeWhile_pre (digits_isDigit hd) ht
    simp only [e1, List.length_nil, List.drop_zero, e2, Nat.zero_add, take_pre, if_neg hd.1, natVal_nat,
      show (([] : Str) = [byte '-']) = False by simp, if_false]
    exact clamp_int ⟨_, _, _, _⟩
  | plus ds hd =>
    have e1 : ((byte '+' :: ds ++ t).take 1).filter (fun c => decide (c = byte '-' ∨ c = byte '+')) = [byte '+'] := by
      simp
    have e2 : ((byte '+' :: ds ++ t).drop 1).takeWhile Json.isDigit = ds := takeWhile_pre (digits_isDigit hd) ht
    have e3 : IStream.take ⟨w.reverse ++ b, byte '+' :: ds ++ t, false, false⟩ (1 + ds.length) =
        ⟨(byte '+' :: ds).reverse ++ (w.reverse ++ b), t, false, false⟩ := by
      rw [Nat.add_comm]; exact take_pre (w.reverse ++ b) (byte '+' :: ds) t
    simp only [e1, List.length_singleton, e2, e3, if_neg hd.1, natVal_nat,
      show ([byte '+'] = [byte '-']) = False by simp; decide, if_false]
    exact clamp_int ⟨_, _, _, _⟩
  | minus ds hd =>
    have e1 : ((byte '-' :: ds ++ t).take 1).filter (fun c => decide (c = byte '-' ∨ c = byte '+')) = [byte '-'] := by
      simp
    have e2 : ((byte '-' :: ds ++ t).drop 1).takeWhile Json.isDigit = ds := takeWhile_pre (digits_isDigit hd) ht
    have e3 : IStream.take ⟨w.reverse ++ b, byte '-' :: ds ++ t, false, false⟩ (1 + ds.length) =
        ⟨(byte '-' :: ds).reverse ++ (w.reverse ++ b), t, false, false⟩ := by
      rw [Nat.add_comm]; exact take_pre (w.reverse ++ b) (byte '-' :: ds) t
    simp only [e1, List.length_singleton, e2, e3, if_neg hd.1, natVal_nat, if_true]
    exact clamp_int ⟨_, _, _, _⟩

theorem ws_not_digit {c : Byte} (h : isWs c = true) : Json.isDigit c = false := by
  have key : ∀ c : Byte, isWs c = true → Json.isDigit c = false := forall_byte (by decide +kernel)
  exact key c h

theorem post_head {post : Str} (hp : Ws post) {c : Byte} (hc : Json.isDigit c = false) (t : Str) :
    ∀ d ∈ (post ++ c :: t).head?, Json.isDigit d = false := by
  intro d hd
  cases post with
  | nil => simp at hd; rw [← hd]; exact hc
  | cons p post =>
    simp at hd
    rw [← hd]
    exact ws_not_digit ((isWs_iff p).2 (hp p (by simp)))

/-- one element and the character after it -/
theorem readLoop_item (fuel : Nat) (b : Str) (x : Item) (hx : x.Ok) (c : Byte) (hd : Json.isDigit c = false)
    (hw : isWs c = false) (t : Str) (ch : Option Byte) (vec : List Int) :
    readLoop (fuel + 1) ⟨b, x.text ++ c :: t, false, false⟩ ch vec =
      if c = byte '}' then .ok (vec ++ [x.val], ⟨c :: (x.text.reverse ++ b), t, false, false⟩)
      else if c ≠ byte ',' then .exit
      else readLoop fuel ⟨c :: (x.text.reverse ++ b), t, false, false⟩ (some c) (vec ++ [x.val]) := by
  obtain ⟨h1, h2, h3, h4⟩ := hx
  rw [readLoop]
  have e : x.text ++ c :: t = x.pre ++ (x.num ++ (x.post ++ c :: t)) := by simp [Item.text]
  rw [e, getInt_num b h1 h2 (post_head h3 hd t)]
  have hm : max INT_MIN (min INT_MAX x.val) = x.val := by
    unfold IsInt at h4; omega
  have hne : decide (x.post ++ c :: t = []) = false := by simp
  simp only [use, Out.ok_bind, hm, hne, if_pos h4]
  rw [getChar_good _ h3 hw]
  simp [Item.text]

/-- an element at the end of the text -/
theorem readLoop_end (fuel : Nat) (b : Str) (x : Item) (hx : x.Ok) (ch : Option Byte) (vec : List Int) :
    readLoop (fuel + 1) ⟨b, x.text, false, false⟩ ch vec = .exit := by
  obtain ⟨h1, h2, h3, h4⟩ := hx
  rw [readLoop]
  have e : x.text = x.pre ++ (x.num ++ x.post) := by simp [Item.text]
  have hh : ∀ d ∈ x.post.head?, Json.isDigit d = false := by
    intro d hd
    exact ws_not_digit ((isWs_iff d).2 (h3 d (List.mem_of_mem_head? hd)))
  rw [e, getInt_num b h1 h2 hh]
  simp only [use, Out.ok_bind, if_pos h4]
  by_cases hp : x.post = []
  · simp [hp, IStream.getChar, IStream.sentry]
  · have : decide (x.post = []) = false := by simpa using hp
    rw [this]
    unfold IStream.getChar
    rw [sentry_end _ h3]
    simp

theorem brace_facts : Json.isDigit (byte '}') = false ∧ isWs (byte '}') = false ∧ Json.isDigit (byte ',') = false ∧
    isWs (byte ',') = false ∧ byte ',' ≠ byte '}' ∧ isWs (byte '{') = false ∧ byte '{' ≠ byte '}' := by decide

/-- all elements, up to the last one -/
theorem readLoop_items (xs : List Item) (hne : xs ≠ []) (hx : ∀ x ∈ xs, x.Ok) (c : Byte) (hd : Json.isDigit c = false)
    (hw : isWs c = false) (hc : c ≠ byte ',') (t : Str) : ∀ (fuel : Nat) (_ : xs.length ≤ fuel) (b : Str) (ch : Option Byte)
    (vec : List Int),
    readLoop fuel ⟨b, commas xs ++ c :: t, false, false⟩ ch vec =
      if c = byte '}' then .ok (vec ++ xs.map Item.val, ⟨c :: ((commas xs).reverse ++ b), t, false, false⟩) else .exit := by
  induction xs with
  | nil => exact absurd rfl hne
  | cons x xs ih =>
    intro fuel hf b ch vec
    obtain ⟨fuel, rfl⟩ : ∃ f, fuel = f + 1 := ⟨fuel - 1, by simp at hf; omega⟩
    cases xs with
    | nil =>
      rw [commas, readLoop_item fuel b x (hx x (by simp)) c hd hw]
      by_cases h : c = byte '}'
      · rw [if_pos h, if_pos h]; rfl
      · rw [if_neg h, if_neg h, if_pos hc]
    | cons y ys =>
      rw [commas, List.append_assoc, List.cons_append, readLoop_item fuel b x (hx x (by simp)) _ brace_facts.2.2.1
        brace_facts.2.2.2.1, if_neg brace_facts.2.2.2.2.1, if_neg (by simp), ih (by simp) (fun z hz => hx z (by simp [hz])) fuel
        (by simp at hf ⊢; omega)]
      · simp
      · simp

theorem readLoop_items_end (xs : List Item) (hne : xs ≠ []) (hx : ∀ x ∈ xs, x.Ok) : ∀ (fuel : Nat) (_ : xs.length ≤ fuel)
    (b : Str) (ch : Option Byte) (vec : List Int),
    readLoop fuel ⟨b, commas xs, false, false⟩ ch vec = .exit := by
  induction xs with
  | nil => exact absurd rfl hne
  | cons x xs ih =>
    intro fuel hf b ch vec
    obtain ⟨fuel, rfl⟩ : ∃ f, fuel = f + 1 := ⟨fuel - 1, by simp at hf; omega⟩
    cases xs with
    | nil => rw [commas, readLoop_end fuel b x (hx x (by simp))]
    | cons y ys =>
      rw [commas, readLoop_item fuel b x (hx x (by simp)) _ brace_facts.2.2.1
        brace_facts.2.2.2.1, if_neg brace_facts.2.2.2.2.1, if_neg (by simp), ih (by simp) (fun z hz => hx z (by simp [hz])) fuel
        (by simp at hf ⊢; omega)]
      simp

theorem commas_length (xs : List Item) (hx : ∀ x ∈ xs, x.Ok) : xs.length ≤ (commas xs).length := by
  induction xs with
  | nil => simp
  | cons x xs ih =>
    obtain ⟨c, n', e, -⟩ := num_head (hx x (by simp)).2.1
    have h0 : 1 ≤ x.text.length := by simp [Item.text, e]; omega
    cases xs with
    | nil => simpa [commas] using h0
    | cons y ys =>
      have := ih fun z hz => hx z (by simp [hz])
      rw [commas]
      · simp at this ⊢; omega
      · simp

/-- the first element with the white space before it taken away -/
theorem commas_pre (x : Item) (xs : List Item) : commas (x :: xs) = x.pre ++ commas ({ x with pre := [] } :: xs) := by
  cases xs with
  | nil => simp [commas, Item.text]
  | cons y ys => simp [commas, Item.text]

/-- `operator>>` up to the loop -/
theorem readVector_start (b a : Str) (ha : Ws a) (x : Item) (xs : List Item) (hx : x.Ok) (t : Str) :
    ∃ (ch : Option Byte) (n : Nat), (commas (x :: xs) ++ t).length ≤ n + x.pre.length ∧
    readVector ⟨b, a ++ byte '{' :: (commas (x :: xs) ++ t), false, false⟩ =
      readLoop (n + 2) ⟨x.pre.reverse ++ (byte '{' :: (a.reverse ++ b)), commas ({ x with pre := [] } :: xs) ++ t, false, false⟩ ch [] := by
  obtain ⟨c, n', e, h1, h2, -⟩ := num_head hx.2.1
  obtain ⟨u, hu⟩ : ∃ u, commas ({ x with pre := [] } :: xs) ++ t = c :: u := by
    cases xs with
    | nil => exact ⟨n' ++ x.post ++ t, by simp [commas, Item.text, e]⟩
    | cons y ys => exact ⟨_, by simp [commas, Item.text, e]; rfl⟩
  refine ⟨some c, (c :: u).length, ?_, ?_⟩
  · rw [commas_pre, List.append_assoc, hu]
    simp; omega
  · unfold readVector
    rw [getChar_good b ha brace_facts.2.2.2.2.2.1]
    simp only [use, Out.ok_bind]
    rw [if_neg (by simp), commas_pre, List.append_assoc, hu, getChar_good _ hx.1 h1]
    simp only [Out.ok_bind]
    rw [if_pos h2]
    rfl

theorem item_pre {x : Item} (h : x.Ok) : ({ x with pre := [] } : Item).Ok := ⟨by simp [Ws], h.2⟩

/-! ## termination -/

theorem sentry_rest (s : IStream) : s.sentry.2.rest.length ≤ s.rest.length ∧
    (s.sentry.1 = false → s.sentry.2.fail = true) ∧ (s.fail = true → s.sentry.1 = false) := by
  unfold IStream.sentry
  split
  · rename_i h
    simp
  · rename_i h
    dsimp only
    split
    · simp [IStream.take]
    · simp only [IStream.take]
      simp at h
      simp [h]

theorem getInt_rest (s : IStream) : (s.getInt none).2.rest.length ≤ s.rest.length ∧
    (s.fail = true → (s.getInt none).1 = none) := by
  have h := sentry_rest s
  unfold IStream.getInt
  cases hs : s.sentry with
  | mk ok t =>
    rw [hs] at h
    dsimp only at h ⊢
    cases ok with
    | false => simp; exact h.1
    | true =>
      refine ⟨?_, fun hf => by have := h.2.2 hf; simp at this⟩
      have hd : ∀ n, (t.rest.drop n).length ≤ s.rest.length := by intro n; rw [List.length_drop]; omega
      simp only [if_true]
      split_ifs <;> exact hd _

theorem getChar_rest (s : IStream) (ch : Option Byte) :
    (s.getChar ch).2.fail = true ∨ (s.getChar ch).2.rest.length < s.rest.length := by
  have h := sentry_rest s
  unfold IStream.getChar
  cases hs : s.sentry with
  | mk ok t =>
    rw [hs] at h
    dsimp only at h ⊢
    cases ok with
    | false => exact .inl (by simpa using h.2.1 rfl)
    | true =>
      simp only [if_true]
      cases ht : t.rest with
      | nil =>
        exfalso
        unfold IStream.sentry at hs
        split at hs
        · simp at hs
        · dsimp only at hs
          split at hs
          · simp at hs
          · rename_i hne
            simp at hs
            rw [hs] at hne
            exact hne ht
      | cons c u =>
        right
        rw [ht] at h
        simp [IStream.take, ht] at h ⊢
        omega

theorem readLoop_ends : ∀ (fuel : Nat) (s : IStream) (ch : Option Byte) (vec : List Int),
    (s.fail = true ∧ 1 ≤ fuel ∨ s.rest.length + 2 ≤ fuel) → readLoop fuel s ch vec ≠ .diverge := by
  intro fuel
  induction fuel with
  | zero => intro s ch vec h; omega
  | succ fuel ih =>
    intro s ch vec h
    rw [readLoop]
    have h1 := getInt_rest s
    cases hg : s.getInt none with
    | mk value s1 =>
      rw [hg] at h1
      dsimp only at h1 ⊢
      cases value with
      | none => simp [use]
      | some v =>
        have hf : ¬ s.fail = true := fun h => by simpa using h1.2 h
        have hlen : s.rest.length + 2 ≤ fuel + 1 := by
          rcases h with h | h
          · exact absurd h.1 hf
          · exact h
        simp only [use, Out.ok_bind]
        have h2 := getChar_rest s1 ch
        cases hc : s1.getChar ch with
        | mk c s2 =>
          rw [hc] at h2
          dsimp only at h2 ⊢
          split
          · simp
          · cases c with
            | none => simp
            | some c =>
              simp only [Out.ok_bind]
              split
              · simp
              · split
                · simp
                · refine ih _ _ _ ?_
                  rcases h2 with h2 | h2
                  · exact .inl ⟨h2, by omega⟩
                  · exact .inr (by omega)

/-! ## printing -/

theorem decInt_num (i : Int) : Num (Json.decInt i) i := by
  unfold Json.decInt
  have h := Json.decNat_digits i.natAbs
  have e : nat (Json.decNat i.natAbs) = i.natAbs := Json.decNat_nat i.natAbs
  split
  · have := Num.minus _ h
    rw [e] at this
    rwa [show -((i.natAbs : Nat) : Int) = i by omega] at this
  · have := Num.plain _ h
    rw [e] at this
    rwa [show ((i.natAbs : Nat) : Int) = i by omega] at this

end Stream
