import Verif.Proof.Base64
import Verif.Proof.Url

/-! # Helper lemmas: base64 and URL encoding in pieces -/

namespace Base64
open Cpp

theorem rfc_append : ∀ (a b : Str), a.length % 3 = 0 → Spec.rfc4648 (a ++ b) = Spec.rfc4648 a ++ Spec.rfc4648 b
  | [], b, _ => rfl
  | [_], _, h => by simp at h
  | [_, _], _, h => by simp at h
  | x :: y :: z :: a, b, h => by
    have := rfc_append a b (by simp only [List.length_cons] at h; omega)
    simp only [List.cons_append, Spec.rfc4648, this]

/-- `=` stands only at the end -/
theorem rfc_pad : ∀ (s x y : Str), Spec.rfc4648 s = x ++ byte '=' :: y → y.length ≤ 1
  | [], x, y, h => by simp [Spec.rfc4648] at h
  | [a], x, y, h => by
    have h' := h
    simp only [Spec.rfc4648] at h
    match x, h with
    | [], h => exact absurd (List.cons.inj h).1 (letter_ne_eq _)
    | [_], h => exact absurd (List.cons.inj (List.cons.inj h).2).1 (letter_ne_eq _)
    | _ :: _ :: x, h =>
      have := congrArg List.length h
      simp at this
      omega
  | [a, b], x, y, h => by
    simp only [Spec.rfc4648] at h
    match x, h with
    | [], h => exact absurd (List.cons.inj h).1 (letter_ne_eq _)
    | [_], h => exact absurd (List.cons.inj (List.cons.inj h).2).1 (letter_ne_eq _)
    | _ :: _ :: x, h =>
      have := congrArg List.length h
      simp at this
      omega
  | a :: b :: c :: s, x, y, h => by
    simp only [Spec.rfc4648] at h
    match x, h with
    | [], h => exact absurd (List.cons.inj h).1 (letter_ne_eq _)
    | [_], h => exact absurd (List.cons.inj (List.cons.inj h).2).1 (letter_ne_eq _)
    | [_, _], h => exact absurd (List.cons.inj (List.cons.inj (List.cons.inj h).2).2).1 (letter_ne_eq _)
    | [_, _, _], h => exact absurd (List.cons.inj (List.cons.inj (List.cons.inj (List.cons.inj h).2).2).2).1 (letter_ne_eq _)
    | _ :: _ :: _ :: _ :: x, h =>
      refine rfc_pad s x y ?_
      exact (List.cons.inj (List.cons.inj (List.cons.inj (List.cons.inj h).2).2).2).2

theorem rfc_ends : ∀ s : Str, s.length % 3 ≠ 0 → ∃ x, Spec.rfc4648 s = x ++ [byte '=']
  | [], h => absurd rfl h
  | [_], _ => ⟨[_, _, _], rfl⟩
  | [_, _], _ => ⟨[_, _, _], rfl⟩
  | a :: b :: c :: s, h => by
    obtain ⟨x, hx⟩ := rfc_ends s (by simp only [List.length_cons] at h; omega)
    exact ⟨_ :: _ :: _ :: _ :: x, by rw [Spec.rfc4648, hx]; rfl⟩

/-- the bits of a text -/
def bitsOf (t : Str) : List Bool := t.flatMap fun c => if c ≠ byte '=' then decodeBits c else []

theorem bitsOf_length (t : Str) : (bitsOf t).length = 6 * (t.filter fun c => c ≠ byte '=').length := by
  induction t with
  | nil => rfl
  | cons c t ih =>
    unfold bitsOf at ih ⊢
    rw [List.flatMap_cons, List.length_append, ih]
    by_cases h : c = byte '='
    · simp [h]
    · rw [if_pos h, List.filter_cons_of_pos (by simpa using h)]
      simp [decodeBits]
      omega

theorem pieces_app {k : Nat} (hk : 0 < k) : ∀ (n : Nat) (a s : List Bool), a.length = k * n →
    pieces k (a ++ s) = pieces k a ++ pieces k s := by
  intro n
  induction n with
  | zero =>
    intro a s h
    obtain rfl : a = [] := List.length_eq_zero_iff.1 (by simpa using h)
    simp [pieces_nil]
  | succ n ih =>
    intro a s h
    rw [Nat.mul_succ] at h
    have h1 : (a.take k).length = k := by rw [List.length_take]; omega
    have h2 : (a.drop k).length = k * n := by rw [List.length_drop]; omega
    have e : a = a.take k ++ a.drop k := (List.take_append_drop k a).symm
    rw [show a ++ s = a.take k ++ (a.drop k ++ s) by rw [← List.append_assoc, List.take_append_drop],
      pieces_append hk h1, ih _ _ h2]
    have := pieces_append hk h1 (s := a.drop k)
    rw [List.take_append_drop] at this
    rw [this]
    rfl

theorem padBits_self {k : Nat} {a : List Bool} (ha : a.length % k = 0) : padBits k a = a := by
  unfold padBits
  rw [if_neg (by omega)]

theorem decode_append {t u : Str} (h : (t.filter fun c => c ≠ byte '=').length % 4 = 0) :
    base64Decode (t ++ u) = base64Decode t ++ base64Decode u := by
  have hl := bitsOf_length t
  have hm : (bitsOf t).length % 8 = 0 := by omega
  show untext (bitsOf (t ++ u)) = untext (bitsOf t) ++ untext (bitsOf u)
  have e : bitsOf (t ++ u) = bitsOf t ++ bitsOf u := by simp [bitsOf, List.flatMap_append]
  rw [e]
  unfold untext
  rw [padBits_append hm, padBits_self hm, pieces_app (by decide) ((bitsOf t).length / 8) _ _ (by omega)]
  simp

end Base64

namespace Url
open Cpp

theorem dec_decodes_append {t s : Str} (h : Spec.Decodes t s) (u : Str) :
    dec (t ++ u) = (do let r ← dec u; .ok (s ++ r)) := by
  induction h with
  | nil =>
    rw [List.nil_append]
    cases dec u <;> rfl
  | plus t s _ ih =>
    rw [List.cons_append, dec_plus, ih]
    cases dec u <;> rfl
  | plain c t s h1 h2 _ ih =>
    rw [List.cons_append, dec_plain _ _ h1 h2, ih]
    cases dec u <;> rfl
  | escaped h l x y t s hx hy _ ih =>
    have h0 := dec_of_decodes _ _ (Spec.Decodes.escaped h l x y [] [] hx hy .nil)
    rw [dec_triple, hexVal_ok h x hx] at h0
    simp only [List.cons_append]
    rw [dec_triple, hexVal_ok h x hx]
    simp only [Out.ok_bind] at h0 ⊢
    rw [hexVal_ok l y hy] at h0 ⊢
    simp only [Out.ok_bind] at h0 ⊢
    rw [ih]
    have e : UInt8.ofInt ((x : Int) * 16 + y) = UInt8.ofNat (16 * x + y) := by
      have : dec [] = .ok [] := rfl
      rw [this] at h0
      simp only [Out.ok_bind, Out.ok.injEq, List.cons.injEq, and_true] at h0
      exact h0
    rw [e]
    cases dec u <;> rfl

theorem dec_single (c : Byte) (t : Str) (h : c ≠ byte '%') :
    dec (c :: t) = (do let rest ← dec t; .ok ((if c = byte '+' then byte ' ' else c) :: rest)) := by
  by_cases hc : c = byte '+'
  · subst hc; rw [dec_plus, if_pos rfl]
  · rw [dec_plain c t hc h, if_neg hc]

theorem dec_whole {t : Str} (h : Spec.Whole t) (u : Str) :
    dec (t ++ u) = (do let s ← dec t; let r ← dec u; .ok (s ++ r)) := by
  induction h with
  | nil =>
    rw [List.nil_append]
    cases dec u <;> rfl
  | single c t hc _ ih =>
    rw [List.cons_append, dec_single _ _ hc, dec_single _ _ hc, ih]
    cases dec t <;> cases dec u <;> rfl
  | triple a b t _ ih =>
    simp only [List.cons_append]
    rw [dec_triple, dec_triple, ih]
    cases hexToInt a <;> cases hexToInt b <;> cases dec t <;> cases dec u <;> rfl

theorem whole_or (t : Str) : Spec.Whole t ∨ ∃ p, Spec.Whole p ∧ (t = p ++ [byte '%'] ∨ ∃ h, t = p ++ [byte '%', h]) := by
  have step : ∀ (c : Byte) (t : Str), c ≠ byte '%' →
      (Spec.Whole t ∨ ∃ p, Spec.Whole p ∧ (t = p ++ [byte '%'] ∨ ∃ h, t = p ++ [byte '%', h])) →
      Spec.Whole (c :: t) ∨ ∃ p, Spec.Whole p ∧ (c :: t = p ++ [byte '%'] ∨ ∃ h, c :: t = p ++ [byte '%', h]) := by
    rintro c t hc (h | ⟨p, hp, rfl | ⟨h, rfl⟩⟩)
    · exact .inl (.single _ _ hc h)
    · exact .inr ⟨c :: p, .single _ _ hc hp, .inl rfl⟩
    · exact .inr ⟨c :: p, .single _ _ hc hp, .inr ⟨h, rfl⟩⟩
  have one : ∀ c : Byte, Spec.Whole [c] ∨ ∃ p, Spec.Whole p ∧ ([c] = p ++ [byte '%'] ∨ ∃ h, [c] = p ++ [byte '%', h]) := by
    intro c
    by_cases hc : c = byte '%'
    · exact .inr ⟨[], .nil, .inl (by rw [hc]; rfl)⟩
    · exact step c [] hc (.inl .nil)
  induction t using rec3 with
  | case1 => exact .inl .nil
  | case2 c => exact one c
  | case3 c h ih =>
    by_cases hc : c = byte '%'
    · exact .inr ⟨[], .nil, .inr ⟨h, by rw [hc]; rfl⟩⟩
    · exact step c _ hc ih
  | case4 c h l t ih1 ih2 =>
    by_cases hc : c = byte '%'
    · subst hc
      rcases ih2 with h2 | ⟨p, hp, rfl | ⟨k, rfl⟩⟩
      · exact .inl (.triple _ _ _ h2)
      · exact .inr ⟨_, .triple h l p hp, .inl rfl⟩
      · exact .inr ⟨_, .triple h l p hp, .inr ⟨k, rfl⟩⟩
    · exact step c _ hc ih1

theorem dec_cut {t s : Str} (h : dec t = .ok s) (hc : dec (t ++ [byte '1']) = .ok (s ++ [byte '1'])) : Spec.Whole t := by
  rcases whole_or t with hw | ⟨p, hp, rfl | ⟨x, rfl⟩⟩
  · exact hw
  · rw [dec_whole hp] at h
    obtain ⟨_, _, h⟩ := Out.bind_eq_ok.1 h
    have : dec [byte '%'] = .ub := rfl
    rw [this] at h
    cases h
  · rw [List.append_assoc, dec_whole hp] at hc
    rw [dec_whole hp] at h
    obtain ⟨s0, h0, h⟩ := Out.bind_eq_ok.1 h
    rw [h0, Out.ok_bind] at hc
    obtain ⟨r, hr, h⟩ := Out.bind_eq_ok.1 h
    obtain ⟨r', hr', hc⟩ := Out.bind_eq_ok.1 hc
    have e1 : r.length = 1 := by
      rw [dec, if_neg (by decide), if_pos rfl] at hr
      obtain ⟨_, _, hr⟩ := Out.bind_eq_ok.1 hr
      rw [← Out.ok.inj hr]; rfl
    have e2 : r'.length = 1 := by
      rw [show [byte '%', x] ++ [byte '1'] = byte '%' :: x :: byte '1' :: [] from rfl, dec_triple] at hr'
      obtain ⟨_, _, hr'⟩ := Out.bind_eq_ok.1 hr'
      obtain ⟨_, _, hr'⟩ := Out.bind_eq_ok.1 hr'
      obtain ⟨q, hq, hr'⟩ := Out.bind_eq_ok.1 hr'
      have : q = [] := (Out.ok.inj hq).symm
      rw [← Out.ok.inj hr', this]; rfl
    have e3 := congrArg List.length (Out.ok.inj h)
    have e4 := congrArg List.length (Out.ok.inj hc)
    rw [List.length_append] at e3 e4
    rw [List.length_append, List.length_singleton] at e4
    omega

end Url
