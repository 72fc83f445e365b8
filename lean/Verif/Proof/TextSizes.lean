import Verif.Proof.Url
import Verif.Model.Json
import Verif.Spec.TextSizes

/-! # Sizes of URL and JSON texts -/

namespace TextSizes
open Cpp

theorem encode_length (s : Str) :
    (Url.urlEncode s).length = s.length + 2 * s.countP (fun c => ¬ Url.Spec.Unreserved c) := by
  induction s with
  | nil => rfl
  | cons c s ih =>
    unfold Url.urlEncode at *
    rw [List.flatMap_cons, List.length_append, ih, List.countP_cons, List.length_cons]
    by_cases h : Url.Spec.Unreserved c
    · rw [if_pos ((Url.plain_iff c).2 h)]
      simp only [h, not_true_eq_false, decide_false, List.length_singleton, Bool.false_eq_true, if_false]
      omega
    · rw [if_neg fun e => h ((Url.plain_iff c).1 e)]
      simp only [h, not_false_eq_true, decide_true, if_true, Url.escape, List.length_cons, List.length_nil]
      omega

theorem decode_bounds (t : Str) : ∀ s, Url.dec t = .ok s → s.length ≤ t.length ∧ t.length ≤ 3 * s.length := by
  induction t using Url.rec3 with
  | case1 => intro s h; simp [Url.dec] at h; subst h; simp
  | case2 c =>
    intro s h
    by_cases h1 : c = byte '%'
    · subst h1; rw [Url.dec_ub_of_dangerous _ .last] at h; cases h
    · by_cases h2 : c = byte '+'
      · subst h2
        rw [Url.dec_plus, Url.dec, Out.ok_bind, Out.ok.injEq] at h
        subst h; simp
      · rw [Url.dec_plain _ _ h2 h1, Url.dec, Out.ok_bind, Out.ok.injEq] at h
        subst h; simp
  | case3 c h0 ih =>
    intro s h
    by_cases h1 : c = byte '%'
    · subst h1
      rw [Url.dec, if_neg (by decide), if_pos rfl] at h
      obtain ⟨a, -, h⟩ := Out.bind_eq_ok.1 h
      obtain rfl := Out.ok.inj h
      simp
    · by_cases h2 : c = byte '+'
      · subst h2
        rw [Url.dec_plus] at h
        obtain ⟨r, e, h⟩ := Out.bind_eq_ok.1 h
        obtain rfl := Out.ok.inj h
        have := ih r e
        simp only [List.length_cons, List.length_nil] at *; omega
      · rw [Url.dec_plain _ _ h2 h1] at h
        obtain ⟨r, e, h⟩ := Out.bind_eq_ok.1 h
        obtain rfl := Out.ok.inj h
        have := ih r e
        simp only [List.length_cons, List.length_nil] at *; omega
  | case4 c h0 l t ih1 ih2 =>
    intro s h
    by_cases h1 : c = byte '%'
    · subst h1
      rw [Url.dec_triple] at h
      obtain ⟨a, -, h⟩ := Out.bind_eq_ok.1 h
      obtain ⟨b, -, h⟩ := Out.bind_eq_ok.1 h
      obtain ⟨r, e, h⟩ := Out.bind_eq_ok.1 h
      obtain rfl := Out.ok.inj h
      have := ih2 r e
      simp only [List.length_cons] at *; omega
    · by_cases h2 : c = byte '+'
      · subst h2
        rw [Url.dec_plus] at h
        obtain ⟨r, e, h⟩ := Out.bind_eq_ok.1 h
        obtain rfl := Out.ok.inj h
        have := ih1 r e
        simp only [List.length_cons] at *; omega
      · rw [Url.dec_plain _ _ h2 h1] at h
        obtain ⟨r, e, h⟩ := Out.bind_eq_ok.1 h
        obtain rfl := Out.ok.inj h
        have := ih1 r e
        simp only [List.length_cons] at *; omega

theorem hex_ne : ∀ c : Byte, Url.Spec.hexVal c ≠ none → c ≠ byte '%' := by
  apply forall_byte; decide +kernel

theorem decodes_length {t s : Str} (h : Url.Spec.Decodes t s) : t.length = s.length + 2 * t.count (byte '%') := by
  induction h with
  | nil => rfl
  | plus t s _ ih =>
    rw [List.count_cons_of_ne (by decide)]
    simp only [List.length_cons]; omega
  | plain c t s _ h2 _ ih =>
    rw [List.count_cons_of_ne h2]
    simp only [List.length_cons]; omega
  | escaped h l x y t s hh hl _ ih =>
    rw [List.count_cons_self, List.count_cons_of_ne (hex_ne h (by simp [hh])), List.count_cons_of_ne (hex_ne l (by simp [hl]))]
    simp only [List.length_cons]; omega

theorem json_flatMap (s : Str) : ∀ o : Str, s.foldl (fun out c => out ++ Json.escapeChar c) o = o ++ s.flatMap Json.escapeChar := by
  induction s with
  | nil => intro o; simp
  | cons c s ih => intro o; rw [List.foldl_cons, ih, List.flatMap_cons, List.append_assoc]

theorem escapeChar_length : ∀ c : Byte, (Json.escapeChar c).length = if Escaped c then 2 else 1 := by
  apply forall_byte; decide +kernel

theorem escapeChar_same : ∀ c : Byte, ¬ Escaped c → Json.escapeChar c = [c] := by
  apply forall_byte; decide +kernel

theorem json_length (s : Str) : (Json.jsonEscape s).length = s.length + s.countP (fun c => Escaped c) := by
  rw [Json.jsonEscape, json_flatMap, List.nil_append]
  induction s with
  | nil => rfl
  | cons c s ih =>
    rw [List.flatMap_cons, List.length_append, ih, List.countP_cons, List.length_cons, escapeChar_length]
    by_cases h : Escaped c <;> simp [h] <;> omega

theorem json_same (s : Str) (h : ∀ c ∈ s, ¬ Escaped c) : Json.jsonEscape s = s := by
  rw [Json.jsonEscape, json_flatMap, List.nil_append]
  induction s with
  | nil => rfl
  | cons c s ih =>
    rw [List.flatMap_cons, escapeChar_same c (h c (by simp)), ih fun d hd => h d (by simp [hd])]
    rfl

end TextSizes
