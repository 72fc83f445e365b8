import Verif.Proof.TextSizes

/-! # C194: sizes of URL and JSON texts -/

namespace TextSizes
open Cpp

/-- C194: `urlEncode` adds two characters for each one that is not unreserved. -/
theorem C194_encode (s : Str) :
    (Url.urlEncode s).length = s.length + 2 * s.countP (fun c => ¬ Url.Spec.Unreserved c) := encode_length s

/-- C194: so the result has between `n` and `3n` characters, and both happen. -/
theorem C194_encode_bounds (s : Str) :
    s.length ≤ (Url.urlEncode s).length ∧ (Url.urlEncode s).length ≤ 3 * s.length ∧
    ((Url.urlEncode s).length = s.length ↔ ∀ c ∈ s, Url.Spec.Unreserved c) ∧
    ((Url.urlEncode s).length = 3 * s.length ↔ ∀ c ∈ s, ¬ Url.Spec.Unreserved c) := by
  have h := encode_length s
  have hle := List.countP_le_length (p := fun c => decide (¬ Url.Spec.Unreserved c)) (l := s)
  refine ⟨by omega, by omega, ?_, ?_⟩
  · rw [h, show s.length + 2 * s.countP (fun c => decide (¬ Url.Spec.Unreserved c)) = s.length ↔
      s.countP (fun c => decide (¬ Url.Spec.Unreserved c)) = 0 by omega, List.countP_eq_zero]
    simp
  · rw [h, show s.length + 2 * s.countP (fun c => decide (¬ Url.Spec.Unreserved c)) = 3 * s.length ↔
      s.countP (fun c => decide (¬ Url.Spec.Unreserved c)) = s.length by omega, List.countP_eq_length]
    simp

/-- C194: whatever `urlDecode` returns, for well formed texts or not, is at most as long as the text and at least a third of it. -/
theorem C194_decode (t s : Str) (h : Url.urlDecode t = .ok s) : s.length ≤ t.length ∧ t.length ≤ 3 * s.length :=
  decode_bounds t s (by rwa [← Url.urlDecode_eq_dec])

/-- C194: for well formed texts, two characters less for each `%`. -/
theorem C194_decode_exact (t s : Str) (h : Url.Spec.Decodes t s) :
    ∃ r, Url.urlDecode t = .ok r ∧ t.length = r.length + 2 * t.count (byte '%') :=
  ⟨s, by rw [Url.urlDecode_eq_dec, Url.dec_of_decodes t s h], decodes_length h⟩

/-- C194: `jsonEscape` adds one character for each one that is escaped. -/
theorem C194_json (s : Str) : (Json.jsonEscape s).length = s.length + s.countP (fun c => Escaped c) := json_length s

/-- C194: so the result has between `n` and `2n` characters, and it is as long as the text only if it is the text. -/
theorem C194_json_bounds (s : Str) : s.length ≤ (Json.jsonEscape s).length ∧ (Json.jsonEscape s).length ≤ 2 * s.length ∧
    ((Json.jsonEscape s).length = s.length ↔ Json.jsonEscape s = s) := by
  have h := json_length s
  have hle := List.countP_le_length (p := fun c => decide (Escaped c)) (l := s)
  refine ⟨by omega, by omega, fun e => ?_, fun e => by rw [e]⟩
  have : s.countP (fun c => decide (Escaped c)) = 0 := by omega
  exact json_same s (by simpa using List.countP_eq_zero.1 this)

-- "a b" and its coded text
example : Url.Spec.Decodes (bytes ['a', '%', '2', '0', 'b']) (bytes ['a', ' ', 'b']) ∧
    Url.urlEncode (bytes ['a', ' ', 'b']) = bytes ['a', '%', '2', '0', 'b'] :=
  ⟨.plain _ _ _ (by decide) (by decide) (.escaped _ _ 2 0 _ _ (by decide) (by decide) (.plain _ _ _ (by decide) (by decide) .nil)),
    by decide +kernel⟩
example : Json.jsonEscape (bytes ['a', '\n']) = bytes ['a', '\\', 'n'] := by decide +kernel
example : Url.urlDecode (bytes ['%', '4']) = .ok [64] := by rw [Url.urlDecode_eq_dec]; decide +kernel

end TextSizes
