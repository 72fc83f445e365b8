import Verif.Proof.Pieces
import Verif.Props.Base64
import Verif.Props.Base64Decode
import Verif.Props.Url

/-! # Property C155: base64 and URL encoding in pieces -/

namespace Pieces
open Cpp Base64 Url

/-- **C155, the exact domain for base64Encode.**  The encodings of two pieces put together are the encoding of the whole
exactly if the length of the first piece is a multiple of three, or the second piece is empty. -/
theorem C155_encode_partial (a b : Str) :
    base64Encode (a ++ b) = base64Encode a ++ base64Encode b ↔ a.length % 3 = 0 ∨ b = [] := by
  rw [C01_encode_is_rfc4648, C01_encode_is_rfc4648, C01_encode_is_rfc4648]
  constructor
  · intro h
    refine Decidable.byContradiction fun hn => ?_
    rw [not_or] at hn
    obtain ⟨x, hx⟩ := rfc_ends a hn.1
    rw [hx, List.append_assoc] at h
    have h1 := rfc_pad _ _ _ h
    have h2 := rfc_length b
    have h3 : 0 < b.length := List.length_pos_iff.2 hn.2
    simp at h1
    omega
  · rintro (h | rfl)
    · exact rfc_append a b h
    · simp [Base64.Spec.rfc4648]

/-- **C155 for any number of pieces.**  If the length of every piece but the last one is a multiple of three, the encodings
of the pieces put together are the encoding of the whole. -/
theorem C155_encode_pieces_partial (ps : List Str) (last : Str) (h : ∀ p ∈ ps, p.length % 3 = 0) :
    base64Encode (ps.flatten ++ last) = (ps.map fun p => base64Encode p).flatten ++ base64Encode last := by
  induction ps with
  | nil => rfl
  | cons p ps ih =>
    simp only [List.flatten_cons, List.map_cons, List.append_assoc]
    rw [(C155_encode_partial p _).2 (.inl (h p (by simp))), ih fun q hq => h q (by simp [hq])]

/-- **C155, what holds for base64Decode.**  Texts may be cut anywhere behind a multiple of four characters other than
`'='`. -/
theorem C155_decode_partial (t u : Str) (h : (t.filter fun c => c ≠ byte '=').length % 4 = 0) :
    base64Decode (t ++ u) = base64Decode t ++ base64Decode u := decode_append h

/-- **C155, the exact domain for base64Decode.**  These are the only places where every text may follow: elsewhere already a
single character `/` is decoded differently. -/
theorem C155_decode_exact_partial (t : Str) : ((∀ u, base64Decode (t ++ u) = base64Decode t ++ base64Decode u) ↔
      (t.filter fun c => c ≠ byte '=').length % 4 = 0) ∧
    (base64Decode (t ++ [byte '/']) = base64Decode t ++ base64Decode [byte '/'] ↔
      (t.filter fun c => c ≠ byte '=').length % 4 = 0) :=
  ⟨⟨fun h => decode_cut (h _), fun h _ => decode_append h⟩, ⟨decode_cut, fun h => decode_append h⟩⟩

/-- **C155, refuted for base64Decode.**  `Zg==` and `b28=` are decoded to `f` and `oo`, but together they are not decoded to
`foo`. -/
theorem C155_decode_refuted : base64Decode (base64Encode (bytes ['f']) ++ base64Encode (bytes ['o', 'o'])) ≠
    base64Decode (base64Encode (bytes ['f'])) ++ base64Decode (base64Encode (bytes ['o', 'o'])) := by
  rw [C01_encode_is_rfc4648, C01_encode_is_rfc4648]
  decide +kernel

/-- **C155, what holds for urlDecode.**  Texts may be cut behind a well formed beginning: it is decoded to the bytes it
denotes, and the rest as if it stood alone (also if that is undefined behaviour). -/
theorem C155_url_partial (t s u : Str) (h : Url.Spec.Decodes t s) :
    (∀ r, urlDecode u = .ok r → urlDecode (t ++ u) = .ok (s ++ r)) ∧ (urlDecode u = .ub → urlDecode (t ++ u) = .ub) := by
  rw [urlDecode_eq_dec, urlDecode_eq_dec, dec_decodes_append h u]
  exact ⟨fun r hr => by rw [hr]; rfl, fun hr => by rw [hr]; rfl⟩

/-- **C155, the exact domain for urlDecode.**  If `t` can be decoded, what follows is decoded as if it stood alone exactly if
`t` does not end within a group of `%` and two characters; already a single digit behind it shows that. -/
theorem C155_url_exact_partial (t s : Str) (h : urlDecode t = .ok s) :
    ((∀ u r, urlDecode u = .ok r → urlDecode (t ++ u) = .ok (s ++ r)) ↔ Url.Spec.Whole t) ∧
    (urlDecode (t ++ [byte '1']) = .ok (s ++ [byte '1']) ↔ Url.Spec.Whole t) := by
  have h1 : urlDecode [byte '1'] = .ok [byte '1'] := by rw [urlDecode_eq_dec]; decide +kernel
  have hb : Url.Spec.Whole t → ∀ u r, urlDecode u = .ok r → urlDecode (t ++ u) = .ok (s ++ r) := by
    intro hw u r hr
    rw [urlDecode_eq_dec] at h hr ⊢
    rw [dec_whole hw, h, hr]; rfl
  have hf : urlDecode (t ++ [byte '1']) = .ok (s ++ [byte '1']) → Url.Spec.Whole t := by
    rw [urlDecode_eq_dec] at h ⊢
    exact dec_cut h
  exact ⟨⟨fun hu => hf (hu _ _ h1), hb⟩, ⟨hf, fun hw => hb hw _ _ h1⟩⟩

/-- **C155, refuted for urlDecode.**  `%4` and `1` are decoded to `@` and `1`, but together to `A`. -/
theorem C155_url_refuted : urlDecode (bytes ['%', '4']) = .ok (bytes ['@']) ∧ urlDecode (bytes ['1']) = .ok (bytes ['1']) ∧
    urlDecode (bytes ['%', '4', '1']) = .ok (bytes ['A']) := by
  rw [urlDecode_eq_dec, urlDecode_eq_dec, urlDecode_eq_dec]
  decide +kernel

/-- `foo` and `ba`; `fo` and `o` -/
example : base64Encode (bytes ['f', 'o', 'o'] ++ bytes ['b', 'a']) =
    base64Encode (bytes ['f', 'o', 'o']) ++ base64Encode (bytes ['b', 'a']) :=
  (C155_encode_partial _ _).2 (.inl rfl)

example : base64Encode (bytes ['f', 'o'] ++ bytes ['o']) ≠ base64Encode (bytes ['f', 'o']) ++ base64Encode (bytes ['o']) :=
  fun h => absurd ((C155_encode_partial _ _).1 h) (by decide)

example : ∀ p ∈ [bytes ['f', 'o', 'o'], bytes [], bytes ['b', 'a', 'r', 'b', 'a', 'r']], p.length % 3 = 0 := by decide

example : ((bytes ['Z', 'm', '9', 'v']).filter fun c => c ≠ byte '=').length % 4 = 0 ∧
    base64Decode (bytes ['Z', 'm', '9', 'v'] ++ bytes ['Y', 'g', '=', '=']) = bytes ['f', 'o', 'o'] ++ bytes ['b'] := by
  refine ⟨by decide, ?_⟩
  rw [C155_decode_partial _ _ (by decide)]
  decide +kernel

example : urlDecode (bytes ['%', '4', '1', '+'] ++ bytes ['z']) = .ok (bytes ['A', ' '] ++ bytes ['z']) := by
  refine (C155_url_partial _ (bytes ['A', ' ']) _ (.escaped _ _ 4 1 _ _ (by decide) (by decide) (.plus _ _ .nil))).1 _ ?_
  rw [urlDecode_eq_dec]
  decide +kernel

example : urlDecode (bytes ['%', '4', '1', '+'] ++ bytes ['%']) = .ub := by
  refine (C155_url_partial _ (bytes ['A', ' ']) _ (.escaped _ _ 4 1 _ _ (by decide) (by decide) (.plus _ _ .nil))).2 ?_
  rw [urlDecode_eq_dec]
  decide +kernel

-- a text that can be decoded and ends within a group, and one with a malformed group that does not
example : urlDecode (bytes ['a', '%', '4']) = .ok (bytes ['a', '@']) ∧ urlDecode (bytes ['%', 'x', 'y', 'z']) ≠ .ub ∧
    Url.Spec.Whole (bytes ['%', '_', '_', 'z']) := by
  refine ⟨?_, ?_, .triple _ _ _ (.single _ _ (by decide) .nil)⟩ <;> rw [urlDecode_eq_dec] <;> decide +kernel

end Pieces
