import Verif.Proof.Url

/-! # Properties C05–C07 and C70: URL encoding -/

namespace Url
open Cpp

/-- C05: decoding an encoded string gives the string back, without undefined behaviour. -/
theorem C05_round_trip (s : Str) : urlDecode (urlEncode s) = .ok s := by
  rw [urlDecode_eq_dec, dec_encode]

/-- C06: the encoding consists of unreserved characters and upper-case `%HH` triples. -/
theorem C06_encode_safe (s : Str) : Spec.Safe (urlEncode s) := safe_encode s

/-- C06: strings of unreserved characters are left alone. -/
theorem C06_unreserved_unchanged (s : Str) (h : ∀ c ∈ s, Spec.Unreserved c) : urlEncode s = s := by
  induction s with
  | nil => rfl
  | cons c s ih =>
    unfold urlEncode at *
    rw [List.flatMap_cons, if_pos ((plain_iff c).mpr (h c (by simp))),
      ih (fun d hd => h d (by simp [hd]))]
    rfl

example : ∀ c ∈ bytes ['a','Z','0','~','-'], Spec.Unreserved c := by decide

/-- C06: a character that is not unreserved is written as `%HH` with its own value. -/
theorem C06_reserved_escaped (c : Byte) (h : ¬ Spec.Unreserved c) :
    ∃ x y : Byte, urlEncode [c] = [byte '%', x, y] ∧ Spec.UpperHex x ∧ Spec.UpperHex y ∧
      Spec.Decodes [byte '%', x, y] [c] := by
  have hp : ¬ isPlain c = true := fun hp => h ((plain_iff c).mp hp)
  refine ⟨hexDigit (c.toNat / 16), hexDigit (c.toNat % 16), ?_, (escape_table c).1,
    (escape_table c).2.1, ?_⟩
  · simp [urlEncode, hp, escape]
  · have t : ∀ n : Fin 16, Spec.hexVal (hexDigit n.val) = some n.val := by decide +kernel
    have hlt := c.toNat_lt
    have h1 := t ⟨c.toNat / 16, by omega⟩
    have h2 := t ⟨c.toNat % 16, by omega⟩
    have := Spec.Decodes.escaped _ _ _ _ [] [] h1 h2 .nil
    simp only at this
    rwa [Nat.div_add_mod, show UInt8.ofNat c.toNat = c by simp] at this

example : ¬ Spec.Unreserved (byte ' ') := by decide

/-- C06: distinct strings have distinct encodings. -/
theorem C06_encode_injective (s t : Str) (h : urlEncode s = urlEncode t) : s = t := by
  have := C05_round_trip s
  rw [h, C05_round_trip t] at this
  simpa using this.symm

/-- C06: encoding commutes with concatenation. -/
theorem C06_encode_append (s t : Str) : urlEncode (s ++ t) = urlEncode s ++ urlEncode t := by
  simp [urlEncode, List.flatMap_append]

/-- C07 as stated (no undefined behaviour on any input) is false: `urlDecode("%")` reads beyond the
terminating NUL. -/
theorem C07_decode_safe_refuted : ¬ ∀ t : Str, ∃ s, urlDecode t = .ok s := by
  intro h
  obtain ⟨s, hs⟩ := h [byte '%']
  rw [urlDecode_eq_dec, dec_ub_of_dangerous _ .last] at hs
  simp at hs

/-- C07 (exact domain): `urlDecode` has undefined behaviour exactly on the texts in which, read from
the left, some `%` is the last character or has a non-ASCII character in its triple; on all other
texts it returns a string.  Missing from the full property: the dangerous texts. -/
theorem C07_decode_safe_partial (t : Str) :
    (urlDecode t = .ub ↔ Spec.Dangerous t) ∧ (¬ Spec.Dangerous t → ∃ s, urlDecode t = .ok s) := by
  rw [urlDecode_eq_dec]
  refine ⟨⟨dangerous_of_dec_ub t, dec_ub_of_dangerous t⟩, fun h => ?_⟩
  rcases dec_not_exit t with e | h'
  · exact absurd (dangerous_of_dec_ub t e) h
  · exact h'

example : Spec.Dangerous (bytes ['1','0','0','%']) :=
  .skip _ _ (by decide) (.skip _ _ (by decide) (.skip _ _ (by decide) .last))

/-- C07: texts without `%` are always safe. -/
theorem C07_no_percent_safe (t : Str) (h : byte '%' ∉ t) : ∃ s, urlDecode t = .ok s := by
  refine (C07_decode_safe_partial t).2 fun hd => ?_
  induction hd with
  | last => simp at h
  | high => simp at h
  | low => simp at h
  | skip c t _ _ ih => exact ih (fun hm => h (by simp [hm]))
  | skipTriple => simp at h

example : byte '%' ∉ bytes ['a','+','b'] := by decide

/-- C70: every well formed percent-encoded text (either case of hexadecimal digits, `+` for a space)
is decoded to the bytes it denotes. -/
theorem C70_decode_well_formed (t s : Str) (h : Spec.Decodes t s) : urlDecode t = .ok s := by
  rw [urlDecode_eq_dec]; exact dec_of_decodes t s h

example : Spec.Decodes (bytes ['a','+','%','c','3','%','A','9']) [97, 32, 0xc3, 0xa9] :=
  .plain _ _ _ (by decide) (by decide) (.plus _ _ (.escaped _ _ 12 3 _ _ (by decide) (by decide)
    (.escaped _ _ 10 9 _ _ (by decide) (by decide) .nil)))

end Url
