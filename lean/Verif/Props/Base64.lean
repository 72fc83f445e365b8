import Verif.Proof.Base64

/-! # Properties C01–C04 and C69: base64 -/

namespace Base64
open Cpp

/-- C01: `base64Encode(s)` is the RFC 4648 base64 text of `s`. -/
theorem C01_encode_is_rfc4648 (s : Str) : base64Encode s = Spec.rfc4648 s :=
  encode_default s

/-- C01: the text has four characters for every started group of three bytes. -/
theorem C01_encode_length (s : Str) : (base64Encode s).length = 4 * ((s.length + 2) / 3) := by
  rw [encode_default, rfc_length]

-- RFC 4648, section 10: "foobar", "fooba", "foob"
example : Spec.rfc4648 (bytes ['f','o','o','b','a','r']) =
    bytes ['Z','m','9','v','Y','m','F','y'] := by decide +kernel
example : Spec.rfc4648 (bytes ['f','o','o','b','a']) =
    bytes ['Z','m','9','v','Y','m','E','='] := by decide +kernel
example : base64Encode (bytes ['f','o','o','b']) =
    bytes ['Z','m','9','v','Y','g','=','='] := by
  rw [C01_encode_is_rfc4648]; decide +kernel

/-- C02 (what is true): decoding the encoded text gives back the bytes of `s` except that all NUL
bytes are lost.  Missing from the full property: strings with NUL bytes. -/
theorem C02_round_trip_partial (s : Str) :
    base64Decode (base64Encode s) = s.filter (fun b => b ≠ 0) := by
  unfold base64Encode
  rw [if_neg (by decide), if_neg (by simp)]
  have h0 := decode_encodeUnpadded s 0
  have h1 := decode_encodeUnpadded s 1
  have h2 := decode_encodeUnpadded s 2
  simp only [List.replicate, List.append_nil] at h0 h1 h2
  split <;> assumption

/-- C02 (exact domain): the round trip holds exactly for the strings without NUL byte. -/
theorem C02_round_trip_iff (s : Str) :
    base64Decode (base64Encode s) = s ↔ ∀ b ∈ s, b ≠ 0 := by
  rw [C02_round_trip_partial, List.filter_eq_self]
  simp

example : ∀ b ∈ bytes ['f','o','o'], b ≠ 0 := by decide

/-- C02 (as stated for every byte string) is false: the one-byte string NUL is decoded to the empty
string. -/
theorem C02_round_trip_refuted : ¬ ∀ s : Str, base64Decode (base64Encode s) = s := by
  intro h
  have := h [0]
  rw [C02_round_trip_iff] at this
  exact this 0 (by simp) rfl

/-- C03: the `length` argument.  `n < -1`: empty.  `n ≥ 0`: empty if `n` is smaller than the
unpadded text, else the unpadded text filled up with `'='` to exactly `n` characters. -/
theorem C03_encode_with_length (s : Str) (n : Int) :
    (n < -1 → base64Encode s n = []) ∧
    (0 ≤ n → n < ((Spec.rfc4648Unpadded s).length : Int) → base64Encode s n = []) ∧
    (((Spec.rfc4648Unpadded s).length : Int) ≤ n →
      ∃ k : Nat, base64Encode s n = Spec.rfc4648Unpadded s ++ List.replicate k (byte '=') ∧
        ((base64Encode s n).length : Int) = n) := by
  rw [← encodeUnpadded_spec]
  unfold base64Encode
  refine ⟨fun h => by rw [if_pos h], fun h0 h => ?_, fun h => ?_⟩
  · rw [if_neg (by omega)]
    dsimp only
    rw [if_pos (by omega), if_pos h]
  · rw [if_neg (by omega)]
    dsimp only
    rw [if_pos (by omega), if_neg (by omega)]
    refine ⟨_, rfl, ?_⟩
    simp only [List.length_append, List.length_replicate]
    omega

/-- C03: with enough room the data survives (up to NUL bytes), whatever the requested length. -/
theorem C03_decode_encode_with_length (s : Str) (n : Int)
    (h : ((Spec.rfc4648Unpadded s).length : Int) ≤ n) :
    base64Decode (base64Encode s n) = s.filter (fun b => b ≠ 0) := by
  obtain ⟨k, hk, -⟩ := (C03_encode_with_length s n).2.2 h
  rw [hk, ← encodeUnpadded_spec, decode_encodeUnpadded]

example : ((Spec.rfc4648Unpadded (bytes ['f','o','o','b'])).length : Int) = 6 := by decide +kernel
example : (0 : Int) ≤ 5 ∧ (5 : Int) < ((Spec.rfc4648Unpadded (bytes ['f','o','o','b'])).length : Int) := by
  decide +kernel

/-- C04: two texts that agree after deleting every `'='` decode alike. -/
theorem C04_padding_irrelevant (t t' : Str)
    (h : t.filter (fun c => c ≠ byte '=') = t'.filter (fun c => c ≠ byte '=')) :
    base64Decode t = base64Decode t' := by
  rw [decode_pad t, decode_pad t', h]

example : (bytes ['Z','g','=','=']).filter (fun c => c ≠ byte '=') =
    (bytes ['=','Z','g']).filter (fun c => c ≠ byte '=') := by decide

/-- C04: inserting a `'='` anywhere changes nothing. -/
theorem C04_insert_pad (t u : Str) : base64Decode (t ++ byte '=' :: u) = base64Decode (t ++ u) := by
  apply C04_padding_irrelevant
  simp [List.filter_append]

/-- C69: `base64Encode` is injective, also on strings with NUL bytes: no two different strings
share an encoding, with or without explicit length. -/
theorem C69_encode_injective (s t : Str) (h : base64Encode s = base64Encode t) : s = t := by
  rw [encode_default, encode_default] at h
  have := congrArg (List.filter (· ≠ byte '=')) h
  apply encodeUnpadded_inj
  rw [encodeUnpadded_spec, encodeUnpadded_spec]
  exact this

/-- C73: every character that does not belong to base64 text is read exactly like `/`. -/
theorem C73_foreign_partial (t : Str) :
    base64Decode t = base64Decode (t.map fun c => if Spec.IsBase64Char c then c else byte '/') := by
  have key : ∀ c : Byte, (if c ≠ byte '=' then decodeBits c else []) =
      (if (if Spec.IsBase64Char c then c else byte '/') ≠ byte '=' then
        decodeBits (if Spec.IsBase64Char c then c else byte '/') else []) :=
    forall_byte (by decide +kernel)
  unfold base64Decode
  rw [List.flatMap_map]
  simp only [← key]

example : base64Decode (bytes ['Z', '?', 'v', ' ']) = base64Decode (bytes ['Z', '/', 'v', '/']) := by
  decide +kernel

/-- C73 refuted: a line break inside the text changes the decoded data ("Zm9v" is "foo"). -/
theorem C73_foreign_refuted :
    base64Decode (bytes ['Z', 'm', '9', 'v']) = bytes ['f', 'o', 'o'] ∧
    base64Decode (bytes ['Z', 'm', '\n', '9', 'v']) ≠ bytes ['f', 'o', 'o'] := by decide +kernel

end Base64
