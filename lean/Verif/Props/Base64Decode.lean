import Verif.Proof.Base64Decode

/-! # C193: `base64Decode` on any base64 text

`Reads t v`: apart from padding, `t` consists of the base64 characters with the values `v`.  `decode v` are the bytes that
RFC 4648 gives for them. -/

namespace Base64
open Cpp Base64.Spec

/-- C193, exactly what happens: the bytes are those of the RFC and one more, made of the bits left over in the last character;
then all bytes 0 are left out. -/
theorem C193_exact_partial (t : Str) (v : List Nat) (h : Reads t v) :
    base64Decode t = (decode v ++ [UInt8.ofNat (leftOver v)]).filter (· ≠ 0) := decode_reads h

/-- C193 for every text: characters outside the alphabet count as `/`, padding not at all, wherever it stands. -/
theorem C193_any_partial (t : Str) : let v := (t.filter (· ≠ byte '=')).map Spec.sextet
    base64Decode t = (decode v ++ [UInt8.ofNat (leftOver v)]).filter (· ≠ 0) := decode_any t

/-- C193, the exact domain: a text is decoded as the RFC says exactly if no byte of it is 0 and no bits are left over.
Missing: other texts. -/
theorem C193_partial (t : Str) (v : List Nat) (h : Reads t v) :
    base64Decode t = decode v ↔ leftOver v = 0 ∧ ∀ b ∈ decode v, b ≠ 0 := by
  rw [decode_reads h, List.filter_append]
  have hl := leftOver_lt v h.1
  constructor
  · intro e
    have h0 : ∀ b ∈ decode v, b ≠ 0 := by
      intro b hb
      rw [← e, List.mem_append] at hb
      rcases hb with hb | hb <;> simpa using (List.mem_filter.1 hb).2
    refine ⟨?_, h0⟩
    rw [List.filter_eq_self.2 (by simpa using h0)] at e
    have e2 : [UInt8.ofNat (leftOver v)].filter (· ≠ 0) = [] := by
      have := congrArg List.length e
      rw [List.length_append] at this
      exact List.length_eq_zero_iff.1 (by omega)
    rw [List.filter_eq_nil_iff] at e2
    have := e2 _ (List.mem_singleton.2 rfl)
    exact (ofNat_zero_iff hl).1 (by simpa using this)
  · rintro ⟨h1, h2⟩
    have e : [UInt8.ofNat 0].filter (· ≠ 0) = [] := by decide
    rw [List.filter_eq_self.2 (by simpa using h2), h1, e, List.append_nil]

/-- C193, the number of bytes: with `k` characters other than `=` at most `3k/4`, rounded up.  Missing: rounded down, as the
RFC has it, which holds if the characters come in fours. -/
theorem C193_size_partial (t : Str) (v : List Nat) (h : Reads t v) :
    (base64Decode t).length ≤ (3 * v.length + 3) / 4 := by
  by_cases h4 : v.length % 4 = 0
  · rw [decode_reads h, leftOver_zero v h4, List.filter_append]
    have : [UInt8.ofNat 0].filter (· ≠ 0) = [] := by decide
    rw [this, List.append_nil]
    have := List.length_filter_le (fun b : Byte => decide (b ≠ 0)) (decode v)
    rw [decode_length] at this
    exact Nat.le_trans this (by omega)
  · rw [decode_reads h]
    refine Nat.le_trans (List.length_filter_le _ _) ?_
    rw [List.length_append, decode_length, List.length_singleton]
    rcases (by omega : v.length % 4 = 1 ∨ v.length % 4 = 2 ∨ v.length % 4 = 3) with h | h | h <;> omega

/-- C193 is false: `Zm` (as also `Zm==`) is decoded to two bytes, an `f` and a backquote; the RFC has the single byte `f`.
Texts with other bits left over are wrong in the same way, whatever stands before. -/
theorem C193_refuted : (∃ t v, Reads t v ∧ base64Decode t ≠ decode v ∧ 3 * v.length / 4 < (base64Decode t).length) ∧
    ∀ t v, Reads t v → leftOver v ≠ 0 → ∃ b, b ≠ 0 ∧ base64Decode t = (decode v).filter (· ≠ 0) ++ [b] := by
  constructor
  · have h : Reads (bytes ['Z', 'm', '=', '=']) [25, 38] := by unfold Reads; decide +kernel
    refine ⟨_, _, h, ?_, ?_⟩ <;> rw [decode_reads h] <;> decide +kernel
  · intro t v h hl
    have : UInt8.ofNat (leftOver v) ≠ 0 := fun e => hl ((ofNat_zero_iff (leftOver_lt v h.1)).1 e)
    refine ⟨_, this, ?_⟩
    rw [decode_reads h, List.filter_append]
    congr 1
    rw [List.filter_eq_self]
    simpa using this

-- "Zm9vYg==", the text of "foob": no bits are left over
example : Reads (bytes ['Z', 'm', '9', 'v', 'Y', 'g', '=', '=']) [25, 38, 61, 47, 24, 32] ∧
    decode [25, 38, 61, 47, 24, 32] = bytes ['f', 'o', 'o', 'b'] ∧ leftOver [25, 38, 61, 47, 24, 32] = 0 := by
  unfold Reads; decide +kernel
-- a text with a line break and padding in the middle, read like "Zm/9v"
example : ((bytes ['Z', 'm', '\n', '=', '9', 'v']).filter (· ≠ byte '=')).map Spec.sextet = [25, 38, 63, 61, 47] := by
  decide +kernel
-- "Zm9vYh" has bits left over
example : Reads (bytes ['Z', 'm', '9', 'v', 'Y', 'h']) [25, 38, 61, 47, 24, 33] ∧ leftOver [25, 38, 61, 47, 24, 33] ≠ 0 := by
  unfold Reads; decide +kernel

end Base64
