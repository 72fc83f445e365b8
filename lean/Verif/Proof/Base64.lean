import Verif.Model.Base64
import Verif.Spec.Base64

namespace Base64
open Cpp

@[simp] theorem length_bitString (n v : Nat) : (bitString n v).length = n := by simp [bitString]

theorem pieces_nil (k : Nat) : pieces k [] = [] := by unfold pieces; simp

theorem pieces_append {k : Nat} (hk : 0 < k) {a s : List Bool} (ha : a.length = k) :
    pieces k (a ++ s) = a :: pieces k s := by
  rw [pieces]
  have h1 : ¬ (a ++ s = [] ∨ k = 0) := by
    rintro (h | h)
    · have := congrArg List.length h; simp only [List.length_append, List.length_nil] at this; omega
    · omega
  rw [dif_neg h1]
  simp [← ha]

theorem bitValue_go (s : List Bool) (x : Nat) :
    s.foldl (fun a b => 2 * a + b.toNat) x = x * 2 ^ s.length + bitValue s := by
  induction s generalizing x with
  | nil => simp [bitValue]
  | cons b s ih =>
    simp only [List.foldl_cons, List.length_cons, bitValue]
    rw [ih, ih (2 * 0 + b.toNat)]
    rw [Nat.pow_succ]
    generalize 2 ^ s.length = p
    rw [Nat.add_mul, Nat.add_mul]
    have : 2 * x * p = x * (p * 2) := by
      rw [Nat.mul_comm 2 x, Nat.mul_assoc, Nat.mul_comm 2 p]
    omega

theorem bitValue_append (s t : List Bool) :
    bitValue (s ++ t) = bitValue s * 2 ^ t.length + bitValue t := by
  conv => lhs; unfold bitValue
  rw [List.foldl_append, bitValue_go]; rfl

/-! ### finite tables -/

set_option maxRecDepth 20000

theorem byteBits_value : ∀ b : Byte, UInt8.ofNat (bitValue (bitString 8 b.toNat)) = b ∧
    (bitValue (bitString 8 b.toNat) = 0 ↔ b = 0) := by
  apply forall_byte; decide +kernel

theorem code_table : ∀ n : Fin 64, code n.val = Spec.letter n.val ∧ code n.val ≠ byte '=' ∧
    decodeBits (code n.val) = bitString 6 n.val := by
  decide +kernel

theorem sextet_table : ∀ b0 b1 b2 b3 b4 b5 : Bool,
    bitValue [b0, b1, b2, b3, b4, b5] < 64 ∧
    bitString 6 (bitValue [b0, b1, b2, b3, b4, b5]) = [b0, b1, b2, b3, b4, b5] := by
  decide +kernel

theorem sextet {p : List Bool} (hp : p.length = 6) :
    bitValue p < 64 ∧ bitString 6 (bitValue p) = p := by
  match p, hp with
  | [b0, b1, b2, b3, b4, b5], _ => exact sextet_table b0 b1 b2 b3 b4 b5

theorem code_sextet {p : List Bool} (hp : p.length = 6) :
    code (bitValue p) = Spec.letter (bitValue p) ∧ code (bitValue p) ≠ byte '=' ∧
    decodeBits (code (bitValue p)) = p := by
  obtain ⟨h1, h2⟩ := sextet hp
  have := code_table ⟨bitValue p, h1⟩
  simp only at this
  refine ⟨this.1, this.2.1, ?_⟩
  rw [this.2.2, h2]

/-- The pieces of a byte's bits. -/
theorem byte_split : ∀ b : Byte,
    bitString 8 b.toNat = (bitString 8 b.toNat).take 6 ++ (bitString 8 b.toNat).drop 6 ∧
    bitValue ((bitString 8 b.toNat).take 6) = b.toNat / 4 ∧
    bitValue ((bitString 8 b.toNat).drop 6) = b.toNat % 4 ∧
    bitValue ((bitString 8 b.toNat).take 4) = b.toNat / 16 ∧
    bitValue ((bitString 8 b.toNat).drop 4) = b.toNat % 16 ∧
    bitValue ((bitString 8 b.toNat).take 2) = b.toNat / 64 ∧
    bitValue ((bitString 8 b.toNat).drop 2) = b.toNat % 64 := by
  apply forall_byte; decide +kernel

/-! ### encoding -/

/-- The text of a bit string. -/
def text (s : List Bool) : Str := (pieces 6 (padBits 6 s)).map fun p => code (bitValue p)

theorem encodeUnpadded_eq (s : Str) :
    encodeUnpadded s = text (s.flatMap fun c => bitString 8 c.toNat) := rfl

theorem padBits_append {k : Nat} {a s : List Bool} (ha : a.length % k = 0) :
    padBits k (a ++ s) = a ++ padBits k s := by
  unfold padBits
  have : (a ++ s).length % k = s.length % k := by
    rw [List.length_append, Nat.add_mod, ha]; simp
  rw [this]
  split <;> simp

theorem padBits_length {k : Nat} (hk : 0 < k) (s : List Bool) : (padBits k s).length % k = 0 := by
  unfold padBits
  split
  · rename_i h
    have := Nat.mod_lt s.length hk
    simp only [List.length_append, List.length_replicate]
    have h2 := Nat.div_add_mod s.length k
    have : s.length + (k - s.length % k) = k * (s.length / k + 1) := by
      rw [Nat.mul_add]; omega
    rw [this]; simp
  · rename_i h; simpa using h

theorem text_piece {p s : List Bool} (hp : p.length = 6) :
    text (p ++ s) = Spec.letter (bitValue p) :: text s := by
  unfold text
  rw [padBits_append (by rw [hp]), pieces_append (by decide) hp]
  simp only [List.map_cons]
  rw [(code_sextet hp).1]

theorem text_nil : text [] = [] := by simp [text, padBits, pieces_nil]

/-- Three bytes become four characters. -/
theorem text_three (a b c : Byte) (s : List Bool) :
    text (bitString 8 a.toNat ++ (bitString 8 b.toNat ++ (bitString 8 c.toNat ++ s))) =
      Spec.letter (a.toNat / 4) :: Spec.letter (a.toNat % 4 * 16 + b.toNat / 16)
        :: Spec.letter (b.toNat % 16 * 4 + c.toNat / 64) :: Spec.letter (c.toNat % 64)
        :: text s := by
  obtain ⟨a0, a1, a2, -⟩ := byte_split a
  obtain ⟨-, -, -, b3, b4, -⟩ := byte_split b
  obtain ⟨-, -, -, -, -, c5, c6⟩ := byte_split c
  have e : bitString 8 a.toNat ++ (bitString 8 b.toNat ++ (bitString 8 c.toNat ++ s)) =
      (bitString 8 a.toNat).take 6 ++ (((bitString 8 a.toNat).drop 6 ++ (bitString 8 b.toNat).take 4)
       ++ (((bitString 8 b.toNat).drop 4 ++ (bitString 8 c.toNat).take 2)
       ++ ((bitString 8 c.toNat).drop 2 ++ s))) := by
    conv => lhs; rw [← List.take_append_drop 6 (bitString 8 a.toNat),
      ← List.take_append_drop 4 (bitString 8 b.toNat),
      ← List.take_append_drop 2 (bitString 8 c.toNat)]
    simp only [List.append_assoc]
  rw [e, text_piece (by simp), text_piece (by simp), text_piece (by simp), text_piece (by simp)]
  simp only [bitValue_append, a1, a2, b3, b4, c5, c6]
  simp

theorem text_two (a b : Byte) :
    text (bitString 8 a.toNat ++ bitString 8 b.toNat) =
      [Spec.letter (a.toNat / 4), Spec.letter (a.toNat % 4 * 16 + b.toNat / 16),
       Spec.letter (b.toNat % 16 * 4)] := by
  obtain ⟨a0, a1, a2, -⟩ := byte_split a
  obtain ⟨-, -, -, b3, b4, -⟩ := byte_split b
  have e : bitString 8 a.toNat ++ bitString 8 b.toNat =
      (bitString 8 a.toNat).take 6 ++ (((bitString 8 a.toNat).drop 6 ++ (bitString 8 b.toNat).take 4)
       ++ (bitString 8 b.toNat).drop 4) := by
    conv => lhs; rw [← List.take_append_drop 6 (bitString 8 a.toNat),
      ← List.take_append_drop 4 (bitString 8 b.toNat)]
    simp only [List.append_assoc]
  have last : text ((bitString 8 b.toNat).drop 4) = [Spec.letter (b.toNat % 16 * 4)] := by
    have h : padBits 6 ((bitString 8 b.toNat).drop 4) =
        ((bitString 8 b.toNat).drop 4 ++ [false, false]) ++ [] := by simp [padBits, List.replicate]
    rw [text, h, pieces_append (by decide) (by simp), pieces_nil]
    simp only [List.map_cons, List.map_nil]
    rw [(code_sextet (by simp)).1, bitValue_append, b4]
    rfl
  rw [e, text_piece (by simp), text_piece (by simp), last]
  simp only [bitValue_append, a1, a2, b3]
  simp

theorem text_one (a : Byte) :
    text (bitString 8 a.toNat) = [Spec.letter (a.toNat / 4), Spec.letter (a.toNat % 4 * 16)] := by
  obtain ⟨a0, a1, a2, -⟩ := byte_split a
  have last : text ((bitString 8 a.toNat).drop 6) = [Spec.letter (a.toNat % 4 * 16)] := by
    have h : padBits 6 ((bitString 8 a.toNat).drop 6) =
        ((bitString 8 a.toNat).drop 6 ++ [false, false, false, false]) ++ [] := by
      simp [padBits, List.replicate]
    rw [text, h, pieces_append (by decide) (by simp), pieces_nil]
    simp only [List.map_cons, List.map_nil]
    rw [(code_sextet (by simp)).1, bitValue_append, a2]
    rfl
  rw [a0, text_piece (by simp), last, a1]

theorem letter_ne_eq : ∀ n : Nat, Spec.letter n ≠ byte '=' := by
  intro n
  by_cases h : n < 64
  · have := code_table ⟨n, h⟩
    simp only at this
    rw [← this.1]; exact this.2.1
  · have : Spec.letter n = byte '/' := by
      unfold Spec.letter
      rw [if_neg (by omega), if_neg (by omega), if_neg (by omega), if_neg (by omega)]
    rw [this]; decide

theorem encodeUnpadded_spec (s : Str) : encodeUnpadded s = Spec.rfc4648Unpadded s := by
  unfold Spec.rfc4648Unpadded
  induction s using Spec.rfc4648.induct with
  | case1 => simp [encodeUnpadded_eq, text_nil, Spec.rfc4648]
  | case2 a =>
    simp only [encodeUnpadded_eq, List.flatMap_cons, List.flatMap_nil, List.append_nil, text_one,
      Spec.rfc4648]
    simp [letter_ne_eq]
  | case3 a b =>
    simp only [encodeUnpadded_eq, List.flatMap_cons, List.flatMap_nil, List.append_nil, text_two,
      Spec.rfc4648]
    simp [letter_ne_eq]
  | case4 a b c rest ih =>
    simp only [encodeUnpadded_eq, List.flatMap_cons, Spec.rfc4648] at *
    rw [text_three, ih]
    simp [letter_ne_eq]

theorem encode_default (s : Str) : base64Encode s = Spec.rfc4648 s := by
  have key : ∀ s : Str, (match (encodeUnpadded s).length % 4 with
    | 0 => encodeUnpadded s
    | 2 => encodeUnpadded s ++ [byte '=', byte '=']
    | 3 => encodeUnpadded s ++ [byte '=']
    | _ => encodeUnpadded s) = Spec.rfc4648 s := by
    intro s
    induction s using Spec.rfc4648.induct with
    | case1 => simp [encodeUnpadded_eq, text_nil, Spec.rfc4648]
    | case2 a =>
      simp only [encodeUnpadded_eq, List.flatMap_cons, List.flatMap_nil, List.append_nil, text_one,
        Spec.rfc4648]
      simp
    | case3 a b =>
      simp only [encodeUnpadded_eq, List.flatMap_cons, List.flatMap_nil, List.append_nil, text_two,
        Spec.rfc4648]
      simp
    | case4 a b c rest ih =>
      simp only [encodeUnpadded_eq, List.flatMap_cons, Spec.rfc4648] at *
      rw [text_three, ← ih]
      simp only [List.length_cons]
      rw [show ∀ n : Nat, n + 1 + 1 + 1 + 1 = n + 4 by intros; omega, Nat.add_mod_right]
      split <;> simp_all
  have := key s
  unfold base64Encode
  rw [if_neg (by decide), if_neg (by simp)]
  exact this

/-! ### decoding -/

theorem bits_of_pieces (s : List Bool) (hs : s.length % 6 = 0) :
    ((pieces 6 s).map fun p => code (bitValue p)).flatMap
      (fun c => if c ≠ byte '=' then decodeBits c else []) = s := by
  induction hn : s.length using Nat.strongRecOn generalizing s with
  | _ n ih =>
    by_cases h0 : s = []
    · subst h0; simp [pieces_nil]
    · have hl : 0 < s.length := List.length_pos_iff.mpr h0
      have h6 : (s.take 6).length = 6 := by simp; omega
      have e : s = s.take 6 ++ s.drop 6 := (List.take_append_drop 6 s).symm
      conv => lhs; rw [e, pieces_append (by decide) h6]
      simp only [List.map_cons, List.flatMap_cons]
      rw [if_pos (code_sextet h6).2.1, (code_sextet h6).2.2, ih (s.drop 6).length
        (by simp; omega) (s.drop 6) (by simp; omega) rfl, List.take_append_drop]

/-- Decoding, after the bits have been collected. -/
def untext (b : List Bool) : Str :=
  ((pieces 8 (padBits 8 b)).filter fun p => bitValue p ≠ 0).map fun p => UInt8.ofNat (bitValue p)

theorem untext_bytes (s : Str) (t : List Bool) :
    untext ((s.flatMap fun c => bitString 8 c.toNat) ++ t) = s.filter (· ≠ 0) ++ untext t := by
  induction s with
  | nil => simp
  | cons a s ih =>
    simp only [List.flatMap_cons, List.append_assoc]
    unfold untext at *
    rw [padBits_append (by simp), pieces_append (by decide) (by simp)]
    obtain ⟨h1, h2⟩ := byteBits_value a
    by_cases ha : a = 0
    · have : bitValue (bitString 8 a.toNat) = 0 := h2.mpr ha
      rw [List.filter_cons_of_neg (by simp [this]), List.filter_cons_of_neg (by simp [ha])]
      exact ih
    · have : bitValue (bitString 8 a.toNat) ≠ 0 := fun h => ha (h2.mp h)
      simp only [ne_eq, List.filter_cons, this, not_false_eq_true, decide_true, ha,
        if_true, List.map_cons, h1, List.cons_append]
      rw [ih]

theorem bitValue_zeros (n : Nat) : bitValue (List.replicate n false) = 0 := by
  induction n with
  | zero => rfl
  | succ n ih =>
    rw [List.replicate_succ', bitValue_append, ih]
    simp [bitValue]

theorem untext_zeros {n : Nat} (hn : n < 8) : untext (List.replicate n false) = [] := by
  by_cases h : n = 0
  · subst h; simp [untext, padBits, pieces_nil]
  · have : padBits 8 (List.replicate n false) = List.replicate 8 false ++ [] := by
      unfold padBits
      rw [if_pos (by simp; omega), List.length_replicate, List.replicate_append_replicate,
        List.append_nil, Nat.mod_eq_of_lt hn]
      congr 1; omega
    unfold untext
    rw [this, pieces_append (by decide) (by simp), pieces_nil]
    rw [List.filter_cons_of_neg (by rw [bitValue_zeros]; simp)]; rfl

theorem length_flatMap_bits (s : Str) :
    (s.flatMap fun c => bitString 8 c.toNat).length = 8 * s.length := by
  induction s with
  | nil => rfl
  | cons a s ih => simp only [List.flatMap_cons, List.length_append, ih]; simp; omega

theorem decode_encodeUnpadded (s : Str) (k : Nat) :
    base64Decode (encodeUnpadded s ++ List.replicate k (byte '=')) = s.filter (· ≠ 0) := by
  have e1 : base64Decode (encodeUnpadded s ++ List.replicate k (byte '=')) =
      untext ((encodeUnpadded s).flatMap
        (fun c => if c ≠ byte '=' then decodeBits c else [])) := by
    unfold base64Decode untext
    rw [List.flatMap_append]
    have : (List.replicate k (byte '=')).flatMap
        (fun c => if c ≠ byte '=' then decodeBits c else []) = [] := by
      induction k with
      | zero => rfl
      | succ k ih => rw [List.replicate_succ, List.flatMap_cons, ih]; simp
    rw [this, List.append_nil]
  rw [e1]
  unfold encodeUnpadded
  rw [bits_of_pieces _ (padBits_length (by decide) _)]
  generalize hb : (s.flatMap fun c => bitString 8 c.toNat) = b
  have hl : b.length = 8 * s.length := by rw [← hb]; exact length_flatMap_bits s
  unfold padBits
  split
  · rename_i h
    rw [← hb, untext_bytes, untext_zeros, List.append_nil]
    omega
  · rw [← hb]
    have := untext_bytes s []
    rw [List.append_nil] at this
    rw [this]
    simp [untext, padBits, pieces_nil]

theorem filter_replicate_pad (s : Str) (k : Nat) :
    (encodeUnpadded s ++ List.replicate k (byte '=')).filter (· ≠ byte '=') = encodeUnpadded s := by
  rw [encodeUnpadded_spec, List.filter_append, List.filter_replicate]
  simp [Spec.rfc4648Unpadded]

theorem decode_pad (t : Str) : base64Decode t = base64Decode (t.filter (· ≠ byte '=')) := by
  unfold base64Decode
  have : ∀ t : Str, (t.flatMap fun c => if c ≠ byte '=' then decodeBits c else []) =
      ((t.filter (· ≠ byte '=')).flatMap fun c => if c ≠ byte '=' then decodeBits c else []) := by
    intro t
    induction t with
    | nil => rfl
    | cons a t ih =>
      by_cases h : a = byte '='
      · rw [List.filter_cons_of_neg (by simp [h]), List.flatMap_cons, ih]; simp [h]
      · rw [List.filter_cons_of_pos (by simp [h]), List.flatMap_cons, List.flatMap_cons, ih]
  rw [this]

theorem rfc_length (s : Str) : (Spec.rfc4648 s).length = 4 * ((s.length + 2) / 3) := by
  induction s using Spec.rfc4648.induct with
  | case1 => rfl
  | case2 a => simp [Spec.rfc4648]
  | case3 a b => simp [Spec.rfc4648]
  | case4 a b c rest ih =>
    simp only [Spec.rfc4648, List.length_cons, ih]; omega

theorem length_pieces (s : List Bool) (hs : s.length % 6 = 0) :
    (pieces 6 s).length = s.length / 6 := by
  induction hn : s.length using Nat.strongRecOn generalizing s with
  | _ n ih =>
    by_cases h0 : s = []
    · subst h0; simp at hn; subst hn; simp [pieces_nil]
    · have hl : 0 < s.length := List.length_pos_iff.mpr h0
      have h6 : (s.take 6).length = 6 := by simp; omega
      have e : s = s.take 6 ++ s.drop 6 := (List.take_append_drop 6 s).symm
      conv => lhs; rw [e, pieces_append (by decide) h6]
      rw [List.length_cons, ih (s.drop 6).length (by simp; omega) (s.drop 6) (by simp; omega) rfl]
      simp only [List.length_drop]; omega

theorem length_encodeUnpadded (s : Str) :
    (encodeUnpadded s).length = (4 * s.length + 2) / 3 := by
  unfold encodeUnpadded
  rw [List.length_map, length_pieces _ (padBits_length (by decide) _)]
  unfold padBits
  have := length_flatMap_bits s
  split
  · simp only [List.length_append, List.length_replicate, this] at *; omega
  · simp only [this] at *; omega

theorem bits_inj (s t : Str) (h : (s.flatMap fun c => bitString 8 c.toNat) =
    (t.flatMap fun c => bitString 8 c.toNat)) : s = t := by
  induction s generalizing t with
  | nil =>
    cases t with
    | nil => rfl
    | cons b t =>
      have := congrArg List.length h
      rw [length_flatMap_bits, length_flatMap_bits] at this; simp at this
  | cons a s ih =>
    cases t with
    | nil =>
      have := congrArg List.length h
      rw [length_flatMap_bits, length_flatMap_bits] at this; simp at this
    | cons b t =>
      simp only [List.flatMap_cons] at h
      obtain ⟨h1, h2⟩ := List.append_inj h (by simp)
      rw [ih t h2, ← (byteBits_value a).1, h1, (byteBits_value b).1]

theorem encodeUnpadded_inj (s t : Str) (h : encodeUnpadded s = encodeUnpadded t) : s = t := by
  have hl : s.length = t.length := by
    have := congrArg List.length h
    rw [length_encodeUnpadded, length_encodeUnpadded] at this; omega
  have h2 : padBits 6 (s.flatMap fun c => bitString 8 c.toNat) =
      padBits 6 (t.flatMap fun c => bitString 8 c.toNat) := by
    rw [← bits_of_pieces _ (padBits_length (by decide) (s.flatMap fun c => bitString 8 c.toNat)),
      ← bits_of_pieces _ (padBits_length (by decide) (t.flatMap fun c => bitString 8 c.toNat))]
    unfold encodeUnpadded at h
    rw [h]
  apply bits_inj
  unfold padBits at h2
  have e := length_flatMap_bits s
  have e' := length_flatMap_bits t
  split at h2 <;> split at h2
  · exact (List.append_inj h2 (by omega)).1
  · omega
  · omega
  · exact h2

end Base64
