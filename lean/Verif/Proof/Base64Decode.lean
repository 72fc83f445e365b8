import Verif.Proof.Base64
import Verif.Spec.Base64Decode

/-! # Decoding any base64 text -/

namespace Base64
open Cpp

set_option maxRecDepth 20000

theorem split_first : ∀ a : Fin 64, ∀ q : Fin 4, bitString 8 (UInt8.ofNat (4 * a.val + q.val)).toNat =
    bitString 6 a.val ++ bitString 2 q.val := by decide +kernel
theorem split_second : ∀ m : Fin 16, ∀ q : Fin 16, bitString 8 (UInt8.ofNat (16 * m.val + q.val)).toNat =
    bitString 4 m.val ++ bitString 4 q.val := by decide +kernel
theorem split_third : ∀ p : Fin 4, ∀ d : Fin 64, bitString 8 (UInt8.ofNat (64 * p.val + d.val)).toNat =
    bitString 2 p.val ++ bitString 6 d.val := by decide +kernel
theorem cut_two : ∀ b : Fin 64, bitString 6 b.val = bitString 2 (b.val / 16) ++ bitString 4 (b.val % 16) := by decide +kernel
theorem cut_four : ∀ c : Fin 64, bitString 6 c.val = bitString 4 (c.val / 4) ++ bitString 2 (c.val % 4) := by decide +kernel

theorem byte_first {a b : Nat} (ha : a < 64) (hb : b < 64) :
    bitString 8 (UInt8.ofNat (4 * a + b / 16)).toNat = bitString 6 a ++ bitString 2 (b / 16) :=
  split_first ⟨a, ha⟩ ⟨b / 16, by omega⟩
theorem byte_second {b c : Nat} (hc : c < 64) :
    bitString 8 (UInt8.ofNat (16 * (b % 16) + c / 4)).toNat = bitString 4 (b % 16) ++ bitString 4 (c / 4) :=
  split_second ⟨b % 16, by omega⟩ ⟨c / 4, by omega⟩
theorem byte_third {c d : Nat} (hd : d < 64) :
    bitString 8 (UInt8.ofNat (64 * (c % 4) + d)).toNat = bitString 2 (c % 4) ++ bitString 6 d :=
  split_third ⟨c % 4, by omega⟩ ⟨d, hd⟩

/-- One byte made of the bits left over. -/
theorem untext_rest {k : Nat} (hk : 0 < k) (hk8 : k < 8) (v : Nat) (x : Byte)
    (h : bitString k v ++ List.replicate (8 - k) false = bitString 8 x.toNat) : untext (bitString k v) = [x].filter (· ≠ 0) := by
  have e : padBits 8 (bitString k v) = padBits 8 ([x].flatMap fun c => bitString 8 c.toNat) := by
    have h1 : [x].flatMap (fun c => bitString 8 c.toNat) = bitString 8 x.toNat := by simp
    rw [h1, ← h]
    unfold padBits
    have h2 : (bitString k v).length % 8 = k := by rw [length_bitString]; omega
    have h3 : (bitString k v ++ List.replicate (8 - k) false).length % 8 = 0 := by
      rw [List.length_append, length_bitString, List.length_replicate]; omega
    rw [h2, h3, if_pos (by omega), if_neg (by omega)]
  have := untext_bytes [x] []
  rw [List.append_nil] at this
  unfold untext at this ⊢
  rw [e, this]
  simp [padBits, pieces_nil]

theorem rest_six : ∀ a : Fin 64, bitString 6 a.val ++ List.replicate 2 false = bitString 8 (UInt8.ofNat (4 * a.val)).toNat := by
  decide +kernel
theorem rest_four : ∀ a : Fin 16, bitString 4 a.val ++ List.replicate 4 false = bitString 8 (UInt8.ofNat (16 * a.val)).toNat := by
  decide +kernel
theorem rest_two : ∀ a : Fin 4, bitString 2 a.val ++ List.replicate 6 false = bitString 8 (UInt8.ofNat (64 * a.val)).toNat := by
  decide +kernel

theorem untext_nil : untext [] = [] := by simp [untext, padBits, pieces_nil]

theorem untext_sextets : ∀ v : List Nat, (∀ n ∈ v, n < 64) →
    untext (v.flatMap fun n => bitString 6 n) = (Spec.decode v ++ [UInt8.ofNat (Spec.leftOver v)]).filter (· ≠ 0)
  | [], _ => by rw [List.flatMap_nil, untext_nil]; rfl
  | [a], h => by
    have ha := h a (by simp)
    rw [List.flatMap_singleton]
    exact untext_rest (by omega) (by omega) a _ (rest_six ⟨a, ha⟩)
  | [a, b], h => by
    have ha := h a (by simp)
    have hb := h b (by simp)
    have e : [a, b].flatMap (fun n => bitString 6 n) =
        ([UInt8.ofNat (4 * a + b / 16)].flatMap fun c => bitString 8 c.toNat) ++ bitString 4 (b % 16) := by
      simp only [List.flatMap_cons, List.flatMap_nil, List.append_nil]
      rw [byte_first ha hb, cut_two ⟨b, hb⟩, List.append_assoc]
    rw [e, untext_bytes, untext_rest (by omega) (by omega) _ (UInt8.ofNat (16 * (b % 16))) (rest_four ⟨b % 16, by omega⟩),
      ← List.filter_append]
    rfl
  | [a, b, c], h => by
    have ha := h a (by simp)
    have hb := h b (by simp)
    have hc := h c (by simp)
    have e : [a, b, c].flatMap (fun n => bitString 6 n) =
        ([UInt8.ofNat (4 * a + b / 16), UInt8.ofNat (16 * (b % 16) + c / 4)].flatMap fun c => bitString 8 c.toNat) ++
          bitString 2 (c % 4) := by
      simp only [List.flatMap_cons, List.flatMap_nil, List.append_nil]
      rw [byte_first ha hb, byte_second hc, cut_two ⟨b, hb⟩, cut_four ⟨c, hc⟩]
      simp only [List.append_assoc]
    rw [e, untext_bytes, untext_rest (by omega) (by omega) _ (UInt8.ofNat (64 * (c % 4))) (rest_two ⟨c % 4, by omega⟩),
      ← List.filter_append]
    rfl
  | a :: b :: c :: d :: v, h => by
    have ha := h a (by simp)
    have hb := h b (by simp)
    have hc := h c (by simp)
    have hd := h d (by simp)
    have e : (a :: b :: c :: d :: v).flatMap (fun n => bitString 6 n) =
        ([UInt8.ofNat (4 * a + b / 16), UInt8.ofNat (16 * (b % 16) + c / 4), UInt8.ofNat (64 * (c % 4) + d)].flatMap
          fun c => bitString 8 c.toNat) ++ v.flatMap (fun n => bitString 6 n) := by
      simp only [List.flatMap_cons, List.flatMap_nil, List.append_nil]
      rw [byte_first ha hb, byte_second hc, byte_third hd, cut_two ⟨b, hb⟩, cut_four ⟨c, hc⟩]
      simp only [List.append_assoc]
    rw [e, untext_bytes, untext_sextets v fun n hn => h n (by simp [hn]), ← List.filter_append]
    rfl

theorem decode_reads {t : Str} {v : List Nat} (h : Spec.Reads t v) :
    base64Decode t = (Spec.decode v ++ [UInt8.ofNat (Spec.leftOver v)]).filter (· ≠ 0) := by
  rw [decode_pad, h.2, ← untext_sextets v h.1]
  show untext _ = _
  congr 1
  have := h.1
  clear h
  induction v with
  | nil => rfl
  | cons n v ih =>
    obtain ⟨h1, h2, h3⟩ := code_table ⟨n, this n (by simp)⟩
    rw [List.map_cons, List.flatMap_cons, List.flatMap_cons, ih fun m hm => this m (by simp [hm])]
    rw [show Spec.letter n = code n from h1.symm, if_pos h2, h3]

theorem leftOver_lt : ∀ v : List Nat, (∀ n ∈ v, n < 64) → Spec.leftOver v < 256
  | [], _ => by decide
  | [a], h => by have := h a (by simp); simp only [Spec.leftOver]; omega
  | [a, b], h => by simp only [Spec.leftOver]; omega
  | [a, b, c], h => by simp only [Spec.leftOver]; omega
  | a :: b :: c :: d :: v, h => leftOver_lt v fun n hn => h n (by simp [hn])

theorem ofNat_zero_iff {n : Nat} (h : n < 256) : UInt8.ofNat n = 0 ↔ n = 0 := by
  constructor
  · intro e
    have := congrArg UInt8.toNat e
    rw [UInt8.toNat_ofNat_of_lt' h] at this
    exact this
  · rintro rfl; rfl

theorem decode_length : ∀ v : List Nat, (Spec.decode v).length = 3 * v.length / 4
  | [] => rfl
  | [_] => by simp [Spec.decode]
  | [_, _] => by simp [Spec.decode]
  | [_, _, _] => by simp [Spec.decode]
  | a :: b :: c :: d :: v => by
    simp only [Spec.decode, List.length_cons, decode_length v]; omega

theorem leftOver_zero : ∀ v : List Nat, v.length % 4 = 0 → Spec.leftOver v = 0
  | [], _ => rfl
  | [_], h => by simp at h
  | [_, _], h => by simp at h
  | [_, _, _], h => by simp at h
  | a :: b :: c :: d :: v, h => leftOver_zero v (by simp only [List.length_cons] at h; omega)

theorem sextet_lt : ∀ c : Byte, Spec.sextet c < 64 := by
  apply forall_byte; decide +kernel

theorem decodeBits_sextet : ∀ c : Byte, c ≠ byte '=' → decodeBits c = bitString 6 (Spec.sextet c) := by
  apply forall_byte; decide +kernel

theorem sextets_lt (t : Str) : ∀ n ∈ t.map Spec.sextet, n < 64 := by
  intro n hn
  obtain ⟨c, _, rfl⟩ := List.mem_map.1 hn
  exact sextet_lt c

/-- Decoding of any text. -/
theorem decode_any (t : Str) : base64Decode t =
    (Spec.decode ((t.filter (· ≠ byte '=')).map Spec.sextet) ++
      [UInt8.ofNat (Spec.leftOver ((t.filter (· ≠ byte '=')).map Spec.sextet))]).filter (· ≠ 0) := by
  rw [← untext_sextets _ (sextets_lt _), decode_pad]
  show untext _ = _
  congr 1
  have : ∀ c ∈ t.filter (· ≠ byte '='), c ≠ byte '=' := fun c hc => by simpa using (List.mem_filter.1 hc).2
  generalize t.filter (· ≠ byte '=') = u at this
  induction u with
  | nil => rfl
  | cons c u ih =>
    rw [List.map_cons, List.flatMap_cons, List.flatMap_cons, ih fun d hd => this d (by simp [hd]),
      if_pos (this c (by simp)), decodeBits_sextet c (this c (by simp))]

/-- The bytes of a sequence of values. -/
def out (v : List Nat) : Str := (Spec.decode v ++ [UInt8.ofNat (Spec.leftOver v)]).filter (· ≠ 0)

theorem out_four (a b c d : Nat) (v : List Nat) : ∃ g, out (a :: b :: c :: d :: v) = g ++ out v := by
  refine ⟨(Spec.decode [a, b, c, d]).filter (· ≠ 0), ?_⟩
  unfold out
  rw [← List.filter_append]
  rfl

theorem last_one : ∀ x : Fin 4, UInt8.ofNat (64 * x.val + 63) ≠ 0 ∧ UInt8.ofNat (64 * x.val + 63) ≠ 252 := by
  decide +kernel

/-- A last character `/` is a byte of its own exactly behind complete groups. -/
theorem out_slash : ∀ v : List Nat, v.length % 4 ≠ 0 → ∃ g x, out (v ++ [63]) = g ++ [x] ∧ x ≠ 252
  | [], h => absurd rfl h
  | [a], _ => by
    refine ⟨([UInt8.ofNat (4 * a + 63 / 16)]).filter (· ≠ 0), 240, ?_, by decide⟩
    show List.filter _ ([UInt8.ofNat (4 * a + 63 / 16)] ++ [UInt8.ofNat (16 * (63 % 16))]) = _
    rw [List.filter_append]
    rfl
  | [a, b], _ => by
    refine ⟨([UInt8.ofNat (4 * a + b / 16), UInt8.ofNat (16 * (b % 16) + 63 / 4)]).filter (· ≠ 0), 192, ?_, by decide⟩
    show List.filter _ ([UInt8.ofNat (4 * a + b / 16), UInt8.ofNat (16 * (b % 16) + 63 / 4)] ++ [UInt8.ofNat (64 * (63 % 4))]) = _
    rw [List.filter_append]
    rfl
  | [a, b, c], _ => by
    obtain ⟨h1, h2⟩ := last_one ⟨c % 4, by omega⟩
    refine ⟨([UInt8.ofNat (4 * a + b / 16), UInt8.ofNat (16 * (b % 16) + c / 4)]).filter (· ≠ 0), _, ?_, h2⟩
    show List.filter _ ([UInt8.ofNat (4 * a + b / 16), UInt8.ofNat (16 * (b % 16) + c / 4)] ++
      ([UInt8.ofNat (64 * (c % 4) + 63)] ++ [UInt8.ofNat 0])) = _
    rw [List.filter_append, List.filter_append]
    congr 1
    rw [List.filter_eq_self.2 (by simpa using h1)]
    rfl
  | a :: b :: c :: d :: v, h => by
    obtain ⟨g, x, e, hx⟩ := out_slash v (by simp only [List.length_cons] at h; omega)
    obtain ⟨g', e'⟩ := out_four a b c d (v ++ [63])
    exact ⟨g' ++ g, x, by rw [List.cons_append, List.cons_append, List.cons_append, List.cons_append, e', e, List.append_assoc], hx⟩

theorem decode_cut {t : Str} (h : base64Decode (t ++ [byte '/']) = base64Decode t ++ base64Decode [byte '/']) :
    (t.filter fun c => c ≠ byte '=').length % 4 = 0 := by
  refine Decidable.byContradiction fun hn => ?_
  have e : (t ++ [byte '/']).filter (· ≠ byte '=') = t.filter (· ≠ byte '=') ++ [byte '/'] := by
    rw [List.filter_append]; rfl
  have e1 : base64Decode [byte '/'] = [252] := by rw [decode_any]; decide +kernel
  have e2 : base64Decode (t ++ [byte '/']) = out ((t.filter (· ≠ byte '=')).map Spec.sextet ++ [63]) := by
    rw [decode_any, e, List.map_append, show List.map Spec.sextet [byte '/'] = [63] by decide +kernel]
    rfl
  obtain ⟨g, x, e3, hx⟩ := out_slash ((t.filter (· ≠ byte '=')).map Spec.sextet) (by rwa [List.length_map])
  rw [e1, e2, e3] at h
  have := List.append_inj' h rfl
  exact hx (by simpa using this.2)

end Base64
