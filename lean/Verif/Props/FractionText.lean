import Verif.Model.FractionText
import Verif.Props.Fraction
import Verif.Props.Stream
import Verif.Proof.MatrixText
import Verif.Proof.Decimal

/-! # Property C131: the text of a fraction -/

namespace Fraction.Props
open Cpp Spec

/-- **C131.**  The text of a canonical fraction consists of two integers, numerator and denominator, with a slash between
them. -/
theorem C131_form (f : Frac) : ∃ n d : Str, Stream.Spec.Num n f.num ∧ Stream.Spec.Num d f.den ∧
    text f = n ++ byte '/' :: d :=
  ⟨_, _, Stream.decInt_num f.num, Stream.decInt_num f.den, by simp [text, bytes]⟩

/-- **C131.**  Both are written in decimal, without leading zeros; a minus sign is only written for negative ones. -/
theorem C131_text (f : Frac) : text f = BigNum.Spec.decimal f.num ++ byte '/' :: BigNum.Spec.decimal f.den := by
  simp [text, bytes, Json.decInt_decimal]

example : text ⟨-3, 4⟩ = bytes ['-', '3', '/', '4'] := by decide +kernel

/-- **C131.**  Fractions with the same text are the same number, and conversely. -/
theorem C131_determined (a b : Frac) (ha : Canonical a) (hb : Canonical b) : text a = text b ↔ val a = val b := by
  constructor
  · intro h
    have hs : ∀ i : Int, byte '/' ∉ Json.decInt i := by
      intro i hm
      have := Json.decNat_digits i.natAbs
      unfold Json.decInt at hm
      have key : byte '/' ∉ Json.decNat i.natAbs := fun hc => absurd (this.2 _ hc) (by decide)
      split at hm
      · rcases List.mem_cons.1 hm with h | h
        · exact absurd h (by decide)
        · exact key h
      · exact key hm
    unfold text at h
    simp only [bytes, List.map_cons, List.map_nil, List.append_assoc, List.singleton_append] at h
    obtain ⟨e1, e2⟩ := Matrix.cut (hs a.num) (hs b.num) h
    unfold val
    rw [Matrix.decInt_inj e1, Matrix.decInt_inj e2]
  · intro h
    rw [val_inj ha hb h]

example : Canonical ⟨-3, 4⟩ ∧ Canonical ⟨5, 12⟩ :=
  ⟨⟨by decide, by decide, by decide, by decide⟩, ⟨by decide, by decide, by decide, by decide⟩⟩

/-- **C131.**  `stringCast<int>` of the text gives the numerator. -/
theorem C131_cast (f : Frac) (h : Canonical f) : Stream.castInt (text f) = .ok f.num := by
  have := Stream.Props.C87_value_partial [] (Json.decInt f.num) (bytes ['/'] ++ Json.decInt f.den) f.num (by simp [Stream.Spec.Ws])
    (Stream.decInt_num _) (by simp only [bytes, List.map_cons, List.map_nil, List.singleton_append, List.head?_cons]; intro c hc
                              rw [Option.mem_some] at hc; subst hc; decide)
  rw [List.nil_append, ← List.append_assoc] at this
  unfold text
  rw [this]
  have := h.num_int
  unfold IsInt at this
  congr 1
  omega

example : Stream.castInt (text ⟨-3, 4⟩) = .ok (-3) := C131_cast _ ⟨by decide, by decide, by decide, by decide⟩

end Fraction.Props
