import Verif.Proof.DoubleLarge
import Verif.Props.FloatVector

/-! # Vectors of doubles and floats with a number out of range or missing: properties C168 and C195 -/

set_option exponentiation.threshold 2000

namespace Stream.Props
open Cpp Spec

/-- **C168, numbers out of range.**  If one of the numbers in a Vector of doubles is 10^309 or more, the earlier ones being in range,
reading ends the program only if that number is the first; otherwise the program uses a variable without a value. -/
theorem C168_large_refuted (a : Str) (ha : Ws a) (xs : List RItem) (h : ∀ x ∈ xs, x.Ok) (y : RItem) (hy : y.Large) (c : Byte)
    (hc : c = byte ',' ∨ c = byte '}') (t : Str) :
    readVectorD { rest := a ++ byte '{' :: (rcommas (xs ++ [y]) ++ c :: t) } = if xs = [] then .exit else .ub :=
  readVectorD_large a ha xs h y hy c hc t

/-- -1e309 -/
def hugeD : Lit := ⟨some true, bytes ['1'], false, [], some (byte 'e', none, bytes ['3', '0', '9'])⟩

example : (⟨[], tenthText, []⟩ : RItem).Ok ∧ (⟨[32], hugeD, []⟩ : RItem).Large :=
  ⟨⟨by decide, by decide, by decide, by decide +kernel⟩, ⟨by decide, by decide, by decide, by decide +kernel⟩⟩
-- {0.1, -1e309} and {-1e309}
example : readVectorD { rest := bytes ['{', '0', '.', '1', ',', ' ', '-', '1', 'e', '3', '0', '9', '}'] } = .ub ∧
    readVectorD { rest := bytes ['{', '-', '1', 'e', '3', '0', '9', '}'] } = .exit := by decide +kernel

/-- **C168, missing numbers.**  If numbers and a comma are followed by the end of the text or by a character that begins no number,
reading a Vector of doubles is undefined instead of an error: after a comma too many (`{1,}`), a word (`{1, inf}`), or a text cut
off behind the comma. -/
theorem C168_missing_refuted (a : Str) (ha : Ws a) (xs : List RItem) (hne : xs ≠ []) (h : ∀ x ∈ xs, x.Ok) (w t : Str) (hw : Ws w)
    (ht : NoNumber t) : readVectorD { rest := a ++ byte '{' :: (rcommas xs ++ byte ',' :: (w ++ t)) } = .ub :=
  readVectorD_missing a ha xs hne h w t hw ht

example : (⟨[], tenthText, []⟩ : RItem).Ok ∧ Ws [32] ∧ NoNumber [byte '}'] ∧ NoNumber [] ∧ NoNumber (bytes ['i', 'n', 'f', '}']) :=
  ⟨⟨by decide, by decide, by decide, by decide +kernel⟩, by decide, by decide, by decide, by decide⟩
-- {0.1, }
example : readVectorD { rest := bytes ['{', '0', '.', '1', ',', ' ', '}'] } = .ub := by decide +kernel

/-- **C195, missing numbers.**  The same for a Vector of floats. -/
theorem C195_missing_refuted (a : Str) (ha : Ws a) (xs : List RItem) (hne : xs ≠ []) (h : ∀ x ∈ xs, x.OkF) (w t : Str) (hw : Ws w)
    (ht : NoNumber t) : readVectorF { rest := a ++ byte '{' :: (rcommas xs ++ byte ',' :: (w ++ t)) } = .ub :=
  readVectorF_missing a ha xs hne h w t hw ht

example : (⟨[], tenthText, []⟩ : RItem).OkF ∧ Ws [10] ∧ NoNumber [byte ','] :=
  ⟨⟨by decide, by decide, by decide, by decide +kernel⟩, by decide, by decide⟩
-- {0.1,,1}
example : readVectorF { rest := bytes ['{', '0', '.', '1', ',', ',', '1', '}'] } = .ub := by decide +kernel

end Stream.Props
