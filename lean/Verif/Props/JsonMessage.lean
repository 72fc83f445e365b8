import Verif.Proof.JsonMessage

/-! # The error messages of `loadJSON`: property C179 -/

namespace Json.Message.Props
open Cpp Json.Message.Spec

/-- **C179.**  The parser with messages is the parser of Model/Json.lean: the same values, the same errors, the same undefined
behaviour. -/
theorem C179_same (t : Str) : (loadJSON t).drop = Json.loadJSON t := load_drop t

/-- **C179.**  When loading a text ends with a message, there is a place in the text such that the message is one of the ten
complaints, quotes exactly the characters at that place (NUL for the end of the text), these characters are not among those
which the complaint asks for, and the rest of the text does not matter: every text that agrees with this one up to the
characters quoted (for the three complaints about separators: and one more character) ends with the same message. -/
theorem C179_message (t msg : Str) (h : loadJSON t = .stop msg) : ∃ k p, About t k p msg ∧
    ∀ t' : Str, t'.take (p + k.reach) = t.take (p + k.reach) → loadJSON t' = .stop msg := load_stop h

/-- the message, if there is one -/
def complaint (t : Str) : Option Str :=
  match loadJSON t with
  | .stop m => some m
  | _ => none

theorem stop_of {t m : Str} (h : complaint t = some m) : loadJSON t = .stop m := by
  unfold complaint at h
  cases e : loadJSON t with
  | stop m' => rw [e] at h; cases h; rfl
  | _ => rw [e] at h; cases h

/-- All ten messages occur. -/
example : complaint (bytes "{1 2}".toList) = some (bytes "Object: Expected colon, found '2'".toList) ∧
    complaint (bytes "{1 : 2 ;".toList) = some (bytes "Object: Expected comma, found ';'".toList) ∧
    complaint (bytes "[true:".toList) = some (bytes "Array: Expected ',' or ']', found ':'".toList) ∧
    complaint (bytes "\"\\u00g".toList) = some (bytes "String: Expected hex character in unicode escape, found 'g'".toList) ∧
    complaint (bytes "[1, 2.5e".toList) = some (bytes "Number: Expected a number for exponent, nothing remaining.".toList) ∧
    complaint (bytes "1e-5f".toList) = some (bytes "Number: Expected a number for exponent, found 'f'".toList) ∧
    complaint (bytes "[12, 1x".toList) = some (bytes "Number: unexpected character 'x'".toList) ∧
    complaint (bytes "[tru]".toList) = some (bytes "Bool: Expected 'true' or 'false', found 'tru]'".toList) ∧
    complaint (bytes "[nul}".toList) = some (bytes "Null: Expected 'null', found 'nul}'".toList) ∧
    complaint (bytes " +1".toList) = some (bytes "Parse: Unknown starting character '+'".toList) := by
  decide +kernel

/-- the text `[12, 1x, 3]` -/
def wrong : Str := bytes "[12, 1x, 3]".toList

theorem wrong_stops : loadJSON wrong = .stop (bytes "Number: unexpected character 'x'".toList) := stop_of (by decide +kernel)

example : ∃ k p, About wrong k p (bytes "Number: unexpected character 'x'".toList) ∧
    ∀ t' : Str, t'.take (p + k.reach) = wrong.take (p + k.reach) →
      loadJSON t' = .stop (bytes "Number: unexpected character 'x'".toList) :=
  C179_message wrong _ wrong_stops

/-- The place can be the end of the text, shown as NUL; and a message is about a place of the text, not about any text. -/
example : complaint (bytes "[true".toList) = some (bytes "Array: Expected ',' or ']', found '".toList ++ [0] ++ bytes ['\'']) ∧
    ¬ About (bytes "[1]".toList) .start 0 (bytes "Parse: Unknown starting character '['".toList) ∧
    ¬ About (bytes "[x]".toList) .start 0 (bytes "Parse: Unknown starting character 'x'".toList) := by
  refine ⟨by decide +kernel, fun h => ?_, fun h => ?_⟩
  · exact h.2.2.1 ⟨byte '[', by decide +kernel, .inr (by decide)⟩
  · exact absurd h.2.1 (by decide +kernel)

/-- The text without the message: `C179_same` for a text that is loaded, one that is rejected and one with undefined
behaviour. -/
example : (loadJSON (bytes "[]".toList)).drop = Json.loadJSON (bytes "[]".toList) ∧
    Json.loadJSON wrong = .exit ∧ (loadJSON (bytes "[1".toList)).drop = .ub :=
  ⟨C179_same _, by rw [← C179_same, wrong_stops]; rfl, by rw [C179_same]; rfl⟩

/-- **C179, refuted.**  The characters quoted need not be the ones that are wrong: `[1e+5]` is a correct text, and the message
complains about its digit `5`.  The text `[1e+5x` agrees with it up to that digit and gets another message, which is about
the character behind the digit. -/
theorem C179_refuted :
    complaint (bytes "[1e+5]".toList) = some (bytes "Array: Expected ',' or ']', found '5'".toList) ∧
    complaint (bytes "[1e+5x".toList) = some (bytes "Number: Expected a number for exponent, found 'x'".toList) := by
  decide +kernel

end Json.Message.Props
