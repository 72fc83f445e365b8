import Verif.Proof.JsonPlain

/-! # JSON: property C49 for texts of unknown origin -/

namespace Json.Props
open Cpp Spec

/-- **C49, what holds.**  A space and two quotes behind the text make loading safe: for every text, well formed or not, which
has only ASCII characters outside strings (in strings all bytes are allowed) and whose exponents are sound, loading
`t + " \"\""` has no undefined behaviour (it returns a value or ends with an error message); and every text which can be
loaded as it is gives the same value with the addition.  Missing: texts with other exponents and with other bytes outside
strings, for which `C49_exponent_refuted` and `C49_space_refuted` show undefined behaviour. -/
theorem C49_guard_partial (t : Str) :
    (Plain t → SoundExponents t → loadJSON (t ++ guard) = .exit ∨ ∃ v, loadJSON (t ++ guard) = .ok v) ∧
    ∀ v, loadJSON t = .ok v → loadJSON (t ++ guard) = .ok v := by
  refine ⟨fun ha hx => ?_, fun v h => load_keep h⟩
  have h1 := load_guarded ha hx
  have h2 := load_nd (t ++ guard)
  cases h : loadJSON (t ++ guard) with
  | ok v => exact .inr ⟨v, rfl⟩
  | exit => exact .inl rfl
  | ub => exact absurd h h1
  | diverge => exact absurd h h2

/-- **C49, refuted.**  A number whose exponent is no `int`, or has no digits behind the first character (as in `1e5`), is
undefined behaviour, with or without the addition. -/
theorem C49_exponent_refuted (v d r : Str) (e s : Byte) (hv : Digits v) (he : e = byte 'e' ∨ e = byte 'E')
    (hd : ∀ c ∈ d, 48 ≤ c ∧ c ≤ 57) (hr : r = [] ∨ r = guard) (h : ¬ IntExponent s d) :
    loadJSON (v ++ e :: s :: (d ++ r)) = .ub := by
  refine load_exp_ub hv he hd ?_ h
  rcases hr with rfl | rfl
  · simp [Delim]
  · intro c hc
    cases hc
    exact .inl (.inl rfl)

/-- the text `{"a":[1,2` -/
def cut : Str := bytes ['{', '"', 'a', '"', ':', '[', '1', ',', '2']

/-- the text `["ü1e\"",1.5e+3,2E-` with the letter ü in UTF-8 -/
def cutExp : Str := bytes ['[', '"'] ++ [195, 188] ++ bytes ['1', 'e', '\\', '"', '"', ',', '1', '.', '5', 'e', '+', '3', ',', '2', 'E', '-']

theorem cut_ok : Plain cut ∧ SoundExponents cut := ⟨plain_of (by decide), sound_of (by decide)⟩

theorem cutExp_ok : Plain cutExp ∧ SoundExponents cutExp := ⟨plain_of (by decide), sound_of (by decide +kernel)⟩

/-- Without the addition the first has undefined behaviour. -/
example : loadJSON cut = .ub ∧ loadJSON (bytes ['[', '"', 'a']) = .ub := ⟨rfl, rfl⟩

example : loadJSON (cut ++ guard) = .exit ∨ ∃ v, loadJSON (cut ++ guard) = .ok v :=
  (C49_guard_partial cut).1 cut_ok.1 cut_ok.2

example : loadJSON (cutExp ++ guard) = .exit ∨ ∃ v, loadJSON (cutExp ++ guard) = .ok v :=
  (C49_guard_partial cutExp).1 cutExp_ok.1 cutExp_ok.2

/-- Bytes from 128 on outside strings and `1e"` are excluded. -/
example : ¬ Plain (bytes ['[', '"', 'a', '"'] ++ [200]) ∧ ¬ SoundExponents (bytes ['1', 'e', '"']) := by
  refine ⟨fun h => absurd (h (bytes ['[', '"', 'a', '"']) 200 [] rfl (by decide)) (by decide), fun h => ?_⟩
  rcases h [] (byte '1') (byte 'e') [byte '"'] rfl rfl (by decide) (.inl rfl) with h | ⟨s, d, r, h1, h2, -⟩
  · cases h
  · simp only [List.cons.injEq] at h1
    exact h2 h1.1.symm

example : loadJSON (bytes ['[', '1', ']'] ++ guard) = .ok (.arr [.int 1]) := (C49_guard_partial _).2 _ rfl

/-- A string may then be completed by the addition. -/
example : loadJSON (bytes ['"', 'a'] ++ guard) = .ok (.str (bytes ['a', ' '])) := rfl

/-- `1e5`, which is correct JSON, and `12E+3000000000` -/
example : loadJSON (bytes ['1', 'e', '5']) = .ub :=
  C49_exponent_refuted [byte '1'] [] [] (byte 'e') (byte '5') (by decide) (.inl rfl) (by simp) (.inl rfl)
    (by unfold IntExponent; decide)

example : loadJSON (bytes ['1', '2', 'E', '+', '3', '0', '0', '0', '0', '0', '0', '0', '0', '0'] ++ guard) = .ub :=
  C49_exponent_refuted (bytes ['1', '2']) (bytes ['3', '0', '0', '0', '0', '0', '0', '0', '0', '0']) guard (byte 'E')
    (byte '+') (by decide) (.inr rfl) (by decide) (.inr rfl) (by unfold IntExponent; decide +kernel)

end Json.Props
