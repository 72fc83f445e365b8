import Verif.Props.Json
import Verif.Proof.JsonHex

/-! # Unicode escapes and characters outside of ASCII: more on C49 and C78 -/

namespace Json.Props
open Cpp Json Json.Spec

/-- **C49, refuted.**  A single character outside of ASCII is undefined behaviour, being passed to `isspace` as a negative
number. -/
theorem C49_space_refuted (c : Byte) (h : 128 ≤ c.toNat) : loadJSON [c] = .ub := by
  have h' : (128 ≤ c.toNat) = True := eq_true h
  simp [loadJSON, parseNext, skip, skipGo, isspace, strAt, h', Bind.bind, Out.bind]

/-- **C78, what holds for unicode escapes.**  A string of one unicode escape is accepted exactly if there are four
hexadecimal digits, of either case, and is kept as it stands; else the program is ended. -/
theorem C78_unicode_partial (h : Str) (hl : h.length = 4) :
    loadJSON (bytes ['"', '\\', 'u'] ++ h ++ bytes ['"']) =
      if ∀ c ∈ h, c ∈ hexDigits then .ok (.str (bytes ['\\', 'u'] ++ h)) else .exit := by
  match h, hl with
  | [a, b, c, d], _ =>
    simp only [List.mem_cons, List.not_mem_nil, or_false, forall_eq_or_imp, forall_eq, ← isHex_iff]
    have e2 : hexGo (bytes ['"', '\\', 'u'] ++ [a, b, c, d] ++ bytes ['"']) 4 3 =
       if isHex a ∧ isHex b ∧ isHex c ∧ isHex d then .ok [a,b,c,d] else .exit := by
      by_cases h1 : isHex a <;> by_cases h2 : isHex b <;> by_cases h3 : isHex c <;> by_cases h4 : isHex d <;>
        simp [hexGo, strAt, bytes, h1, h2, h3, h4, Out.ok_bind]
    have e : loadJSON (bytes ['"', '\\', 'u'] ++ [a, b, c, d] ++ bytes ['"']) =
        (do
          let p ← (do
            let (val, off) ← (do
              let hex ← hexGo (bytes ['"', '\\', 'u'] ++ [a, b, c, d] ++ bytes ['"']) 4 3
              stringGo (bytes ['"', '\\', 'u'] ++ [a, b, c, d] ++ bytes ['"']) 9 7 (bytes ['\\', 'u'] ++ hex))
            .ok (Value.str val, off))
          .ok p.1) := rfl
    rw [e, e2]
    split <;> rfl
example : loadJSON (bytes ['"', '\\', 'u', '0', '0', 'e', 'F', '"']) = .ok (.str (bytes ['\\', 'u', '0', '0', 'e', 'F'])) := rfl
example : loadJSON (bytes ['"', '\\', 'u', '0', '0', 'g', '0', '"']) = .exit := rfl
example : 128 ≤ (200 : Byte).toNat := by decide

end Json.Props
