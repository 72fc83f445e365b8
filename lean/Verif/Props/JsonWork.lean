import Verif.Proof.JsonWork
import Verif.Props.Json

/-!
# Property C180: the work of `loadJSON`

Loading a text reads its characters a constant number of times, but copies more `JSONObject`s than are proportional to its
length.
-/

namespace Json.Work
open Cpp Json.Work.Spec

/-- The counted parser returns what the parser of Model/Json.lean returns. -/
theorem C180_same (t : Str) : (loadJSON t).out = Json.loadJSON t := loadJSON_out t

/-- Whatever the text, loaded or not: at most `4 n + 16` characters are read and at most `(n + 2)²` objects copied. -/
theorem C180_bound (t : Str) : (loadJSON t).reads ≤ 4 * t.length + 16 ∧ (loadJSON t).copies ≤ (t.length + 2) ^ 2 := by
  have h := load_run t
  unfold Run at h
  cases e : (loadJSON t).out with
  | ok v =>
    simp only [e, Nat.zero_add] at h
    exact ⟨by omega, Nat.le_trans h.2.1 (Nat.pow_le_pow_left (by omega) 2)⟩
  | _ => simpa only [e, Nat.zero_add] using h

/-- When a text is loaded there is a document with the value, with no more parts than the text has characters, such that the
number of copies is the one of the document: one for each scalar other than `null`, and for each member of an object its
whole value; at most `depth + 1` copies for each character, where `depth` tells how deep objects are nested. -/
theorem C180_copies (t : Str) (v : Value) (h : Json.loadJSON t = .ok v) :
    ∃ d : Doc, d.value = v ∧ (loadJSON t).copies = d.copies ∧ d.parts ≤ t.length ∧
      (loadJSON t).copies ≤ (d.depth + 1) * t.length := by
  have h' := load_run t
  unfold Run at h'
  rw [C180_same, h] at h'
  simp only [Nat.zero_add] at h'
  obtain ⟨-, -, d, h1, h2, h3⟩ := h'
  exact ⟨d, h1, h2, h3, h2 ▸ Nat.le_trans (copies_le d) (Nat.mul_le_mul_left _ h3)⟩

/-- Texts of `n` objects nested in each other: `10 n + 4` characters and at least `n² / 2` copies. -/
theorem C180_nested (n : Nat) : ∃ t v, t.length = 10 * n + 4 ∧ Json.loadJSON t = .ok v ∧ n * n ≤ 2 * (loadJSON t).copies := by
  have hl := Json.Props.C48_roundtrip (nest n) (nest_fine n).1 (nest_fine n).2 [] (by decide) 1
  obtain ⟨d, h1, h2, -⟩ := C180_copies _ _ hl
  refine ⟨_, _, nest_length 1 n, hl, ?_⟩
  have h3 := nest_must n
  have h4 := must_le d
  rw [h1] at h4
  omega

/-- The copies are not proportional to the length of the text. -/
theorem C180_refuted : ¬ ∃ K, ∀ t v, Json.loadJSON t = .ok v → (loadJSON t).copies ≤ K * t.length := by
  rintro ⟨K, h⟩
  obtain ⟨t, v, h1, h2, h3⟩ := C180_nested (20 * K + 8 * K + 1)
  have := h t v h2
  rw [h1] at this
  nlinarith

example : ∃ v, Json.loadJSON (bytes "{\"a\":{\"b\":{}}}".toList) = .ok v :=
  ⟨.obj [(bytes ['a'], .obj [(bytes ['b'], .obj [])])], by rfl⟩

/-! Tests -/

example : (loadJSON (bytes "{\"a\":{\"b\":{}}}".toList)).copies = 5 ∧
    (loadJSON (bytes "{\"a\":{\"b\":{}}}".toList)).reads = 32 := by
  decide +kernel

example : (loadJSON (bytes "[[[[]]]]".toList)).copies = 0 := by decide +kernel

end Json.Work
