import Verif.Proof.JsonInside

/-! # JSON: property C50, numbers with an exponent inside of brackets -/

namespace Json.Props
open Cpp Spec

/-- **C50, refuted for every number with an exponent inside of an array or object.**  At any depth, as an element, a key or
the value of a member, after anything the loader reads and before anything which may follow a number: the program ends,
though the number itself was read (`Expo`). -/
theorem C50_inside_refuted (w r : Str) (hw : Blank w) (h : ExpIn false r) : loadJSON (w ++ r) = .exit := load_expIn hw h

/-- ` [true, {"a": 2e-3}]` -/
example : loadJSON ([32] ++ bytes "[true, {\"a\": 2e-3}]".toList) = .exit := by
  have h := C50_inside_refuted [32] _ (by simp [Blank]) <|
    .arr [⟨[], [116, 114, 117, 101], [], .bool true, false⟩] (by simp [Blank]) (by simp; exact .true) [32] (by simp [Blank]) <|
      .item [] (by simp) (by simp) (by simp) (by simp) ⟨[], [34, 97, 34], [], .str [97], false⟩ (by simp [Blank])
        (.str [97] [97] (.plain 97 (by decide) (by decide) .nil)) (by simp) [32] (by simp [Blank]) <|
        .num [50, 101, 45, 51] _ ⟨⟨false, [50], none, []⟩, 101, 45, [51], -3, by simp [LNum.Ok], .inl rfl, by decide,
          .inl rfl, by decide, by decide, rfl, rfl⟩ [125, 93] (by simp [EndsNum]; decide)
  exact h

/-- `[1E+22]`, followed by anything -/
example (t : Str) : loadJSON ([] ++ ([91, 49, 69, 43, 50, 50, 93] ++ t)) = .exit :=
  C50_inside_refuted [] _ (by simp [Blank]) <|
    .arr [] (by simp) (by simp) [] (by simp [Blank]) <|
      .num [49, 69, 43, 50, 50] _ ⟨⟨false, [49], none, []⟩, 69, 43, [50, 50], 22, by simp [LNum.Ok], .inr rfl, by decide,
          .inr (by simp), by decide +kernel, by decide, rfl, rfl⟩ (93 :: t) (by simp [EndsNum]; decide)

end Json.Props
