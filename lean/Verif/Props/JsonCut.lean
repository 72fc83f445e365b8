import Verif.Proof.JsonCut

/-! # JSON: property C49, texts which end too early -/

namespace Json.Props
open Cpp Spec

/-- **C49, refuted.**  Every text which ends inside a string, at any depth and after anything the loader reads, makes it
read behind the end of the text; so does every text which ends inside brackets right after a number. -/
theorem C49_cut_refuted (w r : Str) (hw : Blank w) (c : Cut false r) : loadJSON (w ++ r) = .ub := load_cut hw c

/-- ` {"a": [true, "b` -/
example : loadJSON ([32] ++ [123, 34, 97, 34, 58, 32, 91, 116, 114, 117, 101, 44, 32, 34, 98]) = .ub :=
  C49_cut_refuted _ _ (by simp [Blank]) <|
    .item [] (by simp) (by simp) (by simp) (by simp) ⟨[], [34, 97, 34], [], .str [97], false⟩ (by simp [Blank])
      (.str [97] [97] (.plain 97 (by decide) (by decide) .nil)) (by simp) [32] (by simp [Blank])
      (.arr [⟨[], [116, 114, 117, 101], [], .bool true, false⟩] (by simp [Blank]) (by simp; exact .true) [32] (by simp [Blank])
        (.str [98] [98] (.plain 98 (by decide) (by decide) .nil)))

/-- `[null,-7` -/
example : loadJSON ([] ++ [91, 110, 117, 108, 108, 44, 45, 55]) = .ub :=
  C49_cut_refuted _ _ (by simp [Blank]) <|
    .arr [⟨[], [110, 117, 108, 108], [], .null, false⟩] (by simp [Blank]) (by simp; exact .null) [] (by simp [Blank])
      (.num [45, 55] (.int (-7)) ⟨⟨true, [55], none, []⟩, by simp [LNum.Ok], by decide, .inr ⟨by decide, -7, by
        simp [LNum.value, nat], by norm_num⟩⟩)

end Json.Props
