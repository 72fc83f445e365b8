import Verif.Spec.Url

/-! # What counts for the sizes of coded texts (independent of the model) -/

namespace TextSizes
open Cpp

/-- Characters that JSON texts of this library write with a backslash: quote, backslash, `\b`, `\f`, `\n`, `\r` and `\t`. -/
def Escaped (c : Byte) : Prop := c = byte '"' ∨ c = byte '\\' ∨ c = 8 ∨ c = 12 ∨ c = 10 ∨ c = 13 ∨ c = 9

instance (c : Byte) : Decidable (Escaped c) := by unfold Escaped; infer_instance

end TextSizes
