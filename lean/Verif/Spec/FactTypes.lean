import Verif.Model.GcdTypes

/-! # Spec: integer types in which the factorial cannot overflow with undefined behaviour -/

namespace FactTypes.Spec
open GcdTypes ITy

/-- Neither `int` nor the signed 64-bit type: results are reduced modulo 2^bits. -/
def Wraps (t : ITy) : Prop := t ≠ i32 ∧ t ≠ i64

instance (t : ITy) : Decidable (Wraps t) := inferInstanceAs (Decidable (_ ∧ _))

/-- `t` has at least 32 bits: the types for which `binomial` compiles. -/
def Wide (t : ITy) : Prop := t = i32 ∨ t = u32 ∨ t = i64 ∨ t = u64

instance (t : ITy) : Decidable (Wide t) := inferInstanceAs (Decidable (_ ∨ _))

/-- `x` and `y` are the same number modulo 2^bits, and `x` is a value of `t`. -/
def Reduced (t : ITy) (x y : Int) : Prop := t.In x ∧ (2 : Int) ^ t.bits ∣ x - y

end FactTypes.Spec
