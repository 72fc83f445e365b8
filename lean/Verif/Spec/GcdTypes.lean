import Verif.Model.GcdTypes

/-! # Spec: pairs of integer types whose values are not made unsigned by the conversions of C++ -/

namespace GcdTypes.Spec
open ITy

/-- Neither type is unsigned with 64 bits, and if one is unsigned with 32 bits then the other is signed with 64 bits. -/
def KeepsSign (t u : ITy) : Prop := (t ≠ u64 ∧ u ≠ u64) ∧ (t = i64 ∨ u = i64 ∨ (t ≠ u32 ∧ u ≠ u32))

instance (t u : ITy) : Decidable (KeepsSign t u) := by unfold KeepsSign; infer_instance

/-- One argument is -1, and the other is the least value of `int` (of the 64-bit type, if one of the types is that). -/
def Extreme (t u : ITy) (a b : Int) : Prop :=
  let m : Int := if t = i64 ∨ u = i64 then -9223372036854775808 else -2147483648
  (a = m ∧ b = -1) ∨ (a = -1 ∧ b = m)

/-- The type in which C++ computes with values of the types `t` and `u`. -/
def arithType (t u : ITy) : ITy :=
  if t = u64 ∨ u = u64 then u64 else if t = i64 ∨ u = i64 then i64 else if t = u32 ∨ u = u32 then u32 else i32

/-- The common type of `t` and `u`: that one, unless they are the same. -/
def commonType (t u : ITy) : ITy := if t = u then t else arithType t u

end GcdTypes.Spec
