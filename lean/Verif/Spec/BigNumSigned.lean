import Verif.Spec.BigNumProg

/-! # Specification of signed arithmetic: the operation computes the integer -/

namespace BigNum.Spec
open Cpp

/-- The outcome is a number that denotes `x`. -/
def Gives (o : Out Big) (x : Int) : Prop := ∃ r, o = .ok r ∧ val r = x

/-- A number as construction and arithmetic leave it: clean cells, and zero carries the positive sign. -/
def Fresh (N : Nat) (b : Big) : Prop := Clean N b ∧ PosZero b

end BigNum.Spec
