import Verif.Spec.BigNum

/-! # Number of decimal digits -/

namespace BigNum.Spec

/-- The number of decimal digits of an integer. -/
def digits (x : Int) : Nat := (decimalDigits x.natAbs).length

end BigNum.Spec
