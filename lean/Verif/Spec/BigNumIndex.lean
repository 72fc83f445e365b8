import Verif.Spec.BigNum
import Verif.Model.BigNumIndex

/-! # Specification of indexing a big number: the decimal digits of an integer -/

namespace BigNum.Spec
open Cpp

/-- Decimal digit `i` of an integer, counted from the units. -/
def digitOf (x : Int) (i : Nat) : Int := ((x.natAbs / 10 ^ i % 10 : Nat) : Int)

/-- The digits after some assignments `b[i] = d`, in order: the last assignment to `i` decides. -/
def written (d : Nat → Int) : List (Int × Int) → Nat → Int
  | [] => d
  | (i, v) :: ws => written (fun k => if (k : Int) = i then v else d k) ws

/-- Assignments of decimal digits to positions below `n`. -/
def DigitsBelow (n : Nat) (ws : List (Int × Int)) : Prop :=
  ∀ w ∈ ws, 0 ≤ w.1 ∧ w.1 < n ∧ 0 ≤ w.2 ∧ w.2 ≤ 9

end BigNum.Spec
