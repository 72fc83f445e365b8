import Verif.Spec.BigNum
import Verif.Model.Json
import Mathlib.Data.Nat.Digits.Lemmas

/-! # `std::to_string(int)` is the canonical decimal text -/

namespace Json
open Cpp

theorem digits_decimal (n : Nat) :
    ((Nat.digits 10 n).map fun d => (48 + UInt8.ofNat d)).reverse = BigNum.Spec.decimalDigits n := by
  induction n using Nat.strong_induction_on with
  | _ n ih =>
    rw [BigNum.Spec.decimalDigits]
    by_cases h : n = 0
    · subst h; simp
    · rw [if_neg h, Nat.digits_def' (by norm_num) (by omega), List.map_cons, List.reverse_cons, ih (n / 10) (by omega)]
      congr 2
      apply UInt8.toNat_inj.mp
      simp [UInt8.toNat_add]

theorem decInt_decimal (i : Int) : decInt i = BigNum.Spec.decimal i := by
  unfold decInt decNat BigNum.Spec.decimal
  by_cases h0 : i = 0
  · subst h0; rfl
  · rw [if_neg h0, if_neg (show ¬ i.natAbs = 0 by omega), digits_decimal]

end Json
