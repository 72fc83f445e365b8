import Verif.Spec.BigNumSigned
import Verif.Spec.BigNumLoop

/-! # Programs with signed big numbers: which statements are in the domain of the operators -/

namespace BigNum.Spec
open Cpp

/-- Operands that `+` adds up right (see C174). -/
def OkPlus (a b : Int) : Prop := (a < 0 ∧ b < 0) ∨ 0 ≤ a + b
/-- Operands that `-` subtracts right. -/
def OkMinus (a b : Int) : Prop := ¬ (a < 0 ∧ b < 0) ∨ a = b
/-- Operands that `*` multiplies right. -/
def OkTimes (a b : Int) : Prop := 0 ≤ b ∨ a = 0

instance (a b : Int) : Decidable (OkPlus a b) := inferInstanceAs (Decidable (_ ∨ _))
instance (a b : Int) : Decidable (OkMinus a b) := inferInstanceAs (Decidable (_ ∨ _))
instance (a b : Int) : Decidable (OkTimes a b) := inferInstanceAs (Decidable (_ ∨ _))

/-- There is room: operands of sums and differences leave a place free, those of products have together at most `N` places
(and `N` is at most twenty millions); constants are not the least `int64_t`; no variable is assigned to itself. -/
def RoomS (N : Nat) (σ : Nat → Int) : Stmt → Prop
  | .decl _ k => k ≠ INT64_MIN ∧ places k ≤ N
  | .assign x y => x ≠ y
  | .plus _ y z | .minus _ y z => places (σ y) < N ∧ places (σ z) < N
  | .times _ y z => places (σ y) + places (σ z) ≤ N ∧ N ≤ 20000000
  | .plusEq x y | .minusEq x y => places (σ x) < N ∧ places (σ y) < N
  | .plusEqInt x k | .minusEqInt x k => k ≠ INT64_MIN ∧ places (σ x) < N ∧ places k < N
  | .timesEqInt x k => k ≠ INT64_MIN ∧ places (σ x) + places k ≤ N ∧ N ≤ 20000000
  | .inc x | .dec x => places (σ x) < N ∧ 1 < N

/-- The operator gets operands that it handles. -/
def Sane (σ : Nat → Int) : Stmt → Prop
  | .decl _ _ | .assign _ _ => True
  | .plus _ y z => OkPlus (σ y) (σ z)
  | .minus _ y z => OkMinus (σ y) (σ z)
  | .times _ y z => OkTimes (σ y) (σ z)
  | .plusEq x y => OkPlus (σ x) (σ y)
  | .minusEq x y => OkMinus (σ x) (σ y)
  | .plusEqInt x k => OkPlus (σ x) k
  | .minusEqInt x k => OkMinus (σ x) k
  | .timesEqInt x k => OkTimes (σ x) k
  | .inc x => OkPlus (σ x) 1
  | .dec x => OkMinus (σ x) 1

instance (N : Nat) (σ : Nat → Int) (s : Stmt) : Decidable (RoomS N σ s) := by
  cases s <;> unfold RoomS <;> infer_instance

instance (σ : Nat → Int) (s : Stmt) : Decidable (Sane σ s) := by
  cases s <;> unfold Sane <;> infer_instance

/-- There is room, the operands are handled, and the variable does not get shorter. -/
def SaneIn (N : Nat) (σ : Nat → Int) (s : Stmt) : Prop := RoomS N σ s ∧ Sane σ s ∧ Grows σ s

instance (N : Nat) (σ : Nat → Int) (s : Stmt) : Decidable (SaneIn N σ s) := inferInstanceAs (Decidable (_ ∧ _))

/-- `BigNum<N> s(-1), i(-2), n(k); while (i >= n) { s += i; --i; }` -/
def sumNegProg (k : Int) : Prog :=
  .seq (.stmt (.decl 0 (-1))) (.seq (.stmt (.decl 1 (-2))) (.seq (.stmt (.decl 2 k))
    (.loop .ge 1 2 (.seq (.stmt (.plusEq 0 1)) (.stmt (.dec 1))))))

end BigNum.Spec
