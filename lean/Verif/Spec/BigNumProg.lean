import Verif.Model.BigNumProg
import Verif.Spec.BigNum

/-! # Programs with big numbers, over the integers -/

namespace BigNum.Spec
open Cpp

/-- the number of decimal places; none for 0 -/
def places (x : Int) : Nat := (decimalDigits x.natAbs).length

/-- the variable a statement changes -/
def target : Stmt → Nat
  | .decl x _ | .assign x _ | .plus x _ _ | .minus x _ _ | .times x _ _ | .plusEq x _ | .minusEq x _ | .plusEqInt x _
  | .minusEqInt x _ | .timesEqInt x _ | .inc x | .dec x => x

/-- the integer it gets -/
def result (σ : Nat → Int) : Stmt → Int
  | .decl _ k => k
  | .assign _ y => σ y
  | .plus _ y z => σ y + σ z
  | .minus _ y z => σ y - σ z
  | .times _ y z => σ y * σ z
  | .plusEq x y => σ x + σ y
  | .minusEq x y => σ x - σ y
  | .plusEqInt x k => σ x + k
  | .minusEqInt x k => σ x - k
  | .timesEqInt x k => σ x * k
  | .inc x => σ x + 1
  | .dec x => σ x - 1

/-- the integers after a statement -/
def eval (σ : Nat → Int) (s : Stmt) : Nat → Int := Function.update σ (target s) (result σ s)

/-- the integers after a program -/
def evals (σ : Nat → Int) (p : List Stmt) : Nat → Int := p.foldl eval σ

/-- There is room: operands of sums and differences leave a place free, those of products have together at most `N` places
(and `N` is at most twenty millions); constants are non-negative; no variable is assigned to itself. -/
def Room (N : Nat) (σ : Nat → Int) : Stmt → Prop
  | .decl _ k => 0 ≤ k ∧ places k ≤ N
  | .assign x y => x ≠ y
  | .plus _ y z | .minus _ y z => places (σ y) < N ∧ places (σ z) < N
  | .times _ y z => places (σ y) + places (σ z) ≤ N ∧ N ≤ 20000000
  | .plusEq x y | .minusEq x y => places (σ x) < N ∧ places (σ y) < N
  | .plusEqInt x k | .minusEqInt x k => 0 ≤ k ∧ places (σ x) < N ∧ places k < N
  | .timesEqInt x k => 0 ≤ k ∧ places (σ x) + places k ≤ N ∧ N ≤ 20000000
  | .inc x | .dec x => places (σ x) < N ∧ 1 < N

/-- The variable does not get shorter, unless it is declared anew. -/
def Grows (σ : Nat → Int) : Stmt → Prop
  | .decl _ _ => True
  | s => places (σ (target s)) ≤ places (result σ s)

/-- No result is negative and there is room. -/
def Fits (N : Nat) : (Nat → Int) → List Stmt → Prop
  | _, [] => True
  | σ, s :: p => (0 ≤ result σ s ∧ Room N σ s) ∧ Fits N (eval σ s) p

/-- No variable ever gets shorter. -/
def Growing : (Nat → Int) → List Stmt → Prop
  | _, [] => True
  | σ, s :: p => Grows σ s ∧ Growing (eval σ s) p

instance (N : Nat) (σ : Nat → Int) (s : Stmt) : Decidable (Room N σ s) := by
  cases s <;> unfold Room <;> infer_instance

instance (σ : Nat → Int) (s : Stmt) : Decidable (Grows σ s) := by
  cases s <;> unfold Grows <;> infer_instance

instance Fits.decide (N : Nat) : (σ : Nat → Int) → (p : List Stmt) → Decidable (Fits N σ p)
  | _, [] => .isTrue trivial
  | σ, s :: p =>
    have : Decidable (Fits N (eval σ s) p) := Fits.decide N _ p
    inferInstanceAs (Decidable ((0 ≤ result σ s ∧ Room N σ s) ∧ Fits N (eval σ s) p))

instance Growing.decide : (σ : Nat → Int) → (p : List Stmt) → Decidable (Growing σ p)
  | _, [] => .isTrue trivial
  | σ, s :: p =>
    have : Decidable (Growing (eval σ s) p) := Growing.decide _ p
    inferInstanceAs (Decidable (Grows σ s ∧ Growing (eval σ s) p))

end BigNum.Spec
