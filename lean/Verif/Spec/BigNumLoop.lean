import Verif.Model.BigNumLoop
import Verif.Spec.BigNumProg

/-! # Programs with conditions and loops, over the integers -/

namespace BigNum.Spec
open Cpp

/-- the comparison of integers -/
def holds (a b : Int) : Rel → Prop
  | .lt => a < b
  | .le => a ≤ b
  | .gt => a > b
  | .ge => a ≥ b
  | .eq => a = b
  | .ne => a ≠ b

/-- `Runs Q σ p σ'`: over the integers, the program `p` leads from the values `σ` to the values `σ'`, and every statement
met on the way satisfies `Q`. -/
inductive Runs (Q : (Nat → Int) → Stmt → Prop) : (Nat → Int) → Prog → (Nat → Int) → Prop
  | stmt {σ s} (h : Q σ s) : Runs Q σ (.stmt s) (eval σ s)
  | seq {σ τ υ p q} (h : Runs Q σ p τ) (h' : Runs Q τ q υ) : Runs Q σ (.seq p q) υ
  | yes {σ τ R x y p q} (c : holds (σ x) (σ y) R) (h : Runs Q σ p τ) : Runs Q σ (.cond R x y p q) τ
  | no {σ τ R x y p q} (c : ¬ holds (σ x) (σ y) R) (h : Runs Q σ q τ) : Runs Q σ (.cond R x y p q) τ
  | again {σ τ υ R x y p} (c : holds (σ x) (σ y) R) (h : Runs Q σ p τ) (h' : Runs Q τ (.loop R x y p) υ) :
      Runs Q σ (.loop R x y p) υ
  | done {σ R x y p} (c : ¬ holds (σ x) (σ y) R) : Runs Q σ (.loop R x y p) σ

/-- No result is negative and there is room. -/
def FitsIn (N : Nat) (σ : Nat → Int) (s : Stmt) : Prop := 0 ≤ result σ s ∧ Room N σ s

/-- and the variable does not get shorter -/
def GrowsIn (N : Nat) (σ : Nat → Int) (s : Stmt) : Prop := FitsIn N σ s ∧ Grows σ s

/-- `BigNum<N> f(1), i(1), n(k); while (i <= n) { f = f * i; ++i; }` -/
def factorialProg (k : Int) : Prog :=
  .seq (.stmt (.decl 0 1)) (.seq (.stmt (.decl 1 1)) (.seq (.stmt (.decl 2 k))
    (.loop .le 1 2 (.seq (.stmt (.times 0 0 1)) (.stmt (.inc 1))))))

/-- `BigNum<N> s(0), i(1), n(k); while (i <= n) { s += i; ++i; }` -/
def sumProg (k : Int) : Prog :=
  .seq (.stmt (.decl 0 0)) (.seq (.stmt (.decl 1 1)) (.seq (.stmt (.decl 2 k))
    (.loop .le 1 2 (.seq (.stmt (.plusEq 0 1)) (.stmt (.inc 1))))))

/-- `BigNum<N> s(0), i(k), n(0); while (i > n) { s += i; --i; }` -/
def sumDownProg (k : Int) : Prog :=
  .seq (.stmt (.decl 0 0)) (.seq (.stmt (.decl 1 k)) (.seq (.stmt (.decl 2 0))
    (.loop .gt 1 2 (.seq (.stmt (.plusEq 0 1)) (.stmt (.dec 1))))))

end BigNum.Spec
