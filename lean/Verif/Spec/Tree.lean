import Verif.Model.Tree
import Mathlib.Order.Bounds.Basic

/-! # Rooted trees given by parent links -/

namespace Tree.Spec

/-- The parent of `x` in the tree given by a list of (node, parent) pairs. -/
def parentOf (adds : List (Nat × Nat)) (x : Nat) : Option Nat := (adds.find? fun a => a.1 = x).map (·.2)

/-- The nodes of the tree. -/
def nodes (r : Nat) (adds : List (Nat × Nat)) : List Nat := r :: adds.map (·.1)

/-- Each node is added once, below a node that is already there. -/
inductive Built (r : Nat) : List (Nat × Nat) → Prop where
  | root : Built r []
  | add {adds : List (Nat × Nat)} {x p : Nat} : Built r adds → x ∉ nodes r adds → p ∈ nodes r adds →
      Built r (adds ++ [(x, p)])

/-- `k` parent steps from `x`. -/
def up (par : Nat → Option Nat) : Nat → Nat → Option Nat
  | 0, x => some x
  | k + 1, x => (par x).bind (up par k)

/-- `a` is an ancestor of `x` (or `x` itself). -/
def IsAnc (par : Nat → Option Nat) (a x : Nat) : Prop := ∃ k, up par k x = some a

/-- `a` is the lowest common ancestor. -/
def IsLCA (par : Nat → Option Nat) (a x y : Nat) : Prop :=
  IsAnc par a x ∧ IsAnc par a y ∧ ∀ b, IsAnc par b x → IsAnc par b y → IsAnc par b a

/-- `x` is `d` edges away from the root. -/
def Depth (par : Nat → Option Nat) (r x d : Nat) : Prop := up par d x = some r

/-- A walk along `n` edges. -/
inductive Walk (par : Nat → Option Nat) : Nat → Nat → Nat → Prop where
  | here (x : Nat) : Walk par 0 x x
  | up {n x p y : Nat} : par x = some p → Walk par n p y → Walk par (n + 1) x y
  | down {n x c y : Nat} : par c = some x → Walk par n c y → Walk par (n + 1) x y

/-- The number of edges of a shortest walk. -/
def IsDist (par : Nat → Option Nat) (x y n : Nat) : Prop := IsLeast {k | Walk par k x y} n

end Tree.Spec
