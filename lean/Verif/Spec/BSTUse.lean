import Verif.Model.BSTUse
import Verif.Spec.BST

/-! # What a program that uses a tree as a dictionary should print -/

namespace BST.Spec

/-- the values with that of `p` changed to `v` -/
def upd (vl : Nat → Int) (p : Nat) (v : Int) : Nat → Int := fun q => if q = p then v else vl q

/-- `find(k)` may give `r` for a tree with the nodes `ks`: some node of rank `k`, or null if there is none. -/
def MayFind (rk : Nat → Int) (ks : List Nat) (k : Int) : Option Nat → Prop
  | some p => p ∈ ks ∧ rk p = k
  | none => ∀ p ∈ ks, rk p ≠ k

/-- The program may print `out`, for a tree with the nodes `ks` in order and the values `vl` of all nodes.  (For different ranks
there is exactly one such `out`.) -/
def May (rk : Nat → Int) : List Nat → (Nat → Int) → List Use → List (Option Int) → Prop
  | _, _, [], out => out = []
  | ks, vl, .insert p :: us, out => May rk (place rk p ks) vl us out
  | ks, vl, .erase p :: us, out => May rk (ks.erase p) vl us out
  | ks, vl, .setVal p v :: us, out => May rk ks (upd vl p v) us out
  | ks, vl, .getVal p :: us, out => ∃ o, out = some (vl p) :: o ∧ May rk ks vl us o
  | ks, vl, .getRank p :: us, out => ∃ o, out = some (rk p) :: o ∧ May rk ks vl us o
  | ks, vl, .find k :: us, out => ∃ r o, MayFind rk ks k r ∧ out = r.map vl :: o ∧ May rk ks vl us o
  | ks, vl, .findSet k v :: us, out =>
    ∃ r, MayFind rk ks k r ∧ May rk ks (match r with | some p => upd vl p v | none => vl) us out

/-- Programs that may be run: each node (`0` to `n - 1`) is inserted at most once, and only the node that is first in the order is
erased (C40 says what happens otherwise).  `used` are the nodes inserted so far. -/
def Legal (n : Nat) (rk : Nat → Int) : List Nat → List Nat → List Use → Prop
  | _, _, [] => True
  | used, ks, .insert p :: us => p < n ∧ p ∉ used ∧ Legal n rk (p :: used) (place rk p ks) us
  | used, ks, .erase p :: us => ks.head? = some p ∧ Legal n rk used ks.tail us
  | used, ks, .setVal p _ :: us => p < n ∧ Legal n rk used ks us
  | used, ks, .getVal p :: us => p < n ∧ Legal n rk used ks us
  | used, ks, .getRank p :: us => p < n ∧ Legal n rk used ks us
  | used, ks, .find _ :: us => Legal n rk used ks us
  | used, ks, .findSet _ _ :: us => Legal n rk used ks us

end BST.Spec
