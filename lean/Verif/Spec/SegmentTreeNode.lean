import Verif.Model.SegmentTreeNode

/-! # Nodes of a segment tree and the calls that take one -/

namespace SegmentTree.Spec
open Cpp

variable {α : Type} [CommRing α] [LinearOrder α]

/-- Node `o` of a tree of size `n` stands for the positions `l..r`. -/
inductive NodeOf (n : Nat) : Int → Int → Nat → Prop
  | root : NodeOf n 0 ((n : Int) - 1) 1
  | left (l r : Int) (o : Nat) (h : NodeOf n l r o) (hlr : l < r) : NodeOf n l ((l + r) / 2) (2 * o)
  | right (l r : Int) (o : Nat) (h : NodeOf n l r o) (hlr : l < r) : NodeOf n ((l + r) / 2 + 1) r (2 * o + 1)

omit [CommRing α] [LinearOrder α] in
/-- The call restricted to the positions `l..r`. -/
def clip (l r : Int) : Op α → Op α
  | .add lv rv x => .add (max lv l) (min rv r) x
  | .mul lv rv x => .mul (max lv l) (min rv r) x
  | .max lv rv => .max (max lv l) (min rv r)
  | .min lv rv => .min (max lv l) (min rv r)
  | .sum lv rv => .sum (max lv l) (min rv r)

omit [CommRing α] [LinearOrder α] in
/-- The short call that a call is expected to equal; `init` has none. -/
def short : Call α → Option (Op α)
  | .op c => some c
  | .node l r _ c => some (clip l r c)
  | .init _ => none

omit [LinearOrder α] in
/-- The array after one call. -/
def applyCall (v : List α) : Call α → List α
  | .op c => apply v c
  | .node l r _ c => apply v (clip l r c)
  | .init w => w

omit [LinearOrder α] in
/-- The array after a program. -/
def valuesOf (v : List α) (cs : List (Call α)) : List α := cs.foldl applyCall v

omit [CommRing α] [LinearOrder α] in
/-- Which positions are settled after a call, given those settled before: a query for one position settles it, an update
unsettles its positions, `init` settles all. -/
def settles (S : Int → Prop) (c : Call α) (p : Int) : Prop :=
  match short c with
  | some (.add lv rv _) | some (.mul lv rv _) => S p ∧ (p < lv ∨ rv < p)
  | some (.max lv rv) | some (.min lv rv) | some (.sum lv rv) => S p ∨ (lv = p ∧ rv = p)
  | none => True

omit [CommRing α] [LinearOrder α] in
/-- The calls a client may expect to be right: a short call in range; a call with a node of the tree, for an interval that has
positions there; `init` with a vector of the same size. -/
def Call.Valid (n : Nat) : Call α → Prop
  | .op c => Op.InRange n c
  | .node l r o c => NodeOf n l r o ∧ Op.InRange n (clip l r c)
  | .init w => w.length = n

omit [CommRing α] [LinearOrder α] in
/-- The calls that are right: a short call in range; a call with a node of the tree, for an interval that has positions there,
if one of the positions of the node is settled; `init` with a vector of the same size if all positions are settled. -/
def Call.Right (n : Nat) (S : Int → Prop) : Call α → Prop
  | .op c => Op.InRange n c
  | .node l r o c => NodeOf n l r o ∧ Op.InRange n (clip l r c) ∧ ∃ p, S p ∧ l ≤ p ∧ p ≤ r
  | .init w => w.length = n ∧ ∀ p : Int, 0 ≤ p → p < n → S p

omit [CommRing α] [LinearOrder α] in
/-- Programs all calls of which are right.  In a new tree all positions are settled. -/
def AllRight (n : Nat) : (Int → Prop) → List (Call α) → Prop
  | _, [] => True
  | S, c :: cs => Call.Right n S c ∧ AllRight n (settles S c) cs

omit [CommRing α] [LinearOrder α] in
/-- The positions settled after a program. -/
def settledBy (S : Int → Prop) (cs : List (Call α)) : Int → Prop := cs.foldl settles S

omit [CommRing α] [LinearOrder α] in
def Call.Respects (a b : Int) (c : Call α) : Prop := ∀ op ∈ short c, Op.Respects a b op

omit [CommRing α] [LinearOrder α] in
/-- Every update contains `a..b` or is apart from it, or `init` comes later. -/
def Undisturbed (a b : Int) (cs : List (Call α)) : Prop :=
  ∀ pre c post, cs = pre ++ c :: post → Call.Respects a b c ∨ ∃ w, Call.init w ∈ post

def Call.NonNeg (c : Call α) : Prop := ∀ op ∈ short c, Op.NonNeg op

end SegmentTree.Spec
