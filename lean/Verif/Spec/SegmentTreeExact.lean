import Verif.Spec.SegmentTree

/-! # Segment trees: what the queries return after any history

The positions are halved again and again.  Each interval met on the way (a block) keeps one aggregate of its own.
An update changes the aggregate of exactly those blocks that lie inside the updated interval.  A query joins the
aggregates of the blocks into which its interval is cut. -/

namespace SegmentTree
namespace Spec

variable {α : Type} [CommRing α]

omit [CommRing α] in
/-- The blocks below `l..r` into which the positions `a..b` are cut: `l..r` itself if it lies inside, else those of
its two halves. -/
def cut (a b l r : Int) : List (Int × Int) :=
  if a ≤ l ∧ r ≤ b then [(l, r)]
  else if l < r ∧ a ≤ r ∧ l ≤ b then cut a b l ((l + r) / 2) ++ cut a b ((l + r) / 2 + 1) r
  else []
termination_by (r - l).toNat
decreasing_by all_goals omega

/-- One call seen by the block `l..r`, whose aggregate is `s`: a summand counts `k` times. -/
def touch (k : α) (l r : Int) (s : α) : Op α → α
  | .add lv rv x => if lv ≤ l ∧ r ≤ rv then s + x * k else s
  | .mul lv rv x => if lv ≤ l ∧ r ≤ rv then s * x else s
  | _ => s

/-- The aggregate kept by the block `l..r` after a history, from the aggregate `s` of the initial values. -/
def kept (k : α) (ops : List (Op α)) (l r : Int) (s : α) : α := ops.foldl (touch k l r) s

end Spec
end SegmentTree
