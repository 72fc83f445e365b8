import Verif.Spec.SegmentTree
import Verif.Model.SegmentTreeInt

/-! # Histories of calls on a `SegmentTree<int>` -/

namespace SegmentTree
open Cpp

/-- The call on the model with overflow; the value returned by a query is dropped. -/
def execI (fuel : Nat) (t : Seg Int) : Op Int → Out (Seg Int)
  | .add lv rv x => addIntervalI fuel t lv rv x
  | .mul lv rv x => mulIntervalI fuel t lv rv x
  | .max lv rv => do let (t, _) ← queryMaxI fuel t lv rv; .ok t
  | .min lv rv => do let (t, _) ← queryMinI fuel t lv rv; .ok t
  | .sum lv rv => do let (t, _) ← querySumI fuel t lv rv; .ok t

/-- A history: build the tree, then make the calls in order. -/
def runI (fuel : Nat) (v : List Int) (ops : List (Op Int)) : Out (Seg Int) := do
  let t ← buildI fuel v
  ops.foldlM (execI fuel) t

namespace Spec

/-- All elements and all sums over intervals fit an `int`. -/
def AllFit (v : List Int) : Prop := ∀ a b : Int, InRange v.length a b → IsInt (slice v a b).sum

/-- How much a call adds (in absolute value). -/
def Op.weight : Op Int → Int
  | .add _ _ x => |x|
  | _ => 0

/-- By how much a call multiplies (in absolute value, at least 1). -/
def Op.factor : Op Int → Int
  | .mul _ _ x => Max.max 1 |x|
  | _ => 1

/-- Not a multiplication. -/
def Op.NoMul : Op Int → Prop
  | .mul _ _ _ => False
  | _ => True

end Spec
end SegmentTree
