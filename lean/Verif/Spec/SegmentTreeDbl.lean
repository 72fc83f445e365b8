import Verif.Spec.SegmentTree
import Verif.Model.SegmentTreeDbl

/-! # Histories of calls on a `SegmentTree<double>` -/

namespace SegmentTree
open Cpp

variable {D : Type} [Add D] [Mul D] [IntCast D] [LT D] [DecidableLT D]

/-- The call on the model; the value returned by a query is dropped. -/
def execD (fuel : Nat) (t : Seg D) : Op D → Out (Seg D)
  | .add lv rv x => addIntervalD fuel t lv rv x
  | .mul lv rv x => mulIntervalD fuel t lv rv x
  | .max lv rv => do let (t, _) ← queryMaxD fuel t lv rv; .ok t
  | .min lv rv => do let (t, _) ← queryMinD fuel t lv rv; .ok t
  | .sum lv rv => do let (t, _) ← querySumD fuel t lv rv; .ok t

/-- A history: build the tree, then make the calls in order. -/
def runD (fuel : Nat) (v : List D) (ops : List (Op D)) : Out (Seg D) := do
  let t ← buildD fuel v
  ops.foldlM (execD fuel) t

namespace Spec

/-- The same call with the summand or factor converted. -/
def Op.map {α β : Type} (f : α → β) : Op α → Op β
  | .add lv rv x => .add lv rv (f x)
  | .mul lv rv x => .mul lv rv (f x)
  | .max lv rv => .max lv rv
  | .min lv rv => .min lv rv
  | .sum lv rv => .sum lv rv

end Spec
end SegmentTree
