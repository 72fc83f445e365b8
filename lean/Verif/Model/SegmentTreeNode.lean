import Verif.Spec.SegmentTree

/-! # The public members of `SegmentTree` that take a node, /repo/src/include/graph/SegmentTree.h

`init(v, l, r, o)` and the overloads of the queries and updates with `l, r, o` are public.  The recursions of
`Model/SegmentTree.lean` are these members; here they are calls of a client, in any order with the short ones. -/

namespace SegmentTree
open Cpp

variable {α : Type} [CommRing α] [LinearOrder α]

/-- A call of a public member: a short one, one with a node, `init`. -/
inductive Call (α : Type) where
  | op (c : Op α)
  | node (l r : Int) (o : Nat) (c : Op α)
  | init (w : List α)

/-- The overloads with a node, SegmentTree.h:126-136, 144-154, 162-171, 179-191, 199-211; the value of a query is dropped. -/
def execAt (fuel : Nat) (t : Seg α) (l r : Int) (o : Nat) : Op α → Out (Seg α)
  | .add lv rv x => change (fun nd => { nd with add := x, hasAdd := true }) lv rv fuel l r o t
  | .mul lv rv x => change (fun nd => { nd with mul := x, hasMul := true }) lv rv fuel l r o t
  | .max lv rv => do let (t, _) ← query Node.mx max lv rv fuel l r o t; .ok t
  | .min lv rv => do let (t, _) ← query Node.mn min lv rv fuel l r o t; .ok t
  | .sum lv rv => do let (t, _) ← query Node.sm (· + ·) lv rv fuel l r o t; .ok t

/-- One call; `init` is called for the whole tree, as in SegmentTree.h:53. -/
def Call.exec (fuel : Nat) (t : Seg α) : Call α → Out (Seg α)
  | .op c => SegmentTree.exec fuel t c
  | .node l r o c => execAt fuel t l r o c
  | .init w => SegmentTree.init w fuel 0 ((t.size : Int) - 1) 1 t

/-- A program: build the tree, then make the calls in order. -/
def runCalls (fuel : Nat) (v : List α) (cs : List (Call α)) : Out (Seg α) := do
  let t ← build fuel v
  cs.foldlM (Call.exec fuel) t

end SegmentTree
