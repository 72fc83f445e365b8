import Verif.Cpp
import Mathlib.Algebra.Order.Ring.Defs
import Mathlib.Data.Int.Cast.Defs

/-!
# Model of `class SegmentTree<ValueType>`, /repo/src/include/graph/SegmentTree.h

`ValueType` is an ordered commutative ring: arithmetic is exact (no overflow, no rounding).  The seven
vectors have the same length `4 * size`; they are modelled by one vector of records.  An access beyond the
length is undefined.  Node numbers are `Nat`s and positions are `Int`s without overflow (precondition:
`4 * size` fits an `int`).  Recursion depth is bounded by fuel.
-/

namespace SegmentTree
open Cpp

variable {α : Type} [CommRing α] [LinearOrder α]

/-- The entries at one index of the seven vectors, SegmentTree.h:29-35. -/
structure Node (α : Type) where
  mn : α
  mx : α
  sm : α
  add : α
  mul : α
  hasAdd : Bool
  hasMul : Bool

/-- The data members, SegmentTree.h:29-36. -/
structure Seg (α : Type) where
  size : Nat
  node : Nat → Node α

omit [CommRing α] [LinearOrder α] in
/-- Reading the vectors at index `o`. -/
def Seg.at (t : Seg α) (o : Nat) : Out (Node α) := if o < 4 * t.size then .ok (t.node o) else .ub

omit [CommRing α] [LinearOrder α] in
/-- Writing the vectors at index `o`. -/
def Seg.put (t : Seg α) (o : Nat) (nd : Node α) : Out (Seg α) :=
  if o < 4 * t.size then .ok { t with node := fun x => if x = o then nd else t.node x } else .ub

omit [CommRing α] [LinearOrder α] in
/-- `v[l]`. -/
def elemAt (v : List α) (l : Int) : Out α :=
  if 0 ≤ l then (match v[l.toNat]? with | some x => .ok x | none => .ub) else .ub

/-- `init(v, l, r, o)`, SegmentTree.h:57-73. -/
def init (v : List α) : Nat → Int → Int → Nat → Seg α → Out (Seg α)
  | 0, _, _, _, _ => .diverge
  | fuel + 1, l, r, o, t =>
    if l = r then do
      let x ← elemAt v l
      let nd ← t.at o
      t.put o { nd with mn := x, mx := x, sm := x, hasAdd := false, hasMul := false }
    else do
      let mid := (l + r) / 2
      let t ← init v fuel l mid (2 * o) t
      let t ← init v fuel (mid + 1) r (2 * o + 1) t
      let a ← t.at (2 * o)
      let b ← t.at (2 * o + 1)
      let nd ← t.at o
      t.put o { nd with mn := min a.mn b.mn, mx := max a.mx b.mx, sm := a.sm + b.sm }

/-- `SegmentTree(v)`, SegmentTree.h:42-54.  The vectors are filled with `v[0]`. -/
def build (fuel : Nat) (v : List α) : Out (Seg α) :=
  let x := v.headD 0
  init v fuel 0 ((v.length : Int) - 1) 1 ⟨v.length, fun _ => ⟨x, x, x, x, x, false, false⟩⟩

omit [LinearOrder α] in
/-- SegmentTree.h:83-89 (left child) and 91-97 (right child): a pending factor is passed to a child. -/
def pushMul (m : α) (c : Node α) : Node α :=
  { c with
    mul := if c.hasMul then c.mul * m else m
    hasMul := true
    add := if c.hasAdd then c.add * m else c.add }

omit [LinearOrder α] in
/-- SegmentTree.h:105-110 and 111-116: a pending summand is passed to a child. -/
def pushAdd (a : α) (c : Node α) : Node α :=
  { c with add := if c.hasAdd then c.add + a else a, hasAdd := true }

omit [LinearOrder α] in
/-- `update(o, l, r)`, SegmentTree.h:76-118. -/
def update (t : Seg α) (o : Nat) (l r : Int) : Out (Seg α) := do
  let nd ← t.at o
  let t ← (if nd.hasMul then do
      let t ← t.put o { nd with
        hasMul := false, mn := nd.mn * nd.mul, mx := nd.mx * nd.mul, sm := nd.sm * nd.mul }
      let c ← t.at (2 * o)
      let t ← t.put (2 * o) (pushMul nd.mul c)
      let c ← t.at (2 * o + 1)
      t.put (2 * o + 1) (pushMul nd.mul c)
    else .ok t)
  let nd ← t.at o
  if nd.hasAdd then do
    let t ← t.put o { nd with
      hasAdd := false, mn := nd.mn + nd.add, mx := nd.mx + nd.add,
      sm := nd.sm + nd.add * ((r - l + 1 : Int) : α) }
    let c ← t.at (2 * o)
    let t ← t.put (2 * o) (pushAdd nd.add c)
    let c ← t.at (2 * o + 1)
    t.put (2 * o + 1) (pushAdd nd.add c)
  else .ok t

omit [LinearOrder α] in
/-- The recursion shared by `queryMax` (SegmentTree.h:126-136), `queryMin` (144-154) and `querySum`
(162-171).  C++ leaves the order in which the two operands are evaluated open; here it is left to right
(the two calls touch disjoint parts of the vectors). -/
def query (sel : Node α → α) (comb : α → α → α) (lv rv : Int) :
    Nat → Int → Int → Nat → Seg α → Out (Seg α × α)
  | 0, _, _, _, _ => .diverge
  | fuel + 1, l, r, o, t => do
    let t ← update t o l r
    if lv ≤ l ∧ rv ≥ r then do
      let nd ← t.at o
      .ok (t, sel nd)
    else
      let mid := (l + r) / 2
      if rv ≤ mid then query sel comb lv rv fuel l mid (2 * o) t
      else if lv > mid then query sel comb lv rv fuel (mid + 1) r (2 * o + 1) t
      else do
        let (t, x) ← query sel comb lv rv fuel l mid (2 * o) t
        let (t, y) ← query sel comb lv rv fuel (mid + 1) r (2 * o + 1) t
        .ok (t, comb x y)

/-- `queryMax(lv, rv)`, SegmentTree.h:121-136. -/
def queryMax (fuel : Nat) (t : Seg α) (lv rv : Int) : Out (Seg α × α) :=
  query Node.mx max lv rv fuel 0 ((t.size : Int) - 1) 1 t

/-- `queryMin(lv, rv)`, SegmentTree.h:139-154. -/
def queryMin (fuel : Nat) (t : Seg α) (lv rv : Int) : Out (Seg α × α) :=
  query Node.mn min lv rv fuel 0 ((t.size : Int) - 1) 1 t

omit [LinearOrder α] in
/-- `querySum(lv, rv)`, SegmentTree.h:157-171. -/
def querySum (fuel : Nat) (t : Seg α) (lv rv : Int) : Out (Seg α × α) :=
  query Node.sm (· + ·) lv rv fuel 0 ((t.size : Int) - 1) 1 t

omit [LinearOrder α] in
/-- The recursion shared by `addInterval` (SegmentTree.h:179-191) and `mulInterval` (199-211); `tag`
stores the summand or factor at a covered node. -/
def change (tag : Node α → Node α) (lv rv : Int) : Nat → Int → Int → Nat → Seg α → Out (Seg α)
  | 0, _, _, _, _ => .diverge
  | fuel + 1, l, r, o, t => do
    let t ← update t o l r
    if lv ≤ l ∧ rv ≥ r then do
      let nd ← t.at o
      t.put o (tag nd)
    else
      let mid := (l + r) / 2
      let t ← (if lv ≤ mid then change tag lv rv fuel l mid (2 * o) t else .ok t)
      if rv > mid then change tag lv rv fuel (mid + 1) r (2 * o + 1) t else .ok t

omit [LinearOrder α] in
/-- `addInterval(lv, rv, x)`, SegmentTree.h:174-191. -/
def addInterval (fuel : Nat) (t : Seg α) (lv rv : Int) (x : α) : Out (Seg α) :=
  change (fun nd => { nd with add := x, hasAdd := true }) lv rv fuel 0 ((t.size : Int) - 1) 1 t

omit [LinearOrder α] in
/-- `mulInterval(lv, rv, x)`, SegmentTree.h:194-211. -/
def mulInterval (fuel : Nat) (t : Seg α) (lv rv : Int) (x : α) : Out (Seg α) :=
  change (fun nd => { nd with mul := x, hasMul := true }) lv rv fuel 0 ((t.size : Int) - 1) 1 t

end SegmentTree
