import Verif.Model.SegmentTree
import Mathlib.Algebra.Order.Ring.Int

/-!
# Model of `SegmentTree<int>`, /repo/src/include/graph/SegmentTree.h, with overflow

The same functions as in `Model/SegmentTree.lean` for `ValueType` = `int`: every sum and product of values that does not fit
is undefined.  `r - l + 1`, node numbers and positions do not overflow (precondition: `4 * size` fits an `int`).
-/

namespace SegmentTree
open Cpp

/-- `init(v, l, r, o)`, SegmentTree.h:57-73. -/
def initI (v : List Int) : Nat → Int → Int → Nat → Seg Int → Out (Seg Int)
  | 0, _, _, _, _ => .diverge
  | fuel + 1, l, r, o, t =>
    if l = r then do
      let x ← elemAt v l
      let nd ← t.at o
      t.put o { nd with mn := x, mx := x, sm := x, hasAdd := false, hasMul := false }
    else do
      let mid := (l + r) / 2
      let t ← initI v fuel l mid (2 * o) t
      let t ← initI v fuel (mid + 1) r (2 * o + 1) t
      let a ← t.at (2 * o)
      let b ← t.at (2 * o + 1)
      let nd ← t.at o
      let s ← int (a.sm + b.sm)
      t.put o { nd with mn := min a.mn b.mn, mx := max a.mx b.mx, sm := s }

/-- `SegmentTree(v)`, SegmentTree.h:42-54.  The vectors are filled with `v[0]`. -/
def buildI (fuel : Nat) (v : List Int) : Out (Seg Int) :=
  let x := v.headD 0
  initI v fuel 0 ((v.length : Int) - 1) 1 ⟨v.length, fun _ => ⟨x, x, x, x, x, false, false⟩⟩

/-- SegmentTree.h:83-89 (left child) and 91-97 (right child): a pending factor is passed to a child. -/
def pushMulI (m : Int) (c : Node Int) : Out (Node Int) := do
  let mul ← (if c.hasMul then int (c.mul * m) else .ok m)
  let add ← (if c.hasAdd then int (c.add * m) else .ok c.add)
  .ok { c with mul := mul, hasMul := true, add := add }

/-- SegmentTree.h:105-110 and 111-116: a pending summand is passed to a child. -/
def pushAddI (a : Int) (c : Node Int) : Out (Node Int) := do
  let add ← (if c.hasAdd then int (c.add + a) else .ok a)
  .ok { c with add := add, hasAdd := true }

/-- `update(o, l, r)`, SegmentTree.h:76-98, the pending factor. -/
def updateMulI (t : Seg Int) (o : Nat) (nd : Node Int) : Out (Seg Int) := do
  let mn ← int (nd.mn * nd.mul)
  let mx ← int (nd.mx * nd.mul)
  let sm ← int (nd.sm * nd.mul)
  let t ← t.put o { nd with hasMul := false, mn := mn, mx := mx, sm := sm }
  let t ← t.put (2 * o) (← pushMulI nd.mul (← t.at (2 * o)))
  t.put (2 * o + 1) (← pushMulI nd.mul (← t.at (2 * o + 1)))

/-- `update(o, l, r)`, SegmentTree.h:100-117, the pending summand. -/
def updateAddI (t : Seg Int) (o : Nat) (l r : Int) (nd : Node Int) : Out (Seg Int) := do
  let mn ← int (nd.mn + nd.add)
  let mx ← int (nd.mx + nd.add)
  let all ← int (nd.add * (r - l + 1))
  let sm ← int (nd.sm + all)
  let t ← t.put o { nd with hasAdd := false, mn := mn, mx := mx, sm := sm }
  let t ← t.put (2 * o) (← pushAddI nd.add (← t.at (2 * o)))
  t.put (2 * o + 1) (← pushAddI nd.add (← t.at (2 * o + 1)))

/-- `update(o, l, r)`, SegmentTree.h:76-118. -/
def updateI (t : Seg Int) (o : Nat) (l r : Int) : Out (Seg Int) := do
  let nd ← t.at o
  let t ← (if nd.hasMul then updateMulI t o nd else .ok t)
  let nd ← t.at o
  if nd.hasAdd then updateAddI t o l r nd else .ok t

/-- The recursion shared by `queryMax` (SegmentTree.h:126-136), `queryMin` (144-154) and `querySum` (162-171). -/
def queryI (sel : Node Int → Int) (comb : Int → Int → Out Int) (lv rv : Int) :
    Nat → Int → Int → Nat → Seg Int → Out (Seg Int × Int)
  | 0, _, _, _, _ => .diverge
  | fuel + 1, l, r, o, t => do
    let t ← updateI t o l r
    if lv ≤ l ∧ rv ≥ r then do
      let nd ← t.at o
      .ok (t, sel nd)
    else
      let mid := (l + r) / 2
      if rv ≤ mid then queryI sel comb lv rv fuel l mid (2 * o) t
      else if lv > mid then queryI sel comb lv rv fuel (mid + 1) r (2 * o + 1) t
      else do
        let (t, x) ← queryI sel comb lv rv fuel l mid (2 * o) t
        let (t, y) ← queryI sel comb lv rv fuel (mid + 1) r (2 * o + 1) t
        .ok (t, ← comb x y)

/-- `queryMax(lv, rv)`, SegmentTree.h:121-136. -/
def queryMaxI (fuel : Nat) (t : Seg Int) (lv rv : Int) : Out (Seg Int × Int) :=
  queryI Node.mx (fun x y => .ok (max x y)) lv rv fuel 0 ((t.size : Int) - 1) 1 t

/-- `queryMin(lv, rv)`, SegmentTree.h:139-154. -/
def queryMinI (fuel : Nat) (t : Seg Int) (lv rv : Int) : Out (Seg Int × Int) :=
  queryI Node.mn (fun x y => .ok (min x y)) lv rv fuel 0 ((t.size : Int) - 1) 1 t

/-- `querySum(lv, rv)`, SegmentTree.h:157-171. -/
def querySumI (fuel : Nat) (t : Seg Int) (lv rv : Int) : Out (Seg Int × Int) :=
  queryI Node.sm (fun x y => int (x + y)) lv rv fuel 0 ((t.size : Int) - 1) 1 t

/-- The recursion shared by `addInterval` (SegmentTree.h:179-191) and `mulInterval` (199-211). -/
def changeI (tag : Node Int → Node Int) (lv rv : Int) : Nat → Int → Int → Nat → Seg Int → Out (Seg Int)
  | 0, _, _, _, _ => .diverge
  | fuel + 1, l, r, o, t => do
    let t ← updateI t o l r
    if lv ≤ l ∧ rv ≥ r then do
      let nd ← t.at o
      t.put o (tag nd)
    else
      let mid := (l + r) / 2
      let t ← (if lv ≤ mid then changeI tag lv rv fuel l mid (2 * o) t else .ok t)
      if rv > mid then changeI tag lv rv fuel (mid + 1) r (2 * o + 1) t else .ok t

/-- `addInterval(lv, rv, x)`, SegmentTree.h:174-191. -/
def addIntervalI (fuel : Nat) (t : Seg Int) (lv rv : Int) (x : Int) : Out (Seg Int) :=
  changeI (fun nd => { nd with add := x, hasAdd := true }) lv rv fuel 0 ((t.size : Int) - 1) 1 t

/-- `mulInterval(lv, rv, x)`, SegmentTree.h:194-211. -/
def mulIntervalI (fuel : Nat) (t : Seg Int) (lv rv : Int) (x : Int) : Out (Seg Int) :=
  changeI (fun nd => { nd with mul := x, hasMul := true }) lv rv fuel 0 ((t.size : Int) - 1) 1 t

end SegmentTree
