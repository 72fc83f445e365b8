import Verif.Model.SegmentTree

/-!
# Model of `SegmentTree<ValueType>`, /repo/src/include/graph/SegmentTree.h, for `double` values

The same functions as in `Model/SegmentTree.lean` without any assumption on the arithmetic: `ValueType` is a type with the
operations the code uses, and nothing is known about them.  Instantiated with `Cpp.Dbl` (binary64).  Node numbers and positions do
not overflow (precondition: `4 * size` fits an `int`).
-/

namespace SegmentTree
open Cpp

variable {D : Type} [Add D] [Mul D] [IntCast D] [LT D] [DecidableLT D]

omit [Add D] [Mul D] [IntCast D] in
/-- `std::min(a, b)`, as used in SegmentTree.h:70, 152-153: the second if it is less, else the first. -/
def stdMin (a b : D) : D := if b < a then b else a

omit [Add D] [Mul D] [IntCast D] in
/-- `std::max(a, b)`, as used in SegmentTree.h:71, 134-135: the second if the first is less, else the first. -/
def stdMax (a b : D) : D := if a < b then b else a

omit [Mul D] [IntCast D] in
/-- `init(v, l, r, o)`, SegmentTree.h:57-73. -/
def initD (v : List D) : Nat → Int → Int → Nat → Seg D → Out (Seg D)
  | 0, _, _, _, _ => .diverge
  | fuel + 1, l, r, o, t =>
    if l = r then do
      let x ← elemAt v l
      let nd ← t.at o
      t.put o { nd with mn := x, mx := x, sm := x, hasAdd := false, hasMul := false }
    else do
      let mid := (l + r) / 2
      let t ← initD v fuel l mid (2 * o) t
      let t ← initD v fuel (mid + 1) r (2 * o + 1) t
      let a ← t.at (2 * o)
      let b ← t.at (2 * o + 1)
      let nd ← t.at o
      t.put o { nd with mn := stdMin a.mn b.mn, mx := stdMax a.mx b.mx, sm := a.sm + b.sm }

omit [Mul D] in
/-- `SegmentTree(v)`, SegmentTree.h:42-54.  The vectors are filled with `v[0]`. -/
def buildD (fuel : Nat) (v : List D) : Out (Seg D) :=
  let x := v.headD ((0 : Int) : D)
  initD v fuel 0 ((v.length : Int) - 1) 1 ⟨v.length, fun _ => ⟨x, x, x, x, x, false, false⟩⟩

omit [Add D] [IntCast D] [LT D] [DecidableLT D] in
/-- SegmentTree.h:83-89 (left child) and 91-97 (right child): a pending factor is passed to a child. -/
def pushMulD (m : D) (c : Node D) : Node D :=
  { c with
    mul := if c.hasMul then c.mul * m else m
    hasMul := true
    add := if c.hasAdd then c.add * m else c.add }

omit [Mul D] [IntCast D] [LT D] [DecidableLT D] in
/-- SegmentTree.h:105-110 and 111-116: a pending summand is passed to a child. -/
def pushAddD (a : D) (c : Node D) : Node D :=
  { c with add := if c.hasAdd then c.add + a else a, hasAdd := true }

omit [Add D] [IntCast D] [LT D] [DecidableLT D] in
/-- `update(o, l, r)`, SegmentTree.h:76-98, the pending factor. -/
def updateMulD (t : Seg D) (o : Nat) (nd : Node D) : Out (Seg D) := do
  let t ← t.put o { nd with
    hasMul := false, mn := nd.mn * nd.mul, mx := nd.mx * nd.mul, sm := nd.sm * nd.mul }
  let t ← t.put (2 * o) (pushMulD nd.mul (← t.at (2 * o)))
  t.put (2 * o + 1) (pushMulD nd.mul (← t.at (2 * o + 1)))

omit [LT D] [DecidableLT D] in
/-- `update(o, l, r)`, SegmentTree.h:100-117, the pending summand. -/
def updateAddD (t : Seg D) (o : Nat) (l r : Int) (nd : Node D) : Out (Seg D) := do
  let t ← t.put o { nd with
    hasAdd := false, mn := nd.mn + nd.add, mx := nd.mx + nd.add,
    sm := nd.sm + nd.add * ((r - l + 1 : Int) : D) }
  let t ← t.put (2 * o) (pushAddD nd.add (← t.at (2 * o)))
  t.put (2 * o + 1) (pushAddD nd.add (← t.at (2 * o + 1)))

omit [LT D] [DecidableLT D] in
/-- `update(o, l, r)`, SegmentTree.h:76-118. -/
def updateD (t : Seg D) (o : Nat) (l r : Int) : Out (Seg D) := do
  let nd ← t.at o
  let t ← (if nd.hasMul then updateMulD t o nd else .ok t)
  let nd ← t.at o
  if nd.hasAdd then updateAddD t o l r nd else .ok t

omit [LT D] [DecidableLT D] in
/-- The recursion shared by `queryMax` (SegmentTree.h:126-136), `queryMin` (144-154) and `querySum` (162-171). -/
def queryD (sel : Node D → D) (comb : D → D → D) (lv rv : Int) :
    Nat → Int → Int → Nat → Seg D → Out (Seg D × D)
  | 0, _, _, _, _ => .diverge
  | fuel + 1, l, r, o, t => do
    let t ← updateD t o l r
    if lv ≤ l ∧ rv ≥ r then do
      let nd ← t.at o
      .ok (t, sel nd)
    else
      let mid := (l + r) / 2
      if rv ≤ mid then queryD sel comb lv rv fuel l mid (2 * o) t
      else if lv > mid then queryD sel comb lv rv fuel (mid + 1) r (2 * o + 1) t
      else do
        let (t, x) ← queryD sel comb lv rv fuel l mid (2 * o) t
        let (t, y) ← queryD sel comb lv rv fuel (mid + 1) r (2 * o + 1) t
        .ok (t, comb x y)

/-- `queryMax(lv, rv)`, SegmentTree.h:121-136. -/
def queryMaxD (fuel : Nat) (t : Seg D) (lv rv : Int) : Out (Seg D × D) :=
  queryD Node.mx stdMax lv rv fuel 0 ((t.size : Int) - 1) 1 t

/-- `queryMin(lv, rv)`, SegmentTree.h:139-154. -/
def queryMinD (fuel : Nat) (t : Seg D) (lv rv : Int) : Out (Seg D × D) :=
  queryD Node.mn stdMin lv rv fuel 0 ((t.size : Int) - 1) 1 t

omit [LT D] [DecidableLT D] in
/-- `querySum(lv, rv)`, SegmentTree.h:157-171. -/
def querySumD (fuel : Nat) (t : Seg D) (lv rv : Int) : Out (Seg D × D) :=
  queryD Node.sm (· + ·) lv rv fuel 0 ((t.size : Int) - 1) 1 t

omit [LT D] [DecidableLT D] in
/-- The recursion shared by `addInterval` (SegmentTree.h:179-191) and `mulInterval` (199-211). -/
def changeD (tag : Node D → Node D) (lv rv : Int) : Nat → Int → Int → Nat → Seg D → Out (Seg D)
  | 0, _, _, _, _ => .diverge
  | fuel + 1, l, r, o, t => do
    let t ← updateD t o l r
    if lv ≤ l ∧ rv ≥ r then do
      let nd ← t.at o
      t.put o (tag nd)
    else
      let mid := (l + r) / 2
      let t ← (if lv ≤ mid then changeD tag lv rv fuel l mid (2 * o) t else .ok t)
      if rv > mid then changeD tag lv rv fuel (mid + 1) r (2 * o + 1) t else .ok t

omit [LT D] [DecidableLT D] in
/-- `addInterval(lv, rv, x)`, SegmentTree.h:174-191. -/
def addIntervalD (fuel : Nat) (t : Seg D) (lv rv : Int) (x : D) : Out (Seg D) :=
  changeD (fun nd => { nd with add := x, hasAdd := true }) lv rv fuel 0 ((t.size : Int) - 1) 1 t

omit [LT D] [DecidableLT D] in
/-- `mulInterval(lv, rv, x)`, SegmentTree.h:194-211. -/
def mulIntervalD (fuel : Nat) (t : Seg D) (lv rv : Int) (x : D) : Out (Seg D) :=
  changeD (fun nd => { nd with mul := x, hasMul := true }) lv rv fuel 0 ((t.size : Int) - 1) 1 t

end SegmentTree
