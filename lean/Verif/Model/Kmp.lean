import Verif.Cpp

/-! # Model of /repo/src/algorithm/kmp.cpp -/

namespace Kmp
open Cpp

/-- The loop `while (j < psize - 1)` that fills the table `next`, kmp.cpp:15-27.  `fuel` bounds the
number of iterations.  The increments cannot overflow since `j, k < psize`. -/
def buildNext (pattern : Str) (psize : Int) : Nat → Arr Int → Int → Int → Out (Arr Int)
  | 0, _, _, _ => .diverge
  | fuel + 1, next, j, k =>
    if j < psize - 1 then do
      let go ← (if k = -1 then .ok true else do
        let a ← strAt pattern j
        let b ← strAt pattern k
        .ok (decide (a = b)))
      if go then do
        let j := j + 1
        let k := k + 1
        let a ← strAt pattern j
        let b ← strAt pattern k
        if a = b then do
          let v ← next.get k
          let next ← next.set j v
          buildNext pattern psize fuel next j k
        else do
          let next ← next.set j k
          buildNext pattern psize fuel next j k
      else do
        let k ← next.get k
        buildNext pattern psize fuel next j k
    else .ok next

/-- The loop `while (m < bsize && i < psize)`, kmp.cpp:32-39; returns the final `(m, i)`. -/
def scan (base pattern : Str) (bsize psize : Int) (next : Arr Int) :
    Nat → Int → Int → Out (Int × Int)
  | 0, _, _ => .diverge
  | fuel + 1, m, i =>
    if m < bsize ∧ i < psize then do
      let go ← (if i = -1 then .ok true else do
        let a ← strAt base m
        let b ← strAt pattern i
        .ok (decide (a = b)))
      if go then scan base pattern bsize psize next fuel (m + 1) (i + 1)
      else do
        let i ← next.get i
        scan base pattern bsize psize next fuel m i
    else .ok (m, i)

/-- `kmpSearch(base, pattern, start)`, kmp.cpp:7-42.  `fuel` bounds the iterations of each loop. -/
def kmpSearch (fuel : Nat) (base pattern : Str) (start : Nat) : Out Int := do
  let psize := toInt pattern.length
  let next : Arr Int := Arr.new psize.toNat
  let next ← next.set 0 (-1)
  let next ← buildNext pattern psize fuel next 0 (-1)
  let m := toInt start
  let bsize := toInt base.length
  let (m, i) ← scan base pattern bsize psize next fuel m 0
  if i = psize then .ok (m - i) else .ok (-1)

end Kmp
