import Verif.Model.Kmp

/-!
# The characters of the text that kmpSearch looks at, /repo/src/algorithm/kmp.cpp

The same loops as in `Model/Kmp.lean`, with the list of the indices `m` for which `base[m]` is evaluated.
-/

namespace Kmp
open Cpp

/-- The loop `while (m < bsize && i < psize)`, kmp.cpp:32-39; returns the final `(m, i)` and the indices at which `base` is read
(kmp.cpp:33), in their order. -/
def scanReads (base pattern : Str) (bsize psize : Int) (next : Arr Int) :
    Nat → Int → Int → Out ((Int × Int) × List Int)
  | 0, _, _ => .diverge
  | fuel + 1, m, i =>
    if m < bsize ∧ i < psize then
      if i = -1 then scanReads base pattern bsize psize next fuel (m + 1) (i + 1)
      else do
        let a ← strAt base m
        let b ← strAt pattern i
        if a = b then do
          let (r, l) ← scanReads base pattern bsize psize next fuel (m + 1) (i + 1)
          .ok (r, m :: l)
        else do
          let i ← next.get i
          let (r, l) ← scanReads base pattern bsize psize next fuel m i
          .ok (r, m :: l)
    else .ok ((m, i), [])

/-- `kmpSearch(base, pattern, start)`, kmp.cpp:7-42, with the indices at which the second loop reads `base`. -/
def kmpReads (fuel : Nat) (base pattern : Str) (start : Nat) : Out (Int × List Int) := do
  let psize := toInt pattern.length
  let next : Arr Int := Arr.new psize.toNat
  let next ← next.set 0 (-1)
  let next ← buildNext pattern psize fuel next 0 (-1)
  let m := toInt start
  let bsize := toInt base.length
  let ((m, i), l) ← scanReads base pattern bsize psize next fuel m 0
  if i = psize then .ok (m - i, l) else .ok (-1, l)

end Kmp
