import Verif.Model.Kmp

/-! # Clients that search again and again, with /repo/src/algorithm/kmp.cpp:7-42 -/

namespace Kmp
open Cpp

/-- `for (int m = kmpSearch(base, pattern, start); m != -1; m = kmpSearch(base, pattern, m + 1)) found.push_back(m);`
(kmp.cpp:7-42), at most `n` rounds. -/
def findAll (fuel : Nat) (base pattern : Str) : Nat → Nat → Out (List Int)
  | 0, _ => .diverge
  | n + 1, start => do
    let m ← kmpSearch fuel base pattern start
    if m = -1 then .ok [] else
    let found ← findAll fuel base pattern n (m + 1).toNat
    .ok (m :: found)

/-- `base.substr(pos, n)`: an exception beyond the end. -/
def substr (base : Str) (pos n : Nat) : Out Str := if base.length < pos then .exit else .ok ((base.drop pos).take n)

/-- `for (int m; (m = kmpSearch(base, pattern, pos)) != -1; pos = m + pattern.size()) out += base.substr(pos, m - pos) + by;`
`out += base.substr(pos);` (kmp.cpp:7-42), at most `n` rounds: what is appended to `out` from `pos` on. -/
def replaceAll (fuel : Nat) (base pattern by' : Str) : Nat → Nat → Out Str
  | 0, _ => .diverge
  | n + 1, pos => do
    let m ← kmpSearch fuel base pattern pos
    if m = -1 then substr base pos base.length else
    let before ← substr base pos (m - pos).toNat
    let out ← replaceAll fuel base pattern by' n (m.toNat + pattern.length)
    .ok (before ++ by' ++ out)

end Kmp
