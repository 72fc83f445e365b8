import Verif.Model.FloatText

/-!
# Model of `>>` for `Vector<float>`, /repo/src/include/containers/Vector.h:403-430

As for `Vector<double>` in `Model/DoubleText.lean`, with the extraction of a `float`.  `<<` (Vector.h:389-401) writes a `float` as the
`double` it converts to, so `printVectorD` writes the Vector.
-/

namespace Stream
open Cpp

/-- The loop of `operator>>`, Vector.h:414-428, for `float`; `fuel` bounds the number of rounds. -/
def readLoopF : Nat → IStream → Option Byte → List Json.F64 → Out (List Json.F64 × IStream)
  | 0, _, _, _ => .diverge
  | fuel + 1, is, ch, vec => do
    let (value, is) := is.getFloat none
    let vec := vec ++ [← use value]
    let (ch, is) := is.getChar ch
    if is.eof then .exit else
    let c ← use ch
    if c = byte '}' then .ok (vec, is)
    else if c ≠ byte ',' then .exit
    else readLoopF fuel is ch vec

/-- `operator>>` for `Vector<float>`, Vector.h:403-430: the new contents of the Vector and the stream afterwards. -/
def readVectorF (is : IStream) : Out (List Json.F64 × IStream) := do
  let (ch, is) := is.getChar none
  if (← use ch) ≠ byte '{' then .exit else
  let (ch, is) := is.getChar ch
  if (← use ch) ≠ byte '}' then
    let is := is.unget
    readLoopF (is.rest.length + 2) is ch []
  else .ok ([], is)

end Stream
