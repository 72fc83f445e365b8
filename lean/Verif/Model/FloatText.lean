import Verif.Model.DoubleText
import Verif.Model.JsonConv

/-!
# Model of `stringCast<float>`, /repo/src/include/string_utils/StringCast.h:22-32

As `stringCast<double>` in `Model/DoubleText.lean`, with the extraction of a `float`.  A `float` is kept as the `double` it converts
to: `os << f` converts it so and writes it like a `double` (`putDouble`).
-/

namespace Stream
open Cpp

/-- `std::numeric_limits<float>::max()` -/
def FLT_MAX : ℚ := (2 ^ 24 - 1) * 2 ^ 104

/-- `is >> value` for a `float` (StringCast.h:29): the same characters as for a `double`; the nearest `float`, and beyond the range
the greatest one with `failbit` set; 0 if there is no number. -/
def IStream.getFloat (s : IStream) (value : Option Json.F64) : Option Json.F64 × IStream :=
  let (ok, s) := s.sentry
  if ok then
    let c := collect s.rest
    let s := s.take c.all.length
    let s := { s with eof := decide (s.rest = []) }
    if c.valid then
      let neg := decide (c.sign = [byte '-'])
      let r := Json.flt32 c.value
      if 2 ^ 128 ≤ r then (some ⟨neg, .fin (if neg then -FLT_MAX else FLT_MAX)⟩, { s with fail := true })
      else (some ⟨neg, .fin (if neg then -r else r)⟩, s)
    else (some ⟨false, .fin 0⟩, { s with fail := true })
  else (value, s)

/-- `stringCast<float>(src)`, StringCast.h:22-32 -/
def castFloat (src : Str) : Out Json.F64 := use (IStream.getFloat { rest := src } none).1

end Stream
