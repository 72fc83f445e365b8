import Verif.Model.JsonApi
import Verif.Model.Double

/-!
# Model of the conversions and of the range-based loops of `JSONObject`

/repo/src/include/json/Json.h:15-52, 122-171, 205-254, 438-511, /repo/src/json/Json.cpp:399-427
-/

namespace Json
open Cpp

/-- Conversion of an integer of any type to `int`: modulo 2^32 (implementation-defined before C++20). -/
def intOf (i : Int) : Int := (i + 2 ^ 31) % 2 ^ 32 - 2 ^ 31

/-- The constructor for integral types, Json.h:138-143, and the assignment, Json.h:219-226.  `char` is such a type. -/
def ofIntegral (i : Int) : Value := .int (intOf i)

/-- Exponent of the last bit of the significand of a `float` close to `x > 0`: 24 significant bits, but no bit below
`2^-149`. -/
def lastBit32 (x : ℚ) : Int := max (Int.log 2 x - 23) (-149)

/-- A non-negative number rounded to 24 significant bits, ties to even. -/
def flt32Pos (x : ℚ) : ℚ := roundTiesEven (x / 2 ^ lastBit32 x) * 2 ^ lastBit32 x

/-- A number rounded to 24 significant bits. -/
def flt32 (x : ℚ) : ℚ := if x < 0 then -flt32Pos (-x) else flt32Pos x

/-- The values of type `float` that matter here. -/
inductive Flt where
  | inf (neg : Bool)
  | fin (q : ℚ)
  deriving DecidableEq

/-- The constructor for floating point types, Json.h:150-154, and the assignment, Json.h:234-239, with a finite `float` or
`double`: the conversion to `double` is exact. -/
def ofFloating (q : ℚ) : Value := .float q

/-- `toFloat()`, Json.cpp:407-409, and `operator float()`, Json.cpp:421: round to nearest, infinite from `2^128` on. -/
def toFloat : Value → Flt
  | .float q => if 2 ^ 128 ≤ |flt32 q| then .inf (decide (q < 0)) else .fin (flt32 q)
  | _ => .fin 0

/-! ### Loops -/

/-- An iterator of a container: a position in it, or an iterator of no container, `Container::iterator()`. -/
inductive Iter where
  | none
  | pos (i : Nat)
  deriving DecidableEq

/-- A `JSONIterator` or `JSONConstIterator`, Json.h:18-52: the container or a null pointer. -/
abbrev Range (α : Type) := Option (List α)

/-- `begin()`, Json.h:25-27, and that of `JSONConstIterator`, Json.h:46-48. -/
def Range.begin {α : Type} : Range α → Iter
  | .none => .none
  | .some _ => .pos 0

/-- `end()`, Json.h:28-30, and that of `JSONConstIterator`, Json.h:49-51. -/
def Range.end {α : Type} : Range α → Iter
  | .none => .none
  | .some l => .pos l.length

/-- `begin() const` of `JSONIterator`, Json.h:31: on a const object the call `begin()` is a call of the same function. -/
def Range.beginConst {α : Type} (r : Range α) : Nat → Out Iter
  | 0 => .diverge
  | fuel + 1 => r.beginConst fuel

/-- `end() const` of `JSONIterator`, Json.h:32. -/
def Range.endConst {α : Type} (r : Range α) : Nat → Out Iter
  | 0 => .diverge
  | fuel + 1 => r.endConst fuel

/-- `for (auto& x : r) body`: from `it` on.  The body changes the element and a state; it does not change the size of the
container.  The result: the state, the elements afterwards. -/
def Range.loop {α σ : Type} (body : σ → α → Out (σ × α)) (stop : Iter) : Nat → Iter → σ → Range α → Out (σ × Range α)
  | 0, _, _, _ => .diverge
  | fuel + 1, it, st, r =>
    if it = stop then .ok (st, r) else
    match it, r with
    | .pos i, .some l => do
      match l[i]? with
      | .none => .ub
      | .some x => do
        let (st, x) ← body st x
        Range.loop body stop fuel (.pos (i + 1)) st (.some (l.set i x))
    | _, _ => .ub

/-- `for (auto& x : r) body`. -/
def Range.forEach {α σ : Type} (fuel : Nat) (r : Range α) (body : σ → α → Out (σ × α)) (st : σ) : Out (σ × Range α) :=
  Range.loop body r.end fuel r.begin st r

/-- `ArrayRange()`, Json.h:467-471, 501-505. -/
def arrayRange : Value → Range Value
  | .arr l => .some l
  | _ => .none

/-- `ObjectRange()`, Json.h:451-455, 484-488. -/
def objectRange : Value → Range (Str × Value)
  | .obj m => .some m
  | _ => .none

end Json
