import Verif.Cpp

/-!
# Model of `gcd` and `lcm` for two integer types, /repo/src/include/math_utils/math_functions.h:23-46

`Model/MathFns.lean` has both for `int`.  Here the template arguments `IntType1` and `IntType2` may be any of the eight
standard sizes; types of the same size and signedness (`long` and `long long`) are identified.  The conversions are those of
the C++ standard, with two's complement narrowing; `int` has 32 bits.
-/

namespace GcdTypes
open Cpp

/-- The integer types, by size and signedness. -/
inductive ITy
  | i8 | u8 | i16 | u16 | i32 | u32 | i64 | u64
  deriving DecidableEq, Repr

/-- number of bits -/
def ITy.bits : ITy → Nat
  | i8 | u8 => 8
  | i16 | u16 => 16
  | i32 | u32 => 32
  | i64 | u64 => 64

/-- signed or not -/
def ITy.signed : ITy → Bool
  | i8 | i16 | i32 | i64 => true
  | u8 | u16 | u32 | u64 => false

/-- the least value -/
def ITy.min (t : ITy) : Int := if t.signed then -2 ^ (t.bits - 1) else 0

/-- the greatest value -/
def ITy.max (t : ITy) : Int := if t.signed then 2 ^ (t.bits - 1) - 1 else 2 ^ t.bits - 1

/-- `x` is a value of the type `t` -/
def ITy.In (t : ITy) (x : Int) : Prop := t.min ≤ x ∧ x ≤ t.max

instance (t : ITy) (x : Int) : Decidable (t.In x) := inferInstanceAs (Decidable (_ ∧ _))

/-- Conversion of an integer to the type `t`: the value modulo 2^bits. -/
def ITy.conv (t : ITy) (x : Int) : Int := if t.signed then x.bmod (2 ^ t.bits) else x % 2 ^ t.bits

/-- Integral promotion: smaller types become `int`. -/
def ITy.promote : ITy → ITy
  | i32 => i32
  | u32 => u32
  | i64 => i64
  | u64 => u64
  | _ => i32

/-- The usual arithmetic conversions: the type in which `a % b`, `a + b`, `a * b` are computed. -/
def arith (t u : ITy) : ITy :=
  match t.promote, u.promote with
  | .u64, _ | _, .u64 => .u64
  | .i64, _ | _, .i64 => .i64
  | .u32, _ | _, .u32 => .u32
  | _, _ => .i32

/-- `std::common_type<IntType1, IntType2>::type`, math_functions.h:25 and 44. -/
def common (t u : ITy) : ITy := if t = u then t else arith t u

/-- The result of an operation in the type `t` with the mathematical value `x`: undefined on signed overflow, modulo 2^bits
for unsigned types. -/
def ITy.op (t : ITy) (x : Int) : Out Int := if t.signed then (if t.In x then .ok x else .ub) else .ok (x % 2 ^ t.bits)

/-- `a %= b` for `a` of type `t` and `b` of type `u` (math_functions.h:27): computed in `arith t u`, converted to `t`. -/
def remAssign (t u : ITy) (a b : Int) : Out Int :=
  let c := arith t u
  let a := c.conv a
  let b := c.conv b
  if b = 0 then .ub
  else if c.signed ∧ a = c.min ∧ b = -1 then .ub
  else .ok (t.conv (a.tmod b))

/-- `return a + b;`, math_functions.h:29: computed in `arith t u`, converted to the common type. -/
def addReturn (t u : ITy) (a b : Int) : Out Int := do
  let c := arith t u
  let s ← c.op (c.conv a + c.conv b)
  .ok ((common t u).conv s)

/-- `while ((a %= b) && (b %= a)) {}  return a + b;`, math_functions.h:27-29; at most `fuel` rounds. -/
def gcdGo (t u : ITy) : Nat → Int → Int → Out Int
  | 0, _, _ => .diverge
  | fuel + 1, a, b => do
    let a ← remAssign t u a b
    if a = 0 then addReturn t u a b else
    let b ← remAssign u t b a
    if b = 0 then addReturn t u a b else gcdGo t u fuel a b

/-- `gcd(a, b)` for `a` of type `t` and `b` of type `u`, math_functions.h:23-30. -/
def gcd (t u : ITy) (fuel : Nat) (a b : Int) : Out Int := if b ≠ 0 then gcdGo t u fuel a b else addReturn t u a b

/-- `lcm(a, b)`, math_functions.h:42-46: `a * b / gcd(a, b)` in the arithmetic type, converted to the common type. -/
def lcm (t u : ITy) (fuel : Nat) (a b : Int) : Out Int := do
  let c := arith t u
  let p ← c.op (c.conv a * c.conv b)
  let g ← gcd t u fuel a b
  let g := c.conv g
  if g = 0 then .ub
  else if c.signed ∧ p = c.min ∧ g = -1 then .ub
  else .ok ((common t u).conv (p.tdiv g))

end GcdTypes
