import Verif.Cpp

/-!
# Model of the integer functions of /repo/src/include/math_utils/math_functions.h
and of /repo/src/math_utils/binary_pow.cpp

The templates are instantiated with signed integer types.  Arithmetic that may overflow goes through
a parameter `ar : Int → Out Int`, "the result of a signed operation with mathematical value `x`":
`Cpp.int` for `int`, `Cpp.int64` for `std::int64_t`, `wrap64` for wrapping hardware arithmetic.
-/

namespace MathFns
open Cpp

/-- `a % b` on `int`: truncated remainder, undefined for `b = 0` and `INT_MIN % -1`. -/
def rem (a b : Int) : Out Int :=
  if b = 0 then .ub else if a = INT_MIN ∧ b = -1 then .ub else .ok (a.tmod b)

/-- `a / b` on `int`: truncated quotient, undefined for `b = 0` and `INT_MIN / -1`. -/
def quot (a b : Int) : Out Int :=
  if b = 0 then .ub else if a = INT_MIN ∧ b = -1 then .ub else .ok (a.tdiv b)

/-- `while ((a %= b) && (b %= a)) {}  return a + b;` for `b ≠ 0`, math_functions.h:27-29. -/
def gcdLoop (a b : Int) : Out Int :=
  if _hb : b = 0 then .ub
  else if a = INT_MIN ∧ b = -1 then .ub
  else if _ha : a.tmod b = 0 then int (0 + b)
  else if b = INT_MIN ∧ a.tmod b = -1 then .ub
  else if b.tmod (a.tmod b) = 0 then int (a.tmod b + 0)
  else gcdLoop (a.tmod b) (b.tmod (a.tmod b))
termination_by b.natAbs
decreasing_by
  have h1 : (b.tmod (a.tmod b)).natAbs < (a.tmod b).natAbs := by
    rw [Int.natAbs_tmod]; exact Nat.mod_lt _ (by omega)
  have h2 : (a.tmod b).natAbs < b.natAbs := by
    rw [Int.natAbs_tmod]; exact Nat.mod_lt _ (by omega)
  omega

/-- The loop math_functions.h:27-29 again, stopped once its condition has been evaluated `k` times. -/
def gcdRounds : Nat → Int → Int → Out Int
  | 0, _, _ => .diverge
  | k + 1, a, b => do
    let a ← rem a b
    if a = 0 then int (a + b) else
    let b ← rem b a
    if b = 0 then int (a + b) else gcdRounds k a b

/-- `gcd(a, b)` for `int`, math_functions.h:23-30. -/
def gcd (a b : Int) : Out Int := if b ≠ 0 then gcdLoop a b else int (a + b)

/-- `lcm(a, b)` for `int`, math_functions.h:42-46. -/
def lcm (a b : Int) : Out Int := do
  let p ← int (a * b)
  let g ← gcd a b
  quot p g

/-- Two's complement wrap-around of 64-bit arithmetic (not ISO C++; what the hardware computes). -/
def wrap64 (x : Int) : Out Int := .ok (x.bmod (2 ^ 64))

/-- The loop of `binaryPow`, binary_pow.cpp:11-17.  `exp` is positive and halves, so it is a `Nat`. -/
def powLoop (ar : Int → Out Int) (result base : Int) (exp : Nat) : Out Int :=
  if exp = 0 then .ok result else do
    let result ← (if exp % 2 = 1 then ar (result * base) else .ok result)
    let base ← ar (base * base)
    powLoop ar result base (exp / 2)
termination_by exp

/-- `base << (exp - 1)` for `base = 2`, binary_pow.cpp:8: defined while `2 * 2^(exp-1)` is
representable in `uint64_t`, i.e. up to `exp = 63`, where the value wraps to the negative minimum. -/
def shiftTwo (exp : Nat) : Out Int :=
  if exp ≤ 62 then .ok (2 ^ exp) else if exp = 63 then .ok INT64_MIN else .ub

/-- `binaryPow(base, exp)`, binary_pow.cpp:4-19. -/
def binaryPow (ar : Int → Out Int) (base exp : Int) : Out Int :=
  if exp = 0 then .ok 1
  else if exp < 0 then .exit
  else if base = 1 then .ok 1
  else if base = 2 then shiftTwo exp.toNat
  else powLoop ar 1 base exp.toNat

/-- The loop of `genericBinaryPow`, math_functions.h:421-427, for a value type with product `mul`. -/
def genericLoop {α : Type u} (mul : α → α → Out α) (result base : α) (exp : Nat) : Out α :=
  if exp = 0 then .ok result else do
    let result ← (if exp % 2 = 1 then mul result base else .ok result)
    let base ← mul base base
    genericLoop mul result base (exp / 2)
termination_by exp

/-- `genericBinaryPow(base, exp)`, math_functions.h:409-429, for types constructible from `int`
(`one` is `BaseType{1}`). -/
def genericBinaryPow {α : Type u} (one : α) (mul : α → α → Out α) (base : α) (exp : Int) : Out α :=
  if exp = 0 then .ok one
  else if exp = 1 then .ok base
  else if exp < 0 then .exit
  else genericLoop mul base base (exp - 1).toNat

/-- `genericBinaryPow(base, exp)`, math_functions.h:432-450, for types not constructible from
`int`. -/
def genericBinaryPow' {α : Type u} (mul : α → α → Out α) (base : α) (exp : Int) : Out α :=
  if exp = 1 then .ok base
  else if exp ≤ 0 then .exit
  else genericLoop mul base base (exp - 1).toNat

/-- `factorial(n)`, math_functions.h:459-465.  The loop variable runs over `2..n`. -/
def factorial (ar : Int → Out Int) (n : Int) : Out Int :=
  if n < 0 then .exit
  else (List.range' 2 (n.toNat - 1)).foldlM (fun (fac : Int) (i : Nat) => ar (fac * (i : Int))) 1

/-- The loop `for (; r > 1; r--, n--) result *= n;`, math_functions.h:481-483. -/
def permLoop (ar : Int → Out Int) (result n : Int) : Nat → Out Int
  | 0 => .ok result
  | 1 => .ok result
  | r + 2 => do
    let result ← ar (result * n)
    permLoop ar result (n - 1) (r + 1)

/-- `permutation(n, r)`, math_functions.h:476-485. -/
def permutation (ar : Int → Out Int) (n r : Int) : Out Int :=
  if n < 0 ∨ r < 0 ∨ r > n then .exit else permLoop ar n (n - 1) r.toNat

/-- Body of the inner loop of `binomial`, math_functions.h:506-510. -/
def binomialCell (ar : Int → Out Int) (c : Arr Int) (j : Nat) : Out (Arr Int) := do
  if j = 0 then
    let x ← c.get (j : Int)
    let y ← ar (x + 1)
    c.set j y
  else
    let x ← c.get (j : Int)
    let y ← c.get ((j : Int) - 1)
    let z ← ar (x + y)
    c.set j z

/-- `binomial(n, r)` after the symmetry reduction, math_functions.h:500 and 502-514.  The counters of lines 503-505 have type
`int` whatever `IntType` is.  If `n - r` exceeds the greatest `int`, `i++` of line 504 overflows: undefined behaviour.
Otherwise all counters are in range, as `r ≤ n - r`. -/
def binomialLoop (ar : Int → Out Int) (n r : Nat) : Out Int := do
  if r = 0 then .ok 1 else
  if INT_MAX < (n - r : Nat) then .ub else
  let c : Arr Int := Arr.new r
  let c ← (List.range r).foldlM (fun c i => c.set i 1) c
  let c ← (List.range (n - r)).foldlM
    (fun c _ => (List.range r).foldlM (binomialCell ar) c) c
  c.get ((r : Int) - 1)

/-- `binomial(n, r)`, math_functions.h:497-515.  The recursive call `binomial(n, n - r)` of line 501
is not repeated since `n - r ≤ n / 2`. -/
def binomial (ar : Int → Out Int) (n r : Int) : Out Int :=
  if n < 0 ∨ r < 0 ∨ r > n then .exit
  else if r = 0 then .ok 1
  else if r > n / 2 then binomialLoop ar n.toNat (n - r).toNat
  else binomialLoop ar n.toNat r.toNat

end MathFns
