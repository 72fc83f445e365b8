import Verif.Model.Json

/-!
# Model of `class BigNum<MAX_SIZE>`, /repo/src/include/math_utils/BigNum.h

`base` is 10 and `order` is 1 (BigNum.h:322-326).  `len` is kept as a `Nat` (it is an `int` between 0
and `MAX_SIZE`).  Results returned by value are taken over as they are (copy elision); without elision
the copy constructor `copy` would run in addition.

The postfix operators return a reference to a local variable (`postInc`, `postDec` below).
Not modelled: `operator*=(const BigNum&)` and `abs` (they assign to a const object and do not compile when
used), `operator<<` (prints `toString`), `operator[]` (in `Model/BigNumIndex.lean`).
-/

namespace BigNum
open Cpp

/-- The data members, BigNum.h:315-317. -/
structure Big where
  elem : Arr Int
  len : Nat
  sign : Int

/-- `BigNum()`, BigNum.h:17-21. -/
def zero (N : Nat) : Big := ⟨Arr.fill N 0, 0, 1⟩

/-- The loop of `BigNum(int64_t)`, BigNum.h:27-28. -/
def ofIntLoop (b : Big) (i : Nat) : Out Big :=
  if i = 0 then .ok b else do
    let e ← b.elem.set b.len ((i % 10 : Nat) : Int)
    ofIntLoop { b with elem := e, len := b.len + 1 } (i / 10)
termination_by i

/-- `BigNum(int64_t x)`, BigNum.h:23-29; `std::abs(INT64_MIN)` is undefined. -/
def ofInt (N : Nat) (x : Int) : Out Big :=
  if x = INT64_MIN then .ub
  else ofIntLoop { zero N with sign := if x < 0 then -1 else 1 } x.natAbs

/-- `std::stoi` of a one-character string: throws `std::invalid_argument` unless it is a digit (the
exception is the outcome `exit`: it is not caught in the library). -/
def stoi1 (c : Byte) : Out Int :=
  if byte '0' ≤ c ∧ c ≤ byte '9' then .ok ((c.toNat : Int) - 48) else .exit

/-- The loop of `BigNum(const std::string&)` over the characters from the last one to the first one
after the sign, BigNum.h:35-37 (`order` is 1, so lines 38-40 do nothing). -/
def ofStringLoop (b : Big) : Str → Out Big
  | [] => .ok b
  | c :: cs => do
    let d ← stoi1 c
    let e ← b.elem.set b.len d
    ofStringLoop { b with elem := e, len := b.len + 1 } cs

/-- `BigNum(const std::string& s)`, BigNum.h:31-41.  Precondition: `s.size()` fits an `int`. -/
def ofString (N : Nat) (s : Str) : Out Big :=
  match s with
  | c :: cs =>
    if c = byte '-' then ofStringLoop { zero N with sign := -1 } cs.reverse
    else ofStringLoop (zero N) (c :: cs).reverse
  | [] => .ok (zero N)

/-- `memcpy(elem, src.elem, len * sizeof(int))`: only `len` cells are copied. -/
def copyCells (dst src : Arr Int) (len : Nat) : Arr Int :=
  ⟨dst.size, fun i => if i < len then src.cell i else dst.cell i⟩

/-- `BigNum(const BigNum& src)`, BigNum.h:43-47: cells beyond `len` stay indeterminate. -/
def copy (src : Big) : Big := ⟨copyCells (Arr.new src.elem.size) src.elem src.len, src.len, src.sign⟩

/-- `operator=`, BigNum.h:52-57: cells beyond `len` keep their old contents. -/
def assign (dst src : Big) : Big := ⟨copyCells dst.elem src.elem src.len, src.len, src.sign⟩

/-- The loop of `cmp`, BigNum.h:242-244, over the indices below the argument, downwards. -/
def cmpLoop (a b : Big) : Nat → Out Int
  | 0 => .ok 0
  | i + 1 => do
    let x ← a.elem.get i
    let y ← b.elem.get i
    if x ≠ y then .ok (if x > y then a.sign else -a.sign) else cmpLoop a b i

/-- `cmp(a, b, isAbs)`, BigNum.h:239-245. -/
def cmp (a b : Big) (isAbs : Bool) : Out Int :=
  if isAbs = false ∧ a.sign ≠ b.sign then .ok (if a.sign > b.sign then 1 else -1)
  else if a.len ≠ b.len then .ok (if a.len > b.len then a.sign else -a.sign)
  else cmpLoop a b a.len

/-- Body of the loop BigNum.h:250 (`ret[i] = a[i] + b[i]`). -/
def addCell (a b : Big) (ret : Arr Int) (i : Nat) : Out (Arr Int) := do
  let x ← a.elem.get i
  let y ← b.elem.get i
  let z ← int (x + y)
  ret.set i z

/-- Body of the carry loop BigNum.h:251-255. -/
def addCarry (ret : Arr Int) (i : Nat) : Out (Arr Int) := do
  let x ← ret.get i
  if x ≥ 10 then
    let ret ← ret.set i (x - 10)
    let y ← ret.get ((i + 1 : Nat) : Int)
    let y ← int (y + 1)
    ret.set ((i + 1 : Nat) : Int) y
  else .ok ret

/-- `add(a, b)`, BigNum.h:247-259. -/
def add (N : Nat) (a b : Big) : Out Big := do
  let len := max a.len b.len
  let ret ← (List.range len).foldlM (addCell a b) (Arr.fill N 0)
  let ret ← (List.range len).foldlM addCarry ret
  let top ← ret.get len
  .ok ⟨ret, if top ≠ 0 then len + 1 else len, a.sign⟩

/-- Body of the loop BigNum.h:270 (`ret[i] = a[i] - b[i]`). -/
def subCell (a b : Big) (ret : Arr Int) (i : Nat) : Out (Arr Int) := do
  let x ← a.elem.get i
  let y ← b.elem.get i
  let z ← int (x - y)
  ret.set i z

/-- Body of the borrow loop BigNum.h:271-275. -/
def subBorrow (ret : Arr Int) (i : Nat) : Out (Arr Int) := do
  let x ← ret.get i
  if x < 0 then
    let z ← int (x + 10)
    let ret ← ret.set i z
    let y ← ret.get ((i + 1 : Nat) : Int)
    let y ← int (y - 1)
    ret.set ((i + 1 : Nat) : Int) y
  else .ok ret

/-- `while (ret.len > 0 && !ret[ret.len - 1]) ret.len--;`, BigNum.h:276. -/
def strip (ret : Arr Int) : Nat → Out Nat
  | 0 => .ok 0
  | n + 1 => do
    let x ← ret.get n
    if x = 0 then strip ret n else .ok (n + 1)

/-- `sub(a, b)`, BigNum.h:261-278; the fuel bounds the depth of recursion. -/
def sub (N : Nat) : Nat → Big → Big → Out Big
  | 0, _, _ => .diverge
  | fuel + 1, a, b => do
    let c ← cmp a b true
    if c < 0 then
      let r ← sub N fuel b a
      .ok { assign (zero N) r with sign := -1 }
    else
      let ret ← (List.range a.len).foldlM (subCell a b) (Arr.fill N 0)
      let ret ← (List.range a.len).foldlM subBorrow ret
      let len ← strip ret a.len
      .ok ⟨ret, len, 1⟩

/-- Body of the double loop BigNum.h:285-288. -/
def mulCell (a b : Big) (i : Nat) (ret : Arr Int) (j : Nat) : Out (Arr Int) := do
  let x ← a.elem.get i
  let y ← b.elem.get j
  let p ← int (x * y)
  let r ← ret.get ((i + j : Nat) : Int)
  let z ← int (r + p)
  ret.set ((i + j : Nat) : Int) z

/-- Body of the carry loop BigNum.h:289-292. -/
def mulCarry (ret : Arr Int) (i : Nat) : Out (Arr Int) := do
  let x ← ret.get i
  let y ← ret.get ((i + 1 : Nat) : Int)
  let z ← int (y + x.tdiv 10)
  let ret ← ret.set ((i + 1 : Nat) : Int) z
  ret.set i (x.tmod 10)

/-- `mul(a, b)`, BigNum.h:280-296. -/
def mul (N : Nat) (a b : Big) : Out Big := do
  if a.len = 0 ∨ b.len = 0 then .ok (zero N) else
  let len := a.len + b.len - 1
  let ret ← (List.range a.len).foldlM (fun ret i => (List.range b.len).foldlM (mulCell a b i) ret)
    (Arr.fill N 0)
  let ret ← (List.range len).foldlM mulCarry ret
  let top ← ret.get len
  .ok ⟨ret, if top ≠ 0 then len + 1 else len, a.sign⟩

/-- The case distinction shared by `operator+` and `operator+=`, BigNum.h:86-93 and 111-118. -/
def plusRaw (N fuel : Nat) (a b : Big) : Out Big :=
  if a.sign = b.sign then add N a b
  else if a.sign < 0 then sub N fuel b a else sub N fuel a b

/-- The case distinction shared by `operator-` and `operator-=`, BigNum.h:138-145 and 163-170. -/
def minusRaw (N fuel : Nat) (a b : Big) : Out Big :=
  if a.sign = b.sign then (if a.sign < 0 then sub N fuel b a else sub N fuel a b)
  else add N a b

/-- `operator+`, BigNum.h:84-95. -/
def plus (N fuel : Nat) (a b : Big) : Out Big := do .ok (assign (zero N) (← plusRaw N fuel a b))
/-- `operator+=`, BigNum.h:110-120. -/
def plusAssign (N fuel : Nat) (a b : Big) : Out Big := do .ok (assign a (← plusRaw N fuel a b))
/-- `operator-`, BigNum.h:136-147. -/
def minus (N fuel : Nat) (a b : Big) : Out Big := do .ok (assign (zero N) (← minusRaw N fuel a b))
/-- `operator-=`, BigNum.h:162-172. -/
def minusAssign (N fuel : Nat) (a b : Big) : Out Big := do .ok (assign a (← minusRaw N fuel a b))
/-- `operator*`, BigNum.h:188-191. -/
def times (N : Nat) (a b : Big) : Out Big := mul N a b

/-- `operator+(int64_t)`, BigNum.h:97-108. -/
def plusInt (N fuel : Nat) (a : Big) (x : Int) : Out Big := do plus N fuel a (← ofInt N x)
/-- `operator-(int64_t)`, BigNum.h:149-160. -/
def minusInt (N fuel : Nat) (a : Big) (x : Int) : Out Big := do minus N fuel a (← ofInt N x)
/-- `operator+=(int64_t)`, BigNum.h:122-133. -/
def plusAssignInt (N fuel : Nat) (a : Big) (x : Int) : Out Big := do
  plusAssign N fuel a (← ofInt N x)
/-- `operator-=(int64_t)`, BigNum.h:174-185. -/
def minusAssignInt (N fuel : Nat) (a : Big) (x : Int) : Out Big := do
  minusAssign N fuel a (← ofInt N x)
/-- `operator*(int64_t)`, BigNum.h:193-197. -/
def timesInt (N : Nat) (a : Big) (x : Int) : Out Big := do
  .ok (assign (zero N) (← mul N a (← ofInt N x)))
/-- `operator*=(int64_t)`, BigNum.h:204-208. -/
def timesAssignInt (N : Nat) (a : Big) (x : Int) : Out Big := do
  .ok (assign a (← mul N a (← ofInt N x)))

/-- prefix `operator++`, BigNum.h:217-220. -/
def inc (N fuel : Nat) (a : Big) : Out Big := plusAssignInt N fuel a 1
/-- prefix `operator--`, BigNum.h:228-231. -/
def dec (N fuel : Nat) (a : Big) : Out Big := minusAssignInt N fuel a 1

/-- The reference `BigNum&` that the postfix operators return: it refers to their local variable `ret`, whose lifetime has
ended when the caller gets it. -/
inductive Dangling where
  | toLocal

/-- Using such a reference is undefined. -/
def Dangling.read : Dangling → Out Big := fun _ => .ub

/-- postfix `operator++`, BigNum.h:222-226: the object afterwards and what is returned. -/
def postInc (N fuel : Nat) (a : Big) : Out (Big × Dangling) := do
  let _ret := copy a
  .ok (← inc N fuel a, .toLocal)
/-- postfix `operator--`, BigNum.h:233-237. -/
def postDec (N fuel : Nat) (a : Big) : Out (Big × Dangling) := do
  let _ret := copy a
  .ok (← dec N fuel a, .toLocal)

/-- unary `operator-`, BigNum.h:211-215: works on a copy. -/
def neg (a : Big) : Big := let ret := copy a; { ret with sign := -ret.sign }

/-- `operator<`, BigNum.h:71. -/
def lt (a b : Big) : Out Bool := do .ok (decide ((← cmp a b false) < 0))
/-- `operator<=`, BigNum.h:73. -/
def le (a b : Big) : Out Bool := do .ok (decide ((← cmp a b false) ≤ 0))
/-- `operator>`, BigNum.h:75. -/
def gt (a b : Big) : Out Bool := do .ok (decide ((← cmp a b false) > 0))
/-- `operator>=`, BigNum.h:77. -/
def ge (a b : Big) : Out Bool := do .ok (decide ((← cmp a b false) ≥ 0))
/-- `operator==`, BigNum.h:79. -/
def eq (a b : Big) : Out Bool := do .ok (decide ((← cmp a b false) = 0))
/-- `operator!=`, BigNum.h:81. -/
def ne (a b : Big) : Out Bool := do .ok (decide ((← cmp a b false) ≠ 0))

/-- `std::to_string` of one cell, BigNum.h:308: the decimal text of the `int`, which is one digit unless a caller has written
something else through `operator[]`. -/
def digitText (d : Int) : Str := Json.decInt d

/-- The loop of `toString`, BigNum.h:308. -/
def toStringLoop (a : Big) : Nat → Out Str
  | 0 => .ok []
  | i + 1 => do
    let d ← a.elem.get i
    let rest ← toStringLoop a i
    .ok (digitText d ++ rest)

/-- `toString()`, BigNum.h:305-310. -/
def toString (a : Big) : Out Str := do
  let t ← toStringLoop a a.len
  .ok ((if a.sign < 0 then [byte '-'] else []) ++ t)

end BigNum
