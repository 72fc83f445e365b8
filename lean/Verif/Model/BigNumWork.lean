import Verif.Model.BigNum

/-!
# Model of the work of `BigNum<MAX_SIZE>`, /repo/src/include/math_utils/BigNum.h

The functions of Model/BigNum.lean once more, with two counters: how often a single cell of `elem` is read, written or
changed (each use of `operator[]`, BigNum.h:60-62, or of `elem[…]`), and how many cells `std::memset` and `std::memcpy` go
through.  The counters also tell the work up to undefined behaviour or to the end of the fuel.  Not counted: the characters
of strings.
-/

namespace BigNum.Work
open Cpp

/-- What a piece of the program does: uses of single cells, cells cleared or copied in bulk, outcome. -/
structure Job (α : Type) where
  cells : Nat
  bulk : Nat
  out : Out α

/-- Sequencing of statements: the counters add up. -/
def Job.bind {α β : Type} (x : Job α) (f : α → Job β) : Job β :=
  match x.out with
  | .ok a => ⟨x.cells + (f a).cells, x.bulk + (f a).bulk, (f a).out⟩
  | .exit => ⟨x.cells, x.bulk, .exit⟩
  | .ub => ⟨x.cells, x.bulk, .ub⟩
  | .diverge => ⟨x.cells, x.bulk, .diverge⟩

instance : Monad Job where
  pure a := ⟨0, 0, .ok a⟩
  bind := Job.bind

/-- A statement without counted work. -/
def free {α : Type} (x : Out α) : Job α := ⟨0, 0, x⟩

/-- `n` uses of cells whose effect is known already. -/
def use (n : Nat) : Job Unit := ⟨n, 0, .ok ()⟩

/-- `memset` or `memcpy` of `n` cells whose effect is known already. -/
def block (n : Nat) : Job Unit := ⟨0, n, .ok ()⟩

/-- Reading a cell. -/
def get (a : Arr Int) (i : Int) : Job Int := ⟨1, 0, a.get i⟩

/-- Writing a cell. -/
def set (a : Arr Int) (i : Int) (x : Int) : Job (Arr Int) := ⟨1, 0, a.set i x⟩

/-- The second half of a compound assignment: the cell was counted when it was read. -/
def put (a : Arr Int) (i : Int) (x : Int) : Job (Arr Int) := ⟨0, 0, a.set i x⟩

/-- `BigNum()`, BigNum.h:17-21. -/
def zero (N : Nat) : Job Big := do
  block N
  free (.ok (BigNum.zero N))

/-- The loop of `BigNum(int64_t)`, BigNum.h:27-28. -/
def ofIntLoop (b : Big) (i : Nat) : Job Big :=
  if i = 0 then free (.ok b) else do
    let e ← set b.elem b.len ((i % 10 : Nat) : Int)
    ofIntLoop { b with elem := e, len := b.len + 1 } (i / 10)
termination_by i

/-- `BigNum(int64_t x)`, BigNum.h:23-29. -/
def ofInt (N : Nat) (x : Int) : Job Big := do
  block N
  if x = INT64_MIN then free .ub
  else ofIntLoop { BigNum.zero N with sign := if x < 0 then -1 else 1 } x.natAbs

/-- `operator=`, BigNum.h:52-57. -/
def assign (dst src : Big) : Job Big := do
  block src.len
  free (.ok (BigNum.assign dst src))

/-- The loop of `cmp`, BigNum.h:242-243: two cells are compared, at the first difference once more. -/
def cmpLoop (a b : Big) : Nat → Job Int
  | 0 => free (.ok 0)
  | i + 1 => do
    let x ← get a.elem i
    let y ← get b.elem i
    if x ≠ y then do
      use 2
      free (.ok (if x > y then a.sign else -a.sign))
    else cmpLoop a b i

/-- `cmp(a, b, isAbs)`, BigNum.h:239-245. -/
def cmp (a b : Big) (isAbs : Bool) : Job Int :=
  if isAbs = false ∧ a.sign ≠ b.sign then free (.ok (if a.sign > b.sign then 1 else -1))
  else if a.len ≠ b.len then free (.ok (if a.len > b.len then a.sign else -a.sign))
  else cmpLoop a b a.len

/-- Body of the loop BigNum.h:250. -/
def addCell (a b : Big) (ret : Arr Int) (i : Nat) : Job (Arr Int) := do
  let x ← get a.elem i
  let y ← get b.elem i
  let z ← free (int (x + y))
  set ret i z

/-- Body of the carry loop BigNum.h:251-255. -/
def addCarry (ret : Arr Int) (i : Nat) : Job (Arr Int) := do
  let x ← get ret i
  if x ≥ 10 then do
    let ret ← set ret i (x - 10)
    let y ← get ret ((i + 1 : Nat) : Int)
    let y ← free (int (y + 1))
    put ret ((i + 1 : Nat) : Int) y
  else free (.ok ret)

/-- `add(a, b)`, BigNum.h:247-259. -/
def add (N : Nat) (a b : Big) : Job Big := do
  block N
  let len := max a.len b.len
  let ret ← (List.range len).foldlM (addCell a b) (Arr.fill N 0)
  let ret ← (List.range len).foldlM addCarry ret
  let top ← get ret len
  free (.ok ⟨ret, if top ≠ 0 then len + 1 else len, a.sign⟩)

/-- Body of the loop BigNum.h:270. -/
def subCell (a b : Big) (ret : Arr Int) (i : Nat) : Job (Arr Int) := do
  let x ← get a.elem i
  let y ← get b.elem i
  let z ← free (int (x - y))
  set ret i z

/-- Body of the borrow loop BigNum.h:271-275. -/
def subBorrow (ret : Arr Int) (i : Nat) : Job (Arr Int) := do
  let x ← get ret i
  if x < 0 then do
    let z ← free (int (x + 10))
    let ret ← set ret i z
    let y ← get ret ((i + 1 : Nat) : Int)
    let y ← free (int (y - 1))
    put ret ((i + 1 : Nat) : Int) y
  else free (.ok ret)

/-- The loop BigNum.h:276. -/
def strip (ret : Arr Int) : Nat → Job Nat
  | 0 => free (.ok 0)
  | n + 1 => do
    let x ← get ret n
    if x = 0 then strip ret n else free (.ok (n + 1))

/-- `sub(a, b)`, BigNum.h:261-278; the fuel bounds the depth of recursion. -/
def sub (N : Nat) : Nat → Big → Big → Job Big
  | 0, _, _ => free .diverge
  | fuel + 1, a, b => do
    let ret ← zero N
    let c ← cmp a b true
    if c < 0 then do
      let r ← sub N fuel b a
      let ret ← assign ret r
      free (.ok { ret with sign := -1 })
    else do
      let ret ← (List.range a.len).foldlM (subCell a b) (Arr.fill N 0)
      let ret ← (List.range a.len).foldlM subBorrow ret
      let len ← strip ret a.len
      free (.ok ⟨ret, len, 1⟩)

/-- Body of the double loop BigNum.h:285-288. -/
def mulCell (a b : Big) (i : Nat) (ret : Arr Int) (j : Nat) : Job (Arr Int) := do
  let x ← get a.elem i
  let y ← get b.elem j
  let p ← free (int (x * y))
  let r ← get ret ((i + j : Nat) : Int)
  let z ← free (int (r + p))
  put ret ((i + j : Nat) : Int) z

/-- Body of the carry loop BigNum.h:289-292. -/
def mulCarry (ret : Arr Int) (i : Nat) : Job (Arr Int) := do
  let x ← get ret i
  let y ← get ret ((i + 1 : Nat) : Int)
  let z ← free (int (y + x.tdiv 10))
  let ret ← put ret ((i + 1 : Nat) : Int) z
  set ret i (x.tmod 10)

/-- `mul(a, b)`, BigNum.h:280-296. -/
def mul (N : Nat) (a b : Big) : Job Big := do
  block N
  if a.len = 0 ∨ b.len = 0 then free (.ok (BigNum.zero N)) else do
    let len := a.len + b.len - 1
    let ret ← (List.range a.len).foldlM (fun ret i => (List.range b.len).foldlM (mulCell a b i) ret)
      (Arr.fill N 0)
    let ret ← (List.range len).foldlM mulCarry ret
    let top ← get ret len
    free (.ok ⟨ret, if top ≠ 0 then len + 1 else len, a.sign⟩)

/-- The case distinction shared by `operator+` and `operator+=`, BigNum.h:86-93 and 111-118. -/
def plusRaw (N fuel : Nat) (a b : Big) : Job Big :=
  if a.sign = b.sign then add N a b
  else if a.sign < 0 then sub N fuel b a else sub N fuel a b

/-- The case distinction shared by `operator-` and `operator-=`, BigNum.h:138-145 and 163-170. -/
def minusRaw (N fuel : Nat) (a b : Big) : Job Big :=
  if a.sign = b.sign then (if a.sign < 0 then sub N fuel b a else sub N fuel a b)
  else add N a b

/-- `operator+`, BigNum.h:84-95. -/
def plus (N fuel : Nat) (a b : Big) : Job Big := do
  let ret ← zero N
  let r ← plusRaw N fuel a b
  assign ret r

/-- `operator+=`, BigNum.h:110-120. -/
def plusAssign (N fuel : Nat) (a b : Big) : Job Big := do
  let r ← plusRaw N fuel a b
  assign a r

/-- `operator-`, BigNum.h:136-147. -/
def minus (N fuel : Nat) (a b : Big) : Job Big := do
  let ret ← zero N
  let r ← minusRaw N fuel a b
  assign ret r

/-- `operator-=`, BigNum.h:162-172. -/
def minusAssign (N fuel : Nat) (a b : Big) : Job Big := do
  let r ← minusRaw N fuel a b
  assign a r

/-- `operator*`, BigNum.h:188-191. -/
def times (N : Nat) (a b : Big) : Job Big := mul N a b

/-- `operator+=(int64_t)`, BigNum.h:122-133. -/
def plusAssignInt (N fuel : Nat) (a : Big) (x : Int) : Job Big := do
  let b ← ofInt N x
  plusAssign N fuel a b

/-- prefix `operator++`, BigNum.h:217-220. -/
def inc (N fuel : Nat) (a : Big) : Job Big := plusAssignInt N fuel a 1

end BigNum.Work
