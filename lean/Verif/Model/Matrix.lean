import Verif.Cpp
import Mathlib.Algebra.Field.Defs

/-!
# Model of `class Matrix<ValueType>`, /repo/src/include/math_utils/Matrix.h

The number of rows and columns is a `Nat` (precondition of the constructors: not negative).  The entries
live on the heap; `alive` says whether the rows are allocated, an access or a `delete[]` without them is
undefined.  `assert` is the outcome `exit` (abort).  `ValueType` is an arithmetic type, given by its
operations `Arith`; `memset` to zero bytes gives the value 0.  Memory leaks (`operator*` copies a matrix
made by `new` and never deletes it) are not recorded; they are in `Model/MatrixHeap.lean`.  `toString` is in
`Model/MatrixText.lean`.  Not modelled is `idMat`, a friend function that argument-dependent lookup cannot find.
-/

namespace Matrix
open Cpp

/-- The arithmetic of `ValueType`. -/
structure Arith (α : Type) where
  zero : α
  one : α
  add : α → α → Out α
  sub : α → α → Out α
  mul : α → α → Out α
  div : α → α → Out α

/-- Exact arithmetic of a field (stands for `double` without rounding; division by zero, which gives no
number, is undefined here). -/
def Arith.exact (α : Type) [Field α] [DecidableEq α] : Arith α where
  zero := 0
  one := 1
  add x y := .ok (x + y)
  sub x y := .ok (x - y)
  mul x y := .ok (x * y)
  div x y := if y = 0 then .ub else .ok (x / y)

/-- The arithmetic of `int`. -/
def Arith.ofInt : Arith Int where
  zero := 0
  one := 1
  add x y := int (x + y)
  sub x y := int (x - y)
  mul x y := int (x * y)
  div x y := if y = 0 then .ub else int (x.tdiv y)

/-- The data members, Matrix.h:195-197, with the rows `elem` points to. -/
structure Mat (α : Type) where
  row : Nat
  col : Nat
  elem : Nat → Nat → α
  alive : Bool

/-- Reading `(*this)[i][j]`, Matrix.h:51. -/
def Mat.get {α : Type} (A : Mat α) (i j : Nat) : Out α :=
  if A.alive = true ∧ i < A.row ∧ j < A.col then .ok (A.elem i j) else .ub

/-- Writing `(*this)[i][j] = v`, Matrix.h:51. -/
def Mat.set {α : Type} (A : Mat α) (i j : Nat) (v : α) : Out (Mat α) :=
  if A.alive = true ∧ i < A.row ∧ j < A.col then
    .ok { A with elem := fun i' j' => if i' = i ∧ j' = j then v else A.elem i' j' }
  else .ub

/-- `Matrix(n, m)`, Matrix.h:20-26. -/
def new {α : Type} (ar : Arith α) (n m : Nat) : Mat α := ⟨n, m, fun _ _ => ar.zero, true⟩

/-- `Matrix(n)`, Matrix.h:18. -/
def newSquare {α : Type} (ar : Arith α) (n : Nat) : Mat α := new ar n n

/-- `Matrix(std::vector<std::vector<int>> ini)`, Matrix.h:28-36, on entries already converted to
`ValueType`: `ini[0]` of an empty vector and `ini[i][j]` beyond a shorter row are undefined. -/
def ofRows {α : Type} (ar : Arith α) (ini : List (List α)) : Out (Mat α) :=
  match ini with
  | [] => .ub
  | first :: _ =>
    if ∀ r ∈ ini, first.length ≤ r.length then
      .ok ⟨ini.length, first.length, fun i j => (ini.getD i []).getD j ar.zero, true⟩
    else .ub

/-- `deepCopy(src)`, Matrix.h:127-134, and the copy constructor, Matrix.h:38. -/
def copy {α : Type} (src : Mat α) : Out (Mat α) :=
  if src.alive = true ∨ src.row = 0 ∨ src.col = 0 then
    .ok ⟨src.row, src.col, src.elem, true⟩
  else .ub

/-- `clear()`, Matrix.h:122-125, and the destructor, Matrix.h:40: freeing twice is undefined. -/
def clear {α : Type} (A : Mat α) : Out (Mat α) := if A.alive = true then .ok { A with alive := false } else .ub

/-- `operator=` for a source that is another object, Matrix.h:43-48. -/
def assign {α : Type} (dst src : Mat α) : Out (Mat α) := do
  let _ ← clear dst
  copy src

/-- `operator==`, Matrix.h:58-64; the loops stop at the first difference. -/
def eq {α : Type} [DecidableEq α] (A B : Mat α) : Out Bool :=
  if A.row ≠ B.row ∨ A.col ≠ B.col then .ok false
  else (List.range A.row).allM fun i => (List.range A.col).allM fun j => do
    let x ← A.get i j
    let y ← B.get i j
    .ok (decide (x = y))

/-- `operator!=`, Matrix.h:66-68. -/
def ne {α : Type} [DecidableEq α] (A B : Mat α) : Out Bool := do .ok (!(← eq A B))

/-- Body of the triple loops Matrix.h:76 and :86. -/
def timesStep {α : Type} (ar : Arith α) (A B : Mat α) (i j : Nat) (ret : Mat α) (k : Nat) : Out (Mat α) := do
  let x ← A.get i k
  let y ← B.get k j
  let p ← ar.mul x y
  let r ← ret.get i j
  let z ← ar.add r p
  ret.set i j z

/-- The triple loops Matrix.h:72-76 and 82-86. -/
def product {α : Type} (ar : Arith α) (A B : Mat α) : Out (Mat α) :=
  (List.range A.row).foldlM (fun ret i =>
    (List.range B.col).foldlM (fun ret j =>
      (List.range A.col).foldlM (timesStep ar A B i j) ret) ret) (new ar A.row B.col)

/-- `operator*`, Matrix.h:70-78. -/
def times {α : Type} (ar : Arith α) (A B : Mat α) : Out (Mat α) := do
  if A.col ≠ B.row then .exit else
  copy (← product ar A B)

/-- `operator*=`, Matrix.h:80-90.  `other` may be `*this`: it is only read before `clear()`. -/
def timesAssign {α : Type} (ar : Arith α) (A B : Mat α) : Out (Mat α) := do
  if A.col ≠ B.row then .exit else
  let ret ← product ar A B
  let A ← clear A
  assign A ret

/-- A loop over all cells in row order, Matrix.h:95-96, 102-103, 110-111, 117-118 (the bodies `step`). -/
def overCells {α : Type} (n m : Nat) (step : Mat α → Nat → Nat → Out (Mat α)) (A : Mat α) : Out (Mat α) :=
  (List.range n).foldlM (fun A i => (List.range m).foldlM (fun A j => step A i j) A) A

/-- `operator+`, Matrix.h:92-98. -/
def plus {α : Type} (ar : Arith α) (A B : Mat α) : Out (Mat α) :=
  if ¬ (A.row = B.row ∧ A.col = B.col) then .exit else
  overCells A.row A.col (fun ret i j => do
    let x ← A.get i j
    let y ← B.get i j
    ret.set i j (← ar.add x y)) (new ar A.row A.col)

/-- `operator+=`, Matrix.h:100-105.  `other` may be `*this`, since each cell is read before it is
written and never again. -/
def plusAssign {α : Type} (ar : Arith α) (A B : Mat α) : Out (Mat α) :=
  if ¬ (A.row = B.row ∧ A.col = B.col) then .exit else
  overCells A.row A.col (fun A i j => do
    let x ← A.get i j
    let y ← B.get i j
    A.set i j (← ar.add x y)) A

/-- `operator-`, Matrix.h:107-113. -/
def minus {α : Type} (ar : Arith α) (A B : Mat α) : Out (Mat α) :=
  if ¬ (A.row = B.row ∧ A.col = B.col) then .exit else
  overCells A.row A.col (fun ret i j => do
    let x ← A.get i j
    let y ← B.get i j
    ret.set i j (← ar.sub x y)) (new ar A.row A.col)

/-- `operator-=`, Matrix.h:115-120. -/
def minusAssign {α : Type} (ar : Arith α) (A B : Mat α) : Out (Mat α) :=
  if ¬ (A.row = B.row ∧ A.col = B.col) then .exit else
  overCells A.row A.col (fun A i j => do
    let x ← A.get i j
    let y ← B.get i j
    A.set i j (← ar.sub x y)) A

/-- `pow(src, n)`, Matrix.h:142-151; the fuel bounds the depth of recursion. -/
def pow {α : Type} (ar : Arith α) (src : Mat α) : Nat → Nat → Out (Mat α)
  | 0, _ => .diverge
  | fuel + 1, n =>
    if n = 1 then copy src else do
    let ret ← pow ar src fuel (n / 2)
    if n % 2 = 1 then timesAssign ar ret src else .ok ret

/-- The search `for (j = i; j < row; j++) if (A[j][r] != 0) …`, Matrix.h:159-163; `fuel = row - j`. -/
def scanCol {α : Type} [DecidableEq α] (ar : Arith α) (A : Mat α) (r : Nat) : Nat → Nat → Out (Option Nat)
  | 0, _ => .ok none
  | n + 1, j => do
    let x ← A.get j r
    if x ≠ ar.zero then .ok (some j) else scanCol ar A r n (j + 1)

/-- The loop `while (r < col)`, Matrix.h:157-170, without the swap.  Returns `r` and `nonZeroRow`:
`none` if indeterminate (the loop is not entered), `some none` for -1. -/
def seek {α : Type} [DecidableEq α] (ar : Arith α) (A : Mat α) (i r : Nat) (nz : Option (Option Nat)) :
    Out (Nat × Option (Option Nat)) :=
  if r < A.col then do
    match ← scanCol ar A r (A.row - i) i with
    | none => seek ar A i (r + 1) (some none)
    | some j => .ok (r, some (some j))
  else .ok (r, nz)
termination_by A.col - r

/-- `std::swap(A.elem[a], A.elem[b])`, Matrix.h:167. -/
def swapRows {α : Type} (A : Mat α) (a b : Nat) : Mat α :=
  { A with elem := fun i => if i = a then A.elem b else if i = b then A.elem a else A.elem i }

/-- The indices `col - 1, …, r + 1` of the downward loops Matrix.h:172 and :176. -/
def downTo (col r : Nat) : List Nat := (List.range (col - 1 - r)).map fun t => col - 1 - t

/-- Matrix.h:172-173: divide row `i` by its entry in column `r`. -/
def normalise {α : Type} (ar : Arith α) (A : Mat α) (i r : Nat) : Out (Mat α) := do
  let A ← (downTo A.col r).foldlM (fun A j => do
    let x ← A.get i j
    let y ← A.get i r
    A.set i j (← ar.div x y)) A
  A.set i r ar.one

/-- Matrix.h:176-177: subtract a multiple of row `i` from row `j`. -/
def eliminate {α : Type} (ar : Arith α) (i r : Nat) (A : Mat α) (j : Nat) : Out (Mat α) := do
  let A ← (downTo A.col r).foldlM (fun A k => do
    let x ← A.get i k
    let y ← A.get j r
    let p ← ar.mul x y
    let z ← A.get j k
    A.set j k (← ar.sub z p)) A
  A.set j r ar.zero

/-- The outer loop of `reduce`, Matrix.h:155-179, for the last `n` rows. -/
def reduceLoop {α : Type} [DecidableEq α] (ar : Arith α) : Nat → Mat α → Nat → Nat → Out (Mat α)
  | 0, A, _, _ => .ok A
  | n + 1, A, i, r => do
    let (r, nz) ← seek ar A i r none
    match nz with
    | none => .ub
    | some none => .ok A
    | some (some j) =>
      let A := swapRows A j i
      let A ← normalise ar A i r
      let A ← (List.range' (i + 1) (A.row - (i + 1))).foldlM (eliminate ar i r) A
      reduceLoop ar n A (i + 1) r

/-- `reduce()`, Matrix.h:153-181. -/
def reduce {α : Type} [DecidableEq α] (ar : Arith α) (A : Mat α) : Out (Mat α) :=
  reduceLoop ar A.row A 0 0

end Matrix
