import Verif.Model.Matrix
import Verif.Model.Tally

/-!
# Model of the work of `class Matrix<ValueType>`, /repo/src/include/math_utils/Matrix.h

The functions of `Model/Matrix.lean` once more, with the number of uses of single entries: each `A[i][j]` that is evaluated
counts once (also in a compound assignment), and so does each entry that `std::memset` clears.  Memory is in
`Model/MatrixHeap.lean`.  Left out are `operator*=`, which is always undefined, and `pow`, which calls it (C30).
-/

namespace Matrix.Work
open Cpp Tally

variable {α : Type}

/-- The second half of a compound assignment: the entry was counted when it was read. -/
def put (A : Mat α) (i j : Nat) (v : α) : Job (Mat α) := free (A.set i j v)

/-- `Matrix(n, m)`, Matrix.h:20-26. -/
def new (ar : Arith α) (n m : Nat) : Job (Mat α) := do
  use (n * m)
  free (.ok (Matrix.new ar n m))

/-- `deepCopy(src)`, Matrix.h:127-134, and the copy constructor, Matrix.h:38: each entry is read and written. -/
def copy (src : Mat α) : Job (Mat α) := do
  let A ← free (Matrix.copy src)
  use (2 * (src.row * src.col))
  free (.ok A)

/-- The inner loop of `operator==`, Matrix.h:61-62, for the columns `js` of row `i`. -/
def eqRow [DecidableEq α] (A B : Mat α) (i : Nat) : List Nat → Job Bool
  | [] => free (.ok true)
  | j :: js => do
    let x ← one (A.get i j)
    let y ← one (B.get i j)
    if x = y then eqRow A B i js else free (.ok false)

/-- The outer loop of `operator==`, Matrix.h:60-63, for the rows `is`. -/
def eqRows [DecidableEq α] (A B : Mat α) : List Nat → Job Bool
  | [] => free (.ok true)
  | i :: is => do
    if ← eqRow A B i (List.range A.col) then eqRows A B is else free (.ok false)

/-- `operator==`, Matrix.h:58-64. -/
def eq [DecidableEq α] (A B : Mat α) : Job Bool :=
  if A.row ≠ B.row ∨ A.col ≠ B.col then free (.ok false) else eqRows A B (List.range A.row)

/-- Body of the triple loops Matrix.h:76. -/
def timesStep (ar : Arith α) (A B : Mat α) (i j : Nat) (ret : Mat α) (k : Nat) : Job (Mat α) := do
  let x ← one (A.get i k)
  let y ← one (B.get k j)
  let p ← free (ar.mul x y)
  let r ← one (ret.get i j)
  let z ← free (ar.add r p)
  put ret i j z

/-- The triple loops Matrix.h:72-76. -/
def product (ar : Arith α) (A B : Mat α) : Job (Mat α) := do
  let ret ← new ar A.row B.col
  (List.range A.row).foldlM (fun ret i =>
    (List.range B.col).foldlM (fun ret j =>
      (List.range A.col).foldlM (timesStep ar A B i j) ret) ret) ret

/-- `operator*`, Matrix.h:70-78. -/
def times (ar : Arith α) (A B : Mat α) : Job (Mat α) :=
  if A.col ≠ B.row then free .exit else do
  let ret ← product ar A B
  copy ret

/-- A loop over all cells in row order, Matrix.h:95-96, 102-103, 110-111, 117-118 (the bodies `step`). -/
def overCells (n m : Nat) (step : Mat α → Nat → Nat → Job (Mat α)) (A : Mat α) : Job (Mat α) :=
  (List.range n).foldlM (fun A i => (List.range m).foldlM (fun A j => step A i j) A) A

/-- `operator+`, Matrix.h:92-98, and `operator-`, Matrix.h:107-113; `op` is the addition or subtraction of entries. -/
def plus (ar : Arith α) (op : α → α → Out α) (A B : Mat α) : Job (Mat α) :=
  if ¬ (A.row = B.row ∧ A.col = B.col) then free .exit else do
  let ret ← new ar A.row A.col
  overCells A.row A.col (fun ret i j => do
    let x ← one (A.get i j)
    let y ← one (B.get i j)
    let z ← free (op x y)
    one (ret.set i j z)) ret

/-- `operator+=`, Matrix.h:100-105, and `operator-=`, Matrix.h:115-120. -/
def plusAssign (op : α → α → Out α) (A B : Mat α) : Job (Mat α) :=
  if ¬ (A.row = B.row ∧ A.col = B.col) then free .exit else
  overCells A.row A.col (fun A i j => do
    let x ← one (A.get i j)
    let y ← one (B.get i j)
    let z ← free (op x y)
    put A i j z) A

/-- The search `for (j = i; j < row; j++) if (A[j][r] != 0) …`, Matrix.h:159-163; `fuel = row - j`. -/
def scanCol [DecidableEq α] (ar : Arith α) (A : Mat α) (r : Nat) : Nat → Nat → Job (Option Nat)
  | 0, _ => free (.ok none)
  | n + 1, j => do
    let x ← one (A.get j r)
    if x ≠ ar.zero then free (.ok (some j)) else scanCol ar A r n (j + 1)

/-- The loop `while (r < col)`, Matrix.h:157-170, without the swap. -/
def seek [DecidableEq α] (ar : Arith α) (A : Mat α) (i r : Nat) (nz : Option (Option Nat)) :
    Job (Nat × Option (Option Nat)) :=
  if r < A.col then do
    match ← scanCol ar A r (A.row - i) i with
    | none => seek ar A i (r + 1) (some none)
    | some j => free (.ok (r, some (some j)))
  else free (.ok (r, nz))
termination_by A.col - r

/-- Matrix.h:172-173: divide row `i` by its entry in column `r`. -/
def normalise (ar : Arith α) (A : Mat α) (i r : Nat) : Job (Mat α) := do
  let A ← (downTo A.col r).foldlM (fun A j => do
    let x ← one (A.get i j)
    let y ← one (A.get i r)
    let z ← free (ar.div x y)
    put A i j z) A
  one (A.set i r ar.one)

/-- Matrix.h:176-177: subtract a multiple of row `i` from row `j`. -/
def eliminate (ar : Arith α) (i r : Nat) (A : Mat α) (j : Nat) : Job (Mat α) := do
  let A ← (downTo A.col r).foldlM (fun A k => do
    let x ← one (A.get i k)
    let y ← one (A.get j r)
    let p ← free (ar.mul x y)
    let z ← one (A.get j k)
    let w ← free (ar.sub z p)
    put A j k w) A
  one (A.set j r ar.zero)

/-- The outer loop of `reduce`, Matrix.h:155-179, for the last `n` rows. -/
def reduceLoop [DecidableEq α] (ar : Arith α) : Nat → Mat α → Nat → Nat → Job (Mat α)
  | 0, A, _, _ => free (.ok A)
  | n + 1, A, i, r => do
    let (r, nz) ← seek ar A i r none
    match nz with
    | none => free .ub
    | some none => free (.ok A)
    | some (some j) =>
      let A := swapRows A j i
      let A ← normalise ar A i r
      let A ← (List.range' (i + 1) (A.row - (i + 1))).foldlM (eliminate ar i r) A
      reduceLoop ar n A (i + 1) r

/-- `reduce()`, Matrix.h:153-181. -/
def reduce [DecidableEq α] (ar : Arith α) (A : Mat α) : Job (Mat α) := reduceLoop ar A.row A 0 0

end Matrix.Work
