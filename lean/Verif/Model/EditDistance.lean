import Verif.Cpp

/-! # Model of /repo/src/algorithm/edit_distance.cpp -/

namespace EditDistance
open Cpp

/-- The matrix of edit_distance.cpp:24-29: `rows` × `cols` cells, indeterminate when allocated. -/
structure Matrix where
  rows : Nat
  cols : Nat
  cell : Nat → Nat → Option Int

/-- `matrix[i][j]` read. -/
def Matrix.get (M : Matrix) (i j : Nat) : Out Int :=
  if i < M.rows ∧ j < M.cols then
    match M.cell i j with
    | some v => .ok v
    | none => .ub
  else .ub

/-- `matrix[i][j] = v`. -/
def Matrix.set (M : Matrix) (i j : Nat) (v : Int) : Out Matrix :=
  if i < M.rows ∧ j < M.cols then
    .ok { M with cell := fun i' j' => if i' = i ∧ j' = j then some v else M.cell i' j' }
  else .ub

/-- `min3`, edit_distance.cpp:9-14. -/
def min3 (a b c : Int) : Int :=
  if a < b then (if a < c then a else c) else (if b < c then b else c)

/-- Body of the inner loop, edit_distance.cpp:34-36, for row `i` and column `j`. -/
def cellStep (str1 str2 : Str) (i : Nat) (M : Matrix) (j : Nat) : Out Matrix := do
  let x ← strAt str1 ((i : Int) - 1)
  let y ← strAt str2 ((j : Int) - 1)
  let tmp : Int := if x = y then 0 else 1
  let a ← M.get (i - 1) j
  let a1 ← int (a + 1)
  let b ← M.get i (j - 1)
  let b1 ← int (b + 1)
  let c ← M.get (i - 1) (j - 1)
  let c1 ← int (c + tmp)
  M.set i j (min3 a1 b1 c1)

/-- Inner loop, edit_distance.cpp:33-37. -/
def rowStep (str1 str2 : Str) (n : Nat) (M : Matrix) (i : Nat) : Out Matrix :=
  (List.range' 1 n).foldlM (cellStep str1 str2 i) M

/-- `editDistance(str1, str2)`, edit_distance.cpp:17-41.  Simplification: `int m = str1.size()` is
not truncated, i.e. the lengths are below 2^31 - 1 (stated as hypothesis of the theorems; for all sizes: `Model/BigSizes.lean`). -/
def editDistance (str1 str2 : Str) : Out Int := do
  let m := str1.length
  let n := str2.length
  if m = 0 ∨ n = 0 then int ((m : Int) + n) else
  let M : Matrix := ⟨m + 1, n + 1, fun _ _ => none⟩
  let M ← (List.range (m + 1)).foldlM (fun M i => M.set i 0 i) M
  let M ← (List.range (n + 1)).foldlM (fun M i => M.set 0 i i) M
  let M ← (List.range' 1 m).foldlM (rowStep str1 str2 n) M
  M.get m n

end EditDistance
