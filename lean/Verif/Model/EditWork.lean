import Verif.Model.EditDistance
import Verif.Model.Tally

/-!
# Model of the work and the memory of `editDistance`, /repo/src/algorithm/edit_distance.cpp

The function of `Model/EditDistance.lean` once more, with the uses of single cells of `matrix` and the blocks it takes and
gives back.  An `int` has 4 bytes, a `std::unique_ptr` 8; `new` of an array of pointers stores their number before them in 8
more bytes, since their destructors are to be called (Itanium C++ ABI).  Not counted: what the allocator adds to a block, and the
characters of the texts.
-/

namespace EditDistance.Work
open Cpp Tally

/-- Body of the inner loop, edit_distance.cpp:34-36: three cells are read, one is written. -/
def cellStep (str1 str2 : Str) (i : Nat) (M : Matrix) (j : Nat) : Job Matrix := do
  let x ← free (strAt str1 ((i : Int) - 1))
  let y ← free (strAt str2 ((j : Int) - 1))
  let tmp : Int := if x = y then 0 else 1
  let a ← one (M.get (i - 1) j)
  let a1 ← free (int (a + 1))
  let b ← one (M.get i (j - 1))
  let b1 ← free (int (b + 1))
  let c ← one (M.get (i - 1) (j - 1))
  let c1 ← free (int (c + tmp))
  one (M.set i j (min3 a1 b1 c1))

/-- Inner loop, edit_distance.cpp:33-37. -/
def rowStep (str1 str2 : Str) (n : Nat) (M : Matrix) (i : Nat) : Job Matrix :=
  (List.range' 1 n).foldlM (cellStep str1 str2 i) M

/-- The destructor of `matrix` at the end of its scope, edit_distance.cpp:41: the rows, then the array of pointers. -/
def destroy (m n : Nat) : Job Unit := do
  (List.range (m + 1)).foldlM (fun _ _ => give (4 * (n + 1))) ()
  give (8 * (m + 1) + 8)

/-- `editDistance(str1, str2)`, edit_distance.cpp:17-41. -/
def editDistance (str1 str2 : Str) : Job Int := do
  let m := str1.length
  let n := str2.length
  if m = 0 ∨ n = 0 then free (int ((m : Int) + n)) else do
  take (8 * (m + 1) + 8)
  let M ← (List.range (m + 1)).foldlM (fun M i => do
    take (4 * (n + 1))
    one (M.set i 0 i)) (⟨m + 1, n + 1, fun _ _ => none⟩ : Matrix)
  let M ← (List.range (n + 1)).foldlM (fun M i => one (M.set 0 i i)) M
  let M ← (List.range' 1 m).foldlM (rowStep str1 str2 n) M
  let d ← one (M.get m n)
  destroy m n
  free (.ok d)

end EditDistance.Work
