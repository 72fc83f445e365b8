import Verif.Model.Matrix

/-!
# Model of the memory of `class Matrix<ValueType>`, /repo/src/include/math_utils/Matrix.h

`Model/Matrix.lean` treats a matrix as a value; here `elem` is an address.  `new` returns an address that was never used before
and does not fail; `delete[]` of an address that is not allocated is undefined.  New entries and new row pointers are
indeterminate (`none`); reading them is undefined.  The objects themselves are variables, except those made by `new Matrix`.
Of `return ret;` (Matrix.h:97, :112) the copy is elided (else a copy is made and `ret` destroyed).
-/

namespace Matrix.Mem
open Cpp

/-- What `new` returns. -/
inductive Block (α : Type) where
  /-- `new ValueType*[row]` -/
  | ptrs (l : List (Option Nat))
  /-- `new ValueType[col]` -/
  | vals (l : List (Option α))
  /-- `new Matrix` -/
  | mat

/-- The memory; `none` is free, and so is every address from `next` on. -/
structure Heap (α : Type) where
  cell : Nat → Option (Block α)
  next : Nat

/-- The memory at the start. -/
def Heap.empty {α : Type} : Heap α := ⟨fun _ => none, 0⟩

/-- The data members, Matrix.h:195-197. -/
structure Obj where
  elem : Nat
  row : Nat
  col : Nat

/-- `new`. -/
def Heap.alloc {α : Type} (h : Heap α) (b : Block α) : Nat × Heap α :=
  (h.next, ⟨fun x => if x = h.next then some b else h.cell x, h.next + 1⟩)

/-- A write to an allocated block. -/
def Heap.put {α : Type} (h : Heap α) (a : Nat) (b : Block α) : Heap α := ⟨fun x => if x = a then some b else h.cell x, h.next⟩

/-- `delete[]`. -/
def Heap.free {α : Type} (h : Heap α) (a : Nat) : Out (Heap α) :=
  if (h.cell a).isSome then .ok ⟨fun x => if x = a then none else h.cell x, h.next⟩ else .ub

/-- The row pointers at an address. -/
def Heap.ptrs {α : Type} (h : Heap α) (e : Nat) : Out (List (Option Nat)) :=
  match h.cell e with
  | some (.ptrs l) => .ok l
  | _ => .ub

/-- The entries at an address. -/
def Heap.vals {α : Type} (h : Heap α) (a : Nat) : Out (List (Option α)) :=
  match h.cell a with
  | some (.vals l) => .ok l
  | _ => .ub

/-- An entry of a block; beyond its end and before it is written it must not be read. -/
def entry {β : Type} (l : List (Option β)) (i : Nat) : Out β :=
  match l[i]? with
  | some (some x) => .ok x
  | _ => .ub

/-- `elem[i]`, Matrix.h:51. -/
def rowPtr {α : Type} (h : Heap α) (o : Obj) (i : Nat) : Out Nat := do entry (← h.ptrs o.elem) i

/-- Reading `(*this)[i][j]`, Matrix.h:51. -/
def get {α : Type} (h : Heap α) (o : Obj) (i j : Nat) : Out α := do
  let p ← rowPtr h o i
  entry (← h.vals p) j

/-- Writing `(*this)[i][j] = v`, Matrix.h:51. -/
def set {α : Type} (h : Heap α) (o : Obj) (i j : Nat) (v : α) : Out (Heap α) := do
  let p ← rowPtr h o i
  let l ← h.vals p
  if j < l.length then .ok (h.put p (.vals (l.set j (some v)))) else .ub

/-- `elem[i] = new ValueType[col]`, Matrix.h:23, :33, :131. -/
def newRow {α : Type} (o : Obj) (h : Heap α) (i : Nat) : Out (Nat × Heap α) := do
  let (a, h) := h.alloc (.vals (List.replicate o.col none))
  let l ← h.ptrs o.elem
  if i < l.length then .ok (a, h.put o.elem (.ptrs (l.set i (some a)))) else .ub

/-- `Matrix(n, m)`, Matrix.h:20-26; `memset` writes zeros. -/
def make {α : Type} (ar : Arith α) (h : Heap α) (n m : Nat) : Out (Obj × Heap α) := do
  let (e, h) := h.alloc (.ptrs (List.replicate n none))
  let o : Obj := ⟨e, n, m⟩
  let h ← (List.range n).foldlM (fun h i => do
    let (a, h) ← newRow o h i
    .ok (h.put a (.vals (List.replicate m (some ar.zero))))) h
  .ok (o, h)

/-- The loop `for (i …) { elem[i] = new ValueType[col]; for (j …) elem[i][j] = …; }`, Matrix.h:31-35 and 129-133; `src` reads
the value to store. -/
def fill {α : Type} (src : Heap α → Nat → Nat → Out α) (h : Heap α) (n m : Nat) : Out (Obj × Heap α) := do
  let (e, h) := h.alloc (.ptrs (List.replicate n none))
  let o : Obj := ⟨e, n, m⟩
  let h ← (List.range n).foldlM (fun h i => do
    let (_, h) ← newRow o h i
    (List.range m).foldlM (fun h j => do
      let v ← src h i j
      set h o i j v) h) h
  .ok (o, h)

/-- `ini[i][j]`, Matrix.h:34. -/
def iniAt {α : Type} (ini : List (List α)) (i j : Nat) : Out α :=
  match ini[i]? with
  | some r => match r[j]? with
    | some x => .ok x
    | none => .ub
  | none => .ub

/-- `Matrix(std::vector<std::vector<int>> ini)`, Matrix.h:28-36, on entries already converted to `ValueType`. -/
def ofRows {α : Type} (h : Heap α) (ini : List (List α)) : Out (Obj × Heap α) :=
  match ini with
  | [] => .ub
  | first :: _ => fill (fun _ i j => iniAt ini i j) h ini.length first.length

/-- `deepCopy(src)`, Matrix.h:127-134, and the copy constructor, Matrix.h:38. -/
def deepCopy {α : Type} (h : Heap α) (src : Obj) : Out (Obj × Heap α) :=
  fill (fun h i j => get h src i j) h src.row src.col

/-- `clear()`, Matrix.h:122-125, and the destructor, Matrix.h:40. -/
def clear {α : Type} (h : Heap α) (o : Obj) : Out (Heap α) := do
  let h ← (List.range o.row).foldlM (fun h i => do h.free (← rowPtr h o i)) h
  h.free o.elem

/-- `operator=` for a source that is another object, Matrix.h:43-48. -/
def assign {α : Type} (h : Heap α) (dst src : Obj) : Out (Obj × Heap α) := do
  let h ← clear h dst
  deepCopy h src

/-- Two nested loops over the cells of a matrix, Matrix.h:73-76, 83-86, 95-96, 102-103, 110-111, 117-118. -/
def cells {α : Type} (n m : Nat) (body : Heap α → Nat → Nat → Out (Heap α)) (h : Heap α) : Out (Heap α) :=
  (List.range n).foldlM (fun h i => (List.range m).foldlM (fun h j => body h i j) h) h

/-- `(*ret)[i][j] += (*this)[i][k] * other[k][j]` for all `k`, Matrix.h:75-76 and 85-86. -/
def dotLoop {α : Type} (ar : Arith α) (ret A B : Obj) (h : Heap α) (i j : Nat) : Out (Heap α) :=
  (List.range A.col).foldlM (fun h k => do
    let x ← get h A i k
    let y ← get h B k j
    let p ← ar.mul x y
    let r ← get h ret i j
    set h ret i j (← ar.add r p)) h

/-- `operator*`, Matrix.h:70-78: what `new Matrix` returned is copied and forgotten. -/
def times {α : Type} (ar : Arith α) (h : Heap α) (A B : Obj) : Out (Obj × Heap α) :=
  if A.col ≠ B.row then .exit else do
  let (_, h) := h.alloc .mat
  let (ret, h) ← make ar h A.row B.col
  let h ← cells ret.row ret.col (dotLoop ar ret A B) h
  deepCopy h ret

/-- `operator*=`, Matrix.h:80-90. -/
def timesAssign {α : Type} (ar : Arith α) (h : Heap α) (A B : Obj) : Out (Obj × Heap α) :=
  if A.col ≠ B.row then .exit else do
  let (_, h) := h.alloc .mat
  let (ret, h) ← make ar h A.row B.col
  let h ← cells ret.row ret.col (dotLoop ar ret A B) h
  let h ← clear h A
  assign h A ret

/-- `operator+`, Matrix.h:92-98, and `operator-`, Matrix.h:107-113 (with `f` the operation on entries). -/
def combine {α : Type} (ar : Arith α) (f : α → α → Out α) (h : Heap α) (A B : Obj) : Out (Obj × Heap α) :=
  if ¬ (A.row = B.row ∧ A.col = B.col) then .exit else do
  let (ret, h) ← make ar h A.row A.col
  let h ← cells A.row A.col (fun h i j => do
    let x ← get h A i j
    let y ← get h B i j
    set h ret i j (← f x y)) h
  .ok (ret, h)

/-- `operator+=`, Matrix.h:100-105, and `operator-=`, Matrix.h:115-120. -/
def combineAssign {α : Type} (f : α → α → Out α) (h : Heap α) (A B : Obj) : Out (Heap α) :=
  if ¬ (A.row = B.row ∧ A.col = B.col) then .exit else
  cells A.row A.col (fun h i j => do
    let x ← get h A i j
    let y ← get h B i j
    set h A i j (← f x y)) h

end Matrix.Mem
