import Verif.Cpp
import Mathlib.Order.Defs.LinearOrder

/-!
# The parts of the C++ standard library the containers of /repo/src/include/containers are made of

Not a transcription of code in /repo: these are the documented effects of the members of `std::vector`, `std::list`,
`std::deque` (inside `std::queue` and `std::stack`), `std::map`, `std::set`, `std::multiset` and `std::multimap` which the
library calls.  A container is the list of its elements in the order of iteration, an iterator is a position in it.  A
violated precondition is undefined behaviour; so is, here, an exception (there is none that is not excluded by the checks
of the library).  Memory never runs out.  Keys are compared by a linear order.
-/

namespace Stl
open Cpp

variable {α β : Type}

/-- `c.at(i)` (it would throw `std::out_of_range`). -/
def at' (l : List α) (i : Nat) : Out α :=
  match l[i]? with
  | some v => .ok v
  | none => .ub

/-- `v[i] = x` for a vector. -/
def setAt (l : List α) (i : Nat) (x : α) : Out (List α) := if i < l.length then .ok (l.set i x) else .ub

/-- `c.front()` -/
def front : List α → Out α
  | [] => .ub
  | x :: _ => .ok x

/-- `c.back()` -/
def back (l : List α) : Out α :=
  match l.getLast? with
  | some x => .ok x
  | none => .ub

/-- `c.pop_front()` -/
def popFront : List α → Out (List α)
  | [] => .ub
  | _ :: l => .ok l

/-- `c.pop_back()` -/
def popBack (l : List α) : Out (List α) := if l = [] then .ub else .ok l.dropLast

/-- `std::advance(it, n)` for an iterator at position `it`. -/
def advance (l : List α) (it : Nat) (n : Int) : Out Nat :=
  if 0 ≤ (it : Int) + n ∧ (it : Int) + n ≤ l.length then .ok ((it : Int) + n).toNat else .ub

/-- `c.insert(it, x)` -/
def insertAt (l : List α) (it : Nat) (x : α) : Out (List α) :=
  if it ≤ l.length then .ok (l.take it ++ x :: l.drop it) else .ub

/-- `c.erase(it)` -/
def eraseAt (l : List α) (it : Nat) : Out (List α) :=
  if it < l.length then .ok (l.take it ++ l.drop (it + 1)) else .ub

/-- `lexicographical_compare(l, l')`, which `operator<` of the containers stands for. -/
def lexLt (lt : α → α → Bool) : List α → List α → Bool
  | _, [] => false
  | [], _ :: _ => true
  | x :: l, y :: l' => lt x y || (!lt y x && lexLt lt l l')

/-- `list.merge(list2)` of `std::list`: both have to be sorted. -/
def merge [LinearOrder α] (l l' : List α) : Out (List α) :=
  if l.Pairwise (· ≤ ·) ∧ l'.Pairwise (· ≤ ·) then .ok (l.merge l' (fun a b => decide (a ≤ b))) else .ub

/-- `list.sort()` of `std::list`. -/
def sort [LinearOrder α] (l : List α) : List α := l.mergeSort (fun a b => decide (a ≤ b))

/-- `m[key] = x` for a map. -/
def mapPut [LinearOrder α] (k : α) (x : β) : List (α × β) → List (α × β)
  | [] => [(k, x)]
  | (k', x') :: m => if k < k' then (k, x) :: (k', x') :: m else if k' < k then (k', x') :: mapPut k x m else (k', x) :: m

/-- `m.insert(pair)` for a map: nothing happens if there is one with that key already. -/
def mapInsert [LinearOrder α] (k : α) (x : β) : List (α × β) → List (α × β)
  | [] => [(k, x)]
  | (k', x') :: m =>
    if k < k' then (k, x) :: (k', x') :: m else if k' < k then (k', x') :: mapInsert k x m else (k', x') :: m

/-- `m.find(key)`: the value behind the iterator, or `none` for `m.end()`. -/
def mapFind [LinearOrder α] (k : α) : List (α × β) → Option β
  | [] => none
  | (k', x') :: m => if k < k' then none else if k' < k then mapFind k m else some x'

/-- `m.erase(key)` for a map or a multimap: all elements with that key. -/
def mapErase [LinearOrder α] (k : α) : List (α × β) → List (α × β)
  | [] => []
  | (k', x') :: m => if k < k' then (k', x') :: m else if k' < k then (k', x') :: mapErase k m else mapErase k m

/-- `s.insert(x)` for a set. -/
def setInsert [LinearOrder α] (x : α) : List α → List α
  | [] => [x]
  | y :: s => if x < y then x :: y :: s else if y < x then y :: setInsert x s else y :: s

/-- `s.insert(x)` for a multiset: behind the equal ones. -/
def msetInsert [LinearOrder α] (x : α) : List α → List α
  | [] => [x]
  | y :: s => if x < y then x :: y :: s else y :: msetInsert x s

/-- `s.find(x) != s.end()` for a set or a multiset. -/
def setFind [LinearOrder α] (x : α) : List α → Bool
  | [] => false
  | y :: s => if x < y then false else if y < x then setFind x s else true

/-- `s.erase(x)` for a set or a multiset: all elements equal to `x`. -/
def setErase [LinearOrder α] (x : α) : List α → List α
  | [] => []
  | y :: s => if x < y then y :: s else if y < x then y :: setErase x s else setErase x s

/-- `s.count(x)` for a set or a multiset. -/
def setCount [LinearOrder α] (x : α) : List α → Nat
  | [] => 0
  | y :: s => if x < y then 0 else if y < x then setCount x s else setCount x s + 1

/-- `m.insert(pair)` for a multimap: behind those with the same key. -/
def mmapInsert [LinearOrder α] (k : α) (x : β) : List (α × β) → List (α × β)
  | [] => [(k, x)]
  | (k', x') :: m => if k < k' then (k, x) :: (k', x') :: m else (k', x') :: mmapInsert k x m

/-- The values in `m.equal_range(key)` of a multimap. -/
def mmapRange [LinearOrder α] (k : α) : List (α × β) → List β
  | [] => []
  | (k', x') :: m => if k < k' then [] else if k' < k then mmapRange k m else x' :: mmapRange k m

end Stl
