import Verif.Model.Assoc
import Verif.Model.Geometry

/-!
# Set, Map and List::sort for element types with an `operator<` of their own

/repo/src/include/containers/{Set,Map,List}.h for element types such as Fraction (Fraction.h:107-109), BigNum (BigNum.h:71),
Point (Point.h:111-115) and Vertex (Vertex.cpp:66): every comparison of keys is a call of `operator<`, which may be undefined.
As in `Model/Stl.lean` the state of a container is the list of its elements in the order of iteration, and a search compares
with one element after the other.  (`std::set` compares only with the elements on one path of its tree.  The theorems that
a program runs assume that all comparisons are defined; the refutations are about containers with at most one element, which
every implementation has to compare.)  Elements are copied into the container; a copy compares like the original.
-/

open Cpp

namespace Cont.By

variable {α ν : Type} (lt : α → α → Out Bool)

/-- `privateSet.insert(value)`, Set.h:187-190. -/
def setInsert (x : α) : List α → Out (List α)
  | [] => .ok [x]
  | y :: s => do
    if ← lt x y then .ok (x :: y :: s) else
    if ← lt y x then do .ok (y :: (← setInsert x s)) else .ok (y :: s)

/-- `privateSet.erase(value)`, Set.h:192-195. -/
def setErase (x : α) : List α → Out (List α)
  | [] => .ok []
  | y :: s => do
    if ← lt x y then .ok (y :: s) else
    if ← lt y x then do .ok (y :: (← setErase x s)) else setErase x s

/-- `contains(value)`, Set.h:202-205. -/
def setFind (x : α) : List α → Out Bool
  | [] => .ok false
  | y :: s => do
    if ← lt x y then .ok false else
    if ← lt y x then setFind x s else .ok true

/-- The Set after a call, Set.h:187-200. -/
def setCall (s : List α) : Set.Call α → Out (List α)
  | .insert x => setInsert lt x s
  | .erase x => setErase lt x s
  | .clear => .ok []

/-- A history of calls on an empty Set. -/
def setRun (calls : List (Set.Call α)) : Out (List α) := calls.foldlM (setCall lt) []

/-- `privateMap[key] = value`, Map.h:217-225. -/
def mapPut (k : α) (x : ν) : List (α × ν) → Out (List (α × ν))
  | [] => .ok [(k, x)]
  | (k', x') :: m => do
    if ← lt k k' then .ok ((k, x) :: (k', x') :: m) else
    if ← lt k' k then do .ok ((k', x') :: (← mapPut k x m)) else .ok ((k', x) :: m)

/-- `privateMap[key]` as a value, Map.h:222-225: a new key gets the default value. -/
def mapInsert (k : α) (x : ν) : List (α × ν) → Out (List (α × ν))
  | [] => .ok [(k, x)]
  | (k', x') :: m => do
    if ← lt k k' then .ok ((k, x) :: (k', x') :: m) else
    if ← lt k' k then do .ok ((k', x') :: (← mapInsert k x m)) else .ok ((k', x') :: m)

/-- `privateMap.find(key)`: the value behind the iterator, or `none` for `end()`. -/
def mapFind (k : α) : List (α × ν) → Out (Option ν)
  | [] => .ok none
  | (k', x') :: m => do
    if ← lt k k' then .ok none else
    if ← lt k' k then mapFind k m else .ok (some x')

/-- `privateMap.erase(key)`, Map.h:242-245. -/
def mapErase (k : α) : List (α × ν) → Out (List (α × ν))
  | [] => .ok []
  | (k', x') :: m => do
    if ← lt k k' then .ok ((k', x') :: m) else
    if ← lt k' k then do .ok ((k', x') :: (← mapErase k m)) else mapErase k m

/-- `get(key)`, Map.h:205-215 and 282-287: `error` if there is no such key. -/
def mapGet (m : List (α × ν)) (k : α) : Out ν := do
  match ← mapFind lt k m with
  | some v => .ok v
  | none => .exit

/-- The Map after a call, Map.h:217-245. -/
def mapCall (dflt : ν) (m : List (α × ν)) : Map.Call α ν → Out (List (α × ν))
  | .set k v => mapPut lt k v m
  | .index k => mapInsert lt k dflt m
  | .erase k => mapErase lt k m
  | .clear => .ok []

/-- A history of calls on an empty Map. -/
def mapRun (dflt : ν) (calls : List (Map.Call α ν)) : Out (List (α × ν)) := calls.foldlM (mapCall lt dflt) []

/-- Merging two sorted parts of a list: the first elements are compared, equal ones are taken from the first part. -/
def merge : List α → List α → Out (List α)
  | [], b => .ok b
  | x :: a, [] => .ok (x :: a)
  | x :: a, y :: b => do
    if ← lt y x then do .ok (y :: (← merge (x :: a) b)) else do .ok (x :: (← merge a (y :: b)))
termination_by a b => a.length + b.length

/-- `privateList.sort()`, List.h:369-372: merge sort.  (`fuel` bounds the depth; the library merges runs in another order, with
the same result when all comparisons are defined.) -/
def sort : Nat → List α → Out (List α)
  | 0, _ => .diverge
  | fuel + 1, l =>
    if l.length ≤ 1 then .ok l else do
      let a ← sort fuel (l.take (l.length / 2))
      let b ← sort fuel (l.drop (l.length / 2))
      merge lt a b

/-- `Point::operator<`, Point.h:111-115, which is always defined. -/
noncomputable def ltPoint {N : Nat} (p q : Geo.Point N Dbl) : Out Bool := .ok (Geo.lt Geo.Fp.dbl p q)

end Cont.By
