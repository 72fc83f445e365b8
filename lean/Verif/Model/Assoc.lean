import Verif.Model.Stl

/-!
# Models of Map, Set, MultiSet and MultiMap, /repo/src/include/containers/{Map,Set,MultiSet,MultiMap}.h

The state of a container is the list of its elements in the order of iteration.
-/

open Cpp

namespace Cont.Map

variable {κ ν : Type} [LinearOrder κ]

/-- `Map(init)`, Map.h:184-187: of several pairs with the same key `std::map` takes the first. -/
def init (ps : List (κ × ν)) : List (κ × ν) := ps.foldl (fun m p => Stl.mapInsert p.1 p.2 m) []

/-- `keyCheck(key)`, Map.h:282-287. -/
def keyCheck (m : List (κ × ν)) (key : κ) : Out Unit := if (Stl.mapFind key m).isNone then .exit else .ok ()

/-- `get(key)`, Map.h:205-215: `at` throws if there is no such key. -/
def get (m : List (κ × ν)) (key : κ) : Out ν := do
  keyCheck m key
  match Stl.mapFind key m with
  | some v => .ok v
  | none => .ub

/-- `set(key, value)`, Map.h:217-220, and `m[key] = value`, Map.h:222-225. -/
def set (m : List (κ × ν)) (key : κ) (value : ν) : List (κ × ν) := Stl.mapPut key value m

/-- Reading `m[key]`, Map.h:222-225: the value, and the Map afterwards; a new key has the default value. -/
def index (dflt : ν) (m : List (κ × ν)) (key : κ) : ν × List (κ × ν) :=
  ((Stl.mapFind key m).getD dflt, Stl.mapInsert key dflt m)

/-- `isEmpty()`, Map.h:227-230. -/
def isEmpty (m : List (κ × ν)) : Bool := m.isEmpty

/-- `size()`, Map.h:232-235. -/
def size (m : List (κ × ν)) : Int := toInt m.length

/-- `erase(key)`, Map.h:242-245. -/
def erase (m : List (κ × ν)) (key : κ) : List (κ × ν) := Stl.mapErase key m

/-- `contains(key)`, Map.h:247-250. -/
def contains (m : List (κ × ν)) (key : κ) : Bool := (Stl.mapFind key m).isSome

/-- A call that changes a Map. -/
inductive Call (κ ν : Type) where
  | set (k : κ) (v : ν)
  | index (k : κ)
  | erase (k : κ)
  | clear

/-- The Map after a call. -/
def call (dflt : ν) (m : List (κ × ν)) : Call κ ν → List (κ × ν)
  | .set k v => set m k v
  | .index k => (index dflt m k).2
  | .erase k => erase m k
  | .clear => []

end Cont.Map

namespace Cont.Set

variable {α : Type} [LinearOrder α]

/-- `Set(init)`, Set.h:156-159. -/
def init (xs : List α) : List α := xs.foldl (fun s x => Stl.setInsert x s) []

/-- `isEmpty()`, Set.h:177-180. -/
def isEmpty (s : List α) : Bool := s.isEmpty

/-- `size()`, Set.h:182-185. -/
def size (s : List α) : Int := toInt s.length

/-- `insert(value)`, Set.h:187-190. -/
def insert (s : List α) (value : α) : List α := Stl.setInsert value s

/-- `erase(value)`, Set.h:192-195. -/
def erase (s : List α) (value : α) : List α := Stl.setErase value s

/-- `contains(value)`, Set.h:202-205. -/
def contains (s : List α) (value : α) : Bool := Stl.setFind value s

/-- A call that changes a Set. -/
inductive Call (α : Type) where
  | insert (x : α)
  | erase (x : α)
  | clear

/-- The Set after a call. -/
def call (s : List α) : Call α → List α
  | .insert x => insert s x
  | .erase x => erase s x
  | .clear => []

end Cont.Set

namespace Cont.MultiSet

variable {α : Type} [LinearOrder α]

/-- `MultiSet(init)`, MultiSet.h:162-165. -/
def init (xs : List α) : List α := xs.foldl (fun s x => Stl.msetInsert x s) []

/-- `isEmpty()`, MultiSet.h:183-186. -/
def isEmpty (s : List α) : Bool := s.isEmpty

/-- `size()`, MultiSet.h:188-191. -/
def size (s : List α) : Int := toInt s.length

/-- `insert(value)`, MultiSet.h:193-196. -/
def insert (s : List α) (value : α) : List α := Stl.msetInsert value s

/-- `erase(value)`, MultiSet.h:198-205. -/
def erase (s : List α) (value : α) : Out (List α) :=
  if Stl.setFind value s = false then .exit else .ok (Stl.setErase value s)

/-- `count(value)`, MultiSet.h:207-210. -/
def count (s : List α) (value : α) : Int := toInt (Stl.setCount value s)

/-- `contains(value)`, MultiSet.h:217-220. -/
def contains (s : List α) (value : α) : Bool := Stl.setFind value s

/-- A call that changes a MultiSet. -/
inductive Call (α : Type) where
  | insert (x : α)
  | erase (x : α)
  | clear

/-- The MultiSet after a call. -/
def call (s : List α) : Call α → Out (List α)
  | .insert x => .ok (insert s x)
  | .erase x => erase s x
  | .clear => .ok []

end Cont.MultiSet

namespace Cont.MultiMap

variable {κ ν : Type} [LinearOrder κ]

/-- `MultiMap(init)`, MultiMap.h:165-169. -/
def init (ps : List (κ × ν)) : List (κ × ν) := ps.foldl (fun m p => Stl.mmapInsert p.1 p.2 m) []

/-- `isEmpty()`, MultiMap.h:188-191. -/
def isEmpty (m : List (κ × ν)) : Bool := m.isEmpty

/-- `size()`, MultiMap.h:193-196. -/
def size (m : List (κ × ν)) : Int := toInt m.length

/-- `erase(key)`, MultiMap.h:203-206. -/
def erase (m : List (κ × ν)) (key : κ) : List (κ × ν) := Stl.mapErase key m

/-- `count(key)`, MultiMap.h:208-211. -/
def count (m : List (κ × ν)) (key : κ) : Int := toInt (Stl.mmapRange key m).length

/-- `find(key)`, MultiMap.h:213-221. -/
def find [LinearOrder ν] (m : List (κ × ν)) (key : κ) : List ν :=
  (Stl.mmapRange key m).foldl (fun valueSet x => Set.insert valueSet x) []

end Cont.MultiMap
