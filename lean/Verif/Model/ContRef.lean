import Verif.Model.Sequence
import Verif.Model.Assoc

/-!
# References to the elements of List, Vector, Stack, Queue and Map, /repo/src/include/containers

`operator[]`, `get`, `first`, `last` and `top` return a reference to the element inside the container, not a copy.  Here an
element has a name, which stands for the references to it: a container is the list of the names of its elements, and `mem`
says what is stored under the name of an element that can still be referred to.  Which calls invalidate which references is
not code of /repo but written in the C++11 standard for the member of `std::list` (23.3.5), `std::vector` (23.3.6),
`std::deque` (23.3.3) and `std::map` (23.2.4) the library calls: an invalidated reference loses its name (for a vector the
element goes on living under another one).  Using an invalidated reference is undefined behaviour.
-/

open Cpp

namespace Cont.Ref

variable {α : Type}

/-- A container object: the next new name, what is stored under a name, the names of the elements in order. -/
structure Obj (α : Type) where
  next : Nat := 0
  mem : Nat → Option α := fun _ => none
  nodes : List Nat := []

/-- the values in the container, in order (what iteration, e.g. List.h:204-223, shows) -/
def Obj.contents (s : Obj α) : List α := s.nodes.filterMap s.mem

/-- reading through a reference -/
def Obj.read (s : Obj α) (r : Nat) : Out α :=
  match s.mem r with
  | some x => .ok x
  | none => .ub

/-- `r = x` for a reference `r` -/
def Obj.write (s : Obj α) (r : Nat) (x : α) : Out (Obj α) :=
  match s.mem r with
  | some _ => .ok { s with mem := fun i => if i = r then some x else s.mem i }
  | none => .ub

/-- A new element with the value `x`: its name, and the object with it in memory (but not in the order yet). -/
def Obj.new (s : Obj α) (x : α) : Nat × Obj α :=
  (s.next, { s with next := s.next + 1, mem := fun i => if i = s.next then some x else s.mem i })

/-- The element `r` is destroyed. -/
def Obj.free (s : Obj α) (r : Nat) : Obj α := { s with mem := fun i => if i = r then none else s.mem i }

/-- `push(value)`: List.h:343-346, Stack.h:165-168, Queue.h:186-189 (no reference is invalidated). -/
def push (s : Obj α) (value : α) : Obj α :=
  let (r, s) := s.new value
  { s with nodes := s.nodes ++ [r] }

/-- `push_front(value)`, List.h:348-351. -/
def pushFront (s : Obj α) (value : α) : Obj α :=
  let (r, s) := s.new value
  { s with nodes := r :: s.nodes }

/-- `pop()`: List.h:353-359, Vector.h:336-342, Stack.h:170-176 (only the reference to the last element is invalidated). -/
def pop (s : Obj α) : Out (α × Obj α) := do
  if s.nodes = [] then .exit else
  let r ← Stl.back s.nodes
  let lastElement ← s.read r
  let nodes ← Stl.popBack s.nodes
  .ok (lastElement, { s.free r with nodes := nodes })

/-- `pop_front()`, List.h:361-367, and `dequeue()`, Queue.h:191-197. -/
def popFront (s : Obj α) : Out (α × Obj α) := do
  if s.nodes = [] then .exit else
  let r ← Stl.front s.nodes
  let firstElement ← s.read r
  let nodes ← Stl.popFront s.nodes
  .ok (firstElement, { s.free r with nodes := nodes })

/-- `clear()`: List.h:319-322, Vector.h:301-304, and the loops of Stack.h:178-184, Queue.h:199-205. -/
def clear (s : Obj α) : Obj α := { s with mem := fun _ => none, nodes := [] }

/-- `boundaryCheck(index)`, List.h:414-420, Vector.h:374-380. -/
def boundaryCheck (s : Obj α) (index : Int) : Out Unit :=
  if index < 0 ∨ index ≥ s.nodes.length then .exit else .ok ()

/-- What `first()` refers to: List.h:265-269, Vector.h:255-259 (`emptyCheck`, then `front`). -/
def first (s : Obj α) : Out Nat := if s.nodes = [] then .exit else Stl.front s.nodes

/-- What `last()` refers to: List.h:277-281, Vector.h:267-271, and `top()`, Stack.h:148-152. -/
def last (s : Obj α) : Out Nat := if s.nodes = [] then .exit else Stl.back s.nodes

/-- What `operator[](index)` refers to, Vector.h:243-253, 279-283. -/
def at' (s : Obj α) (index : Int) : Out Nat := do
  boundaryCheck s index
  Stl.at' s.nodes index.toNat

namespace Lst

/-- What `operator[](index)` refers to, List.h:289-297. -/
def at' (s : Obj α) (index : Int) : Out Nat := do
  boundaryCheck s index
  Lst.walk s.nodes index.toNat

/-- `insert(index, value)`, List.h:324-333. -/
def insert (s : Obj α) (index : Int) (value : α) : Out (Obj α) := do
  if index < 0 ∨ index > s.nodes.length then .exit else
  let it ← Stl.advance s.nodes 0 index
  let (r, s) := s.new value
  .ok { s with nodes := ← Stl.insertAt s.nodes it r }

/-- `erase(index)`, List.h:335-341. -/
def erase (s : Obj α) (index : Int) : Out (Obj α) := do
  boundaryCheck s index
  let it ← Stl.advance s.nodes 0 index
  let r ← Stl.at' s.nodes it
  .ok { s.free r with nodes := ← Stl.eraseAt s.nodes it }

/-- `*a <= *b` for two elements of the list -/
def le [LinearOrder α] (a b : Option α) : Bool :=
  match a, b with
  | some x, some y => decide (x ≤ y)
  | _, _ => true

/-- `sort()`, List.h:369-372: `std::list::sort` orders the nodes anew (stably) and moves no value. -/
def sort [LinearOrder α] (s : Obj α) : Obj α :=
  { s with nodes := s.nodes.mergeSort (fun a b => le (s.mem a) (s.mem b)) }

/-- `reverse()`, List.h:374-377. -/
def reverse (s : Obj α) : Obj α := { s with nodes := s.nodes.reverse }

/-- A call of a member of a List: what it returns, if anything, and the List afterwards. -/
def call [LinearOrder α] (s : Obj α) : Lst.Call α → Out (Option α × Obj α)
  | .get i => do .ok (some (← s.read (← at' s i)), s)
  | .first => do .ok (some (← s.read (← first s)), s)
  | .last => do .ok (some (← s.read (← last s)), s)
  | .clear => .ok (none, clear s)
  | .insert i x => do .ok (none, ← insert s i x)
  | .erase i => do .ok (none, ← erase s i)
  | .push x => .ok (none, push s x)
  | .pushFront x => .ok (none, pushFront s x)
  | .pop => do
    let (x, s) ← pop s
    .ok (some x, s)
  | .popFront => do
    let (x, s) ← popFront s
    .ok (some x, s)
  | .sort => .ok (none, sort s)
  | .reverse => .ok (none, reverse s)

end Lst

namespace Vector

/-- A Vector: its elements, and the capacity of the `std::vector`. -/
structure Vec (α : Type) extends Obj α where
  cap : Nat := 0

/-- A Vector with the given values and capacity (Vector.h:223-236). -/
def ofList (vs : List α) (cap : Nat) : Vec α :=
  { next := vs.length, mem := fun i => vs[i]?, nodes := List.range vs.length, cap := cap }

/-- The elements `rs` get new names: the references to them are invalidated. -/
def renew : Obj α → List Nat → Obj α × List Nat
  | s, [] => (s, [])
  | s, r :: rs =>
    match s.mem r with
    | some x =>
      let (r', s) := (s.free r).new x
      let (s, rs) := renew s rs
      (s, r' :: rs)
    | none =>
      let (s, rs) := renew s rs
      (s, r :: rs)

/-- Put `value` at position `it`: beyond the capacity (which becomes `grow cap`) all references are invalidated, otherwise
those from `it` on. -/
def insertAt (grow : Nat → Nat) (v : Vec α) (it : Nat) (value : α) : Out (Vec α) := do
  let full := v.nodes.length ≥ v.cap
  let (s, keep) := if full then renew v.toObj (v.nodes.take it) else (v.toObj, v.nodes.take it)
  let (s, moved) := renew s (v.nodes.drop it)
  let (r, s) := s.new value
  if it ≤ v.nodes.length then
    .ok { toObj := { s with nodes := keep ++ r :: moved }, cap := if full then grow v.cap else v.cap }
  else .ub

/-- `insert(index, value)`, Vector.h:306-315. -/
def insert (grow : Nat → Nat) (v : Vec α) (index : Int) (value : α) : Out (Vec α) := do
  if index < 0 ∨ index > v.nodes.length then .exit else
  let it ← Stl.advance v.nodes 0 index
  insertAt grow v it value

/-- `push(value)`, Vector.h:331-334. -/
def push (grow : Nat → Nat) (v : Vec α) (value : α) : Out (Vec α) := insertAt grow v v.nodes.length value

/-- `erase(index)`, Vector.h:317-323: the references from the element on are invalidated. -/
def erase (v : Vec α) (index : Int) : Out (Vec α) := do
  boundaryCheck v.toObj index
  let it ← Stl.advance v.nodes 0 index
  let r ← Stl.at' v.nodes it
  let (s, moved) := renew (v.toObj.free r) (v.nodes.drop (it + 1))
  .ok { toObj := { s with nodes := v.nodes.take it ++ moved }, cap := v.cap }

/-- `set(index, value)`, Vector.h:325-329. -/
def set (v : Vec α) (index : Int) (value : α) : Out (Vec α) := do
  let r ← at' v.toObj index
  .ok { v with toObj := ← v.toObj.write r value }

/-- A call of a member of a Vector; `clear` keeps the capacity. -/
def call (grow : Nat → Nat) (v : Vec α) : Vector.Call α → Out (Option α × Vec α)
  | .get i => do .ok (some (← v.toObj.read (← at' v.toObj i)), v)
  | .first => do .ok (some (← v.toObj.read (← first v.toObj)), v)
  | .last => do .ok (some (← v.toObj.read (← last v.toObj)), v)
  | .clear => .ok (none, { v with toObj := clear v.toObj })
  | .insert i x => do .ok (none, ← insert grow v i x)
  | .erase i => do .ok (none, ← erase v i)
  | .set i x => do .ok (none, ← set v i x)
  | .push x => do .ok (none, ← push grow v x)
  | .pop => do
    let (x, s) ← pop v.toObj
    .ok (some x, { v with toObj := s })

end Vector

/-- A call of a member of a Stack, Stack.h:148-184. -/
def Stack.call (s : Obj α) : Stack.Call α → Out (Option α × Obj α)
  | .push x => .ok (none, push s x)
  | .pop => do
    let (x, s) ← pop s
    .ok (some x, s)
  | .top => do .ok (some (← s.read (← last s)), s)
  | .clear => .ok (none, clear s)

/-- A call of a member of a Queue, Queue.h:186-197. -/
def Queue.call (s : Obj α) : Queue.Call α → Out (Option α × Obj α)
  | .enqueue x => .ok (none, push s x)
  | .dequeue => do
    let (x, s) ← popFront s
    .ok (some x, s)

/-- What `first()` refers to, Queue.h:156-159: no check. -/
def Queue.first (s : Obj α) : Out Nat := Stl.front s.nodes

/-- What `last()` refers to, Queue.h:166-169: no check. -/
def Queue.last (s : Obj α) : Out Nat := Stl.back s.nodes

/-- The members that return a reference. -/
inductive Access where
  /-- `c[i]` -/
  | at (i : Int)
  | first
  | last

/-- A statement of a program with one container `c` and references `r0`, `r1`, ... to its elements. -/
inductive Stmt (C α : Type) where
  /-- a call of a member; the value is printed if there is one -/
  | call (c : C)
  /-- `T& rk = c[i];` (`c.first()`, `c.last()`, `c.top()`); the references are numbered in order -/
  | bind (a : Access)
  /-- print `rk` -/
  | read (k : Nat)
  /-- `rk = x;` -/
  | write (k : Nat) (x : α)

/-- A container class: a call, and what the members returning references refer to. -/
structure Class (S C α : Type) where
  obj : S → Obj α
  upd : S → Obj α → S
  call : S → C → Out (Option α × S)
  ref : S → Access → Out Nat

/-- A program: all that it prints, and the values in the container at the end.  (A statement about a reference that has
not been declared does nothing.) -/
def run {S C : Type} (K : Class S C α) : S → List Nat → List (Stmt C α) → Out (List α × List α)
  | s, _, [] => .ok ([], (K.obj s).contents)
  | s, rs, .call c :: p => do
    let (x, s) ← K.call s c
    let (out, fin) ← run K s rs p
    .ok (x.toList ++ out, fin)
  | s, rs, .bind a :: p => do
    let r ← K.ref s a
    run K s (rs ++ [r]) p
  | s, rs, .read k :: p =>
    match rs[k]? with
    | some r => do
      let x ← (K.obj s).read r
      let (out, fin) ← run K s rs p
      .ok (x :: out, fin)
    | none => run K s rs p
  | s, rs, .write k x :: p =>
    match rs[k]? with
    | some r => do
      let o ← (K.obj s).write r x
      run K (K.upd s o) rs p
    | none => run K s rs p

/-- `List<T>`: `operator[]`, `first`, `last` (List.h:265-307). -/
def listClass [LinearOrder α] : Class (Obj α) (Lst.Call α) α where
  obj := id
  upd := fun _ o => o
  call := Lst.call
  ref := fun s a => match a with
    | .at i => Lst.at' s i
    | .first => first s
    | .last => last s

/-- `Stack<T>`: every access is `top()` (Stack.h:148-152). -/
def stackClass : Class (Obj α) (Stack.Call α) α where
  obj := id
  upd := fun _ o => o
  call := Stack.call
  ref := fun s _ => last s

/-- `Queue<T>`: `first`, `last` (Queue.h:156-174); there is no `operator[]`, which is read as `last`. -/
def queueClass : Class (Obj α) (Queue.Call α) α where
  obj := id
  upd := fun _ o => o
  call := Queue.call
  ref := fun s a => match a with
    | .first => Queue.first s
    | _ => Queue.last s

/-- `Vector<T>`: `get`, `operator[]`, `first`, `last` (Vector.h:243-289). -/
def vectorClass (grow : Nat → Nat) : Class (Vector.Vec α) (Vector.Call α) α where
  obj := fun v => v.toObj
  upd := fun v o => { v with toObj := o }
  call := Vector.call grow
  ref := fun v a => match a with
    | .at i => at' v.toObj i
    | .first => first v.toObj
    | .last => last v.toObj

namespace Map

variable {κ ν : Type} [LinearOrder κ]

/-- A Map: as `Obj`, with the key of each element. -/
structure MObj (κ ν : Type) where
  next : Nat := 0
  mem : Nat → Option ν := fun _ => none
  nodes : List (κ × Nat) := []

/-- the pairs in the Map, in order (`toStlMap()`, Map.h:133) -/
def MObj.contents (s : MObj κ ν) : List (κ × ν) := s.nodes.filterMap fun n => (s.mem n.2).map fun x => (n.1, x)

/-- reading through a reference -/
def MObj.read (s : MObj κ ν) (r : Nat) : Out ν :=
  match s.mem r with
  | some x => .ok x
  | none => .ub

/-- `r = x` for a reference `r` -/
def MObj.write (s : MObj κ ν) (r : Nat) (x : ν) : Out (MObj κ ν) :=
  match s.mem r with
  | some _ => .ok { s with mem := fun i => if i = r then some x else s.mem i }
  | none => .ub

/-- What `operator[](key)` refers to, Map.h:222-225, and the Map afterwards: a new element has the default value. -/
def index (dflt : ν) (s : MObj κ ν) (key : κ) : Nat × MObj κ ν :=
  match Stl.mapFind key s.nodes with
  | some r => (r, s)
  | none => (s.next, { next := s.next + 1, mem := fun i => if i = s.next then some dflt else s.mem i,
                       nodes := Stl.mapInsert key s.next s.nodes })

/-- `set(key, value)`, Map.h:217-220: `privateMap[key] = value`. -/
def set (dflt : ν) (s : MObj κ ν) (key : κ) (value : ν) : Out (MObj κ ν) :=
  let (r, s) := index dflt s key
  s.write r value

/-- What `get(key)` refers to, Map.h:205-215. -/
def get (s : MObj κ ν) (key : κ) : Out Nat :=
  match Stl.mapFind key s.nodes with
  | some r => .ok r
  | none => .exit

/-- `erase(key)`, Map.h:242-245: only the references to that element are invalidated. -/
def erase (s : MObj κ ν) (key : κ) : MObj κ ν :=
  match Stl.mapFind key s.nodes with
  | some r => { s with mem := fun i => if i = r then none else s.mem i, nodes := Stl.mapErase key s.nodes }
  | none => s

/-- `clear()`, Map.h:237-240. -/
def clear (s : MObj κ ν) : MObj κ ν := { s with mem := fun _ => none, nodes := [] }

/-- A statement of a program with one Map `m` and references `r0`, `r1`, ... to its values. -/
inductive MStmt (κ ν : Type) where
  | set (k : κ) (v : ν)
  | erase (k : κ)
  | clear
  /-- print `m.get(k)` -/
  | get (k : κ)
  /-- `V& rk = m[key];` -/
  | bindIndex (k : κ)
  /-- `V& rk = m.get(key);` -/
  | bindGet (k : κ)
  /-- print `rk` -/
  | read (k : Nat)
  /-- `rk = x;` -/
  | write (k : Nat) (x : ν)

/-- A program: all that it prints, and the pairs in the Map at the end. -/
def run (dflt : ν) : MObj κ ν → List Nat → List (MStmt κ ν) → Out (List ν × List (κ × ν))
  | s, _, [] => .ok ([], s.contents)
  | s, rs, .set k v :: p => do run dflt (← set dflt s k v) rs p
  | s, rs, .erase k :: p => run dflt (erase s k) rs p
  | s, rs, .clear :: p => run dflt (clear s) rs p
  | s, rs, .get k :: p => do
    let x ← s.read (← get s k)
    let (out, fin) ← run dflt s rs p
    .ok (x :: out, fin)
  | s, rs, .bindIndex k :: p =>
    let (r, s) := index dflt s k
    run dflt s (rs ++ [r]) p
  | s, rs, .bindGet k :: p => do run dflt s (rs ++ [← get s k]) p
  | s, rs, .read k :: p =>
    match rs[k]? with
    | some r => do
      let x ← s.read r
      let (out, fin) ← run dflt s rs p
      .ok (x :: out, fin)
    | none => run dflt s rs p
  | s, rs, .write k x :: p =>
    match rs[k]? with
    | some r => do run dflt (← s.write r x) rs p
    | none => run dflt s rs p

end Map

end Cont.Ref
