import Verif.Model.Stl

/-!
# Models of Vector, List, Stack and Queue, /repo/src/include/containers/{Vector,List,Stack,Queue}.h

The state of a container is the list of its elements.  An element is referred to by its position; references stay valid
for the statement they are used in.
-/

open Cpp

namespace Cont.Vector

variable {α : Type}

/-- `boundaryCheck(index)`, Vector.h:374-380. -/
def boundaryCheck (v : List α) (index : Int) : Out Unit :=
  if index < 0 ∨ index ≥ v.length then .exit else .ok ()

/-- `emptyCheck()`, Vector.h:382-387. -/
def emptyCheck (v : List α) : Out Unit := if v = [] then .exit else .ok ()

/-- `Vector(n, value)`, Vector.h:223-226, for `n` from 0 on (otherwise `resize` throws: `Model/BigSizes.lean`). -/
def new (n : Nat) (value : α) : List α := List.replicate n value

/-- `get(index)` and `operator[](index)`, Vector.h:243-253, 279-289. -/
def get (v : List α) (index : Int) : Out α := do
  boundaryCheck v index
  Stl.at' v index.toNat

/-- `first()`, Vector.h:255-265. -/
def first (v : List α) : Out α := do
  emptyCheck v
  Stl.front v

/-- `last()`, Vector.h:267-277. -/
def last (v : List α) : Out α := do
  emptyCheck v
  Stl.back v

/-- `isEmpty()`, Vector.h:291-294. -/
def isEmpty (v : List α) : Bool := v.isEmpty

/-- `size()`, Vector.h:296-299. -/
def size (v : List α) : Int := toInt v.length

/-- `insert(index, value)`, Vector.h:306-315. -/
def insert (v : List α) (index : Int) (value : α) : Out (List α) := do
  if index < 0 ∨ index > v.length then .exit else
  let it ← Stl.advance v 0 index
  Stl.insertAt v it value

/-- `erase(index)`, Vector.h:317-323. -/
def erase (v : List α) (index : Int) : Out (List α) := do
  boundaryCheck v index
  let it ← Stl.advance v 0 index
  Stl.eraseAt v it

/-- `set(index, value)`, Vector.h:325-329, and `v[index] = value`, Vector.h:279-283. -/
def set (v : List α) (index : Int) (value : α) : Out (List α) := do
  boundaryCheck v index
  Stl.setAt v index.toNat value

/-- `push(value)`, Vector.h:331-334. -/
def push (v : List α) (value : α) : List α := v ++ [value]

/-- `pop()`, Vector.h:336-342: the value and the Vector afterwards. -/
def pop (v : List α) : Out (α × List α) := do
  emptyCheck v
  let lastElement ← Stl.back v
  .ok (lastElement, ← Stl.popBack v)

/-- `operator<`, Vector.h:354-357 (the same in List, Stack, Queue, Set, MultiSet, Map and MultiMap, which call the same
operator of the standard library). -/
def lt (less : α → α → Bool) (v w : List α) : Bool := Stl.lexLt less v w

/-- `operator<=`, Vector.h:359-362. -/
def le (less : α → α → Bool) (v w : List α) : Bool := !Stl.lexLt less w v

/-- `operator>`, Vector.h:364-367. -/
def gt (less : α → α → Bool) (v w : List α) : Bool := Stl.lexLt less w v

/-- `operator>=`, Vector.h:369-372. -/
def ge (less : α → α → Bool) (v w : List α) : Bool := !Stl.lexLt less v w

/-- `operator==`, Vector.h:344-347. -/
def eq [DecidableEq α] (v w : List α) : Bool := v = w

/-- `operator!=`, Vector.h:349-352. -/
def ne [DecidableEq α] (v w : List α) : Bool := !eq v w

end Cont.Vector

namespace Cont.Lst

variable {α : Type}

/-- `boundaryCheck(index)`, List.h:414-420. -/
def boundaryCheck (l : List α) (index : Int) : Out Unit :=
  if index < 0 ∨ index ≥ l.length then .exit else .ok ()

/-- `emptyCheck()`, List.h:422-427. -/
def emptyCheck (l : List α) : Out Unit := if l = [] then .exit else .ok ()

/-- `List(n, value)`, List.h:239-242, for `n` from 0 on. -/
def new (n : Nat) (value : α) : List α := List.replicate n value

/-- The loop and the dereference of `operator[]`, List.h:292-296: the iterator is the rest of the list; it may not be moved
past the end. -/
def walk : List α → Nat → Out α
  | [], _ => .ub
  | x :: _, 0 => .ok x
  | _ :: l, n + 1 => walk l n

/-- `operator[](index)`, List.h:289-307. -/
def get (l : List α) (index : Int) : Out α := do
  boundaryCheck l index
  walk l index.toNat

/-- `first()`, List.h:265-275. -/
def first (l : List α) : Out α := do
  emptyCheck l
  Stl.front l

/-- `last()`, List.h:277-287. -/
def last (l : List α) : Out α := do
  emptyCheck l
  Stl.back l

/-- `isEmpty()`, List.h:309-312. -/
def isEmpty (l : List α) : Bool := l.isEmpty

/-- `size()`, List.h:314-317. -/
def size (l : List α) : Int := toInt l.length

/-- `insert(index, value)`, List.h:324-333. -/
def insert (l : List α) (index : Int) (value : α) : Out (List α) := do
  if index < 0 ∨ index > l.length then .exit else
  let it ← Stl.advance l 0 index
  Stl.insertAt l it value

/-- `erase(index)`, List.h:335-341. -/
def erase (l : List α) (index : Int) : Out (List α) := do
  boundaryCheck l index
  let it ← Stl.advance l 0 index
  Stl.eraseAt l it

/-- `push(value)`, List.h:343-346. -/
def push (l : List α) (value : α) : List α := l ++ [value]

/-- `push_front(value)`, List.h:348-351. -/
def pushFront (l : List α) (value : α) : List α := value :: l

/-- `pop()`, List.h:353-359. -/
def pop (l : List α) : Out (α × List α) := do
  emptyCheck l
  let lastElement ← Stl.back l
  .ok (lastElement, ← Stl.popBack l)

/-- `pop_front()`, List.h:361-367. -/
def popFront (l : List α) : Out (α × List α) := do
  emptyCheck l
  let firstElement ← Stl.front l
  .ok (firstElement, ← Stl.popFront l)

/-- `sort()`, List.h:369-372. -/
def sort [LinearOrder α] (l : List α) : List α := Stl.sort l

/-- `reverse()`, List.h:374-377. -/
def reverse (l : List α) : List α := l.reverse

/-- `merge(list2)` with another list, List.h:379-382: both lists afterwards. -/
def merge [LinearOrder α] (l l2 : List α) : Out (List α × List α) := do .ok (← Stl.merge l l2, [])

end Cont.Lst

namespace Cont.Stack

variable {α : Type}

/-- `emptyCheck()`, Stack.h:216-221.  The top of the stack is the last element. -/
def emptyCheck (s : List α) : Out Unit := if s = [] then .exit else .ok ()

/-- `size()`, Stack.h:143-146. -/
def size (s : List α) : Int := toInt s.length

/-- `top()`, Stack.h:148-158. -/
def top (s : List α) : Out α := do
  emptyCheck s
  Stl.back s

/-- `isEmpty()`, Stack.h:160-163. -/
def isEmpty (s : List α) : Bool := s.isEmpty

/-- `push(value)`, Stack.h:165-168. -/
def push (s : List α) (value : α) : List α := s ++ [value]

/-- `pop()`, Stack.h:170-176. -/
def pop (s : List α) : Out (α × List α) := do
  emptyCheck s
  let lastElement ← Stl.back s
  .ok (lastElement, ← Stl.popBack s)

/-- The loop of `clear()`, Stack.h:181-183, `n` rounds. -/
def clearGo : Nat → List α → Out (List α)
  | 0, s => .ok s
  | n + 1, s => do clearGo n (← Stl.popBack s)

/-- `clear()`, Stack.h:178-184, for a size below 2^31 (for all sizes: `Model/BigSizes.lean`). -/
def clear (s : List α) : Out (List α) := clearGo s.length s

/-- A call of a member of a stack. -/
inductive Call (α : Type) where
  | push (x : α)
  | pop
  | top
  | clear

/-- A call: what it returns, if anything, and the stack afterwards. -/
def call (s : List α) : Call α → Out (Option α × List α)
  | .push x => .ok (none, push s x)
  | .pop => do
    let (x, s) ← pop s
    .ok (some x, s)
  | .top => do .ok (some (← top s), s)
  | .clear => do .ok (none, ← clear s)

/-- A sequence of calls: all values returned, and the stack afterwards. -/
def calls (s : List α) : List (Call α) → Out (List α × List α)
  | [] => .ok ([], s)
  | c :: cs => do
    let (r, s) ← call s c
    let (rs, s) ← calls s cs
    .ok (r.toList ++ rs, s)

end Cont.Stack

namespace Cont.Queue

variable {α : Type}

/-- `emptyCheck()`, Queue.h:237-242. -/
def emptyCheck (q : List α) : Out Unit := if q = [] then .exit else .ok ()

/-- `first()`, Queue.h:156-164: no check. -/
def first (q : List α) : Out α := Stl.front q

/-- `last()`, Queue.h:166-174: no check. -/
def last (q : List α) : Out α := Stl.back q

/-- `size()`, Queue.h:176-179. -/
def size (q : List α) : Int := toInt q.length

/-- `isEmpty()`, Queue.h:181-184. -/
def isEmpty (q : List α) : Bool := q.isEmpty

/-- `enqueue(value)`, Queue.h:186-189. -/
def enqueue (q : List α) (value : α) : List α := q ++ [value]

/-- `dequeue()`, Queue.h:191-197. -/
def dequeue (q : List α) : Out (α × List α) := do
  emptyCheck q
  let firstElement ← Stl.front q
  .ok (firstElement, ← Stl.popFront q)

/-- The loop of `clear()`, Queue.h:202-204, `n` rounds. -/
def clearGo : Nat → List α → Out (List α)
  | 0, q => .ok q
  | n + 1, q => do clearGo n (← Stl.popFront q)

/-- `clear()`, Queue.h:199-205, for a size below 2^31 (for all sizes: `Model/BigSizes.lean`). -/
def clear (q : List α) : Out (List α) := clearGo q.length q

/-- A call of a member of a queue. -/
inductive Call (α : Type) where
  | enqueue (x : α)
  | dequeue

/-- A sequence of calls: all values returned, and the queue afterwards. -/
def calls (q : List α) : List (Call α) → Out (List α × List α)
  | [] => .ok ([], q)
  | .enqueue x :: cs => calls (enqueue q x) cs
  | .dequeue :: cs => do
    let (x, q) ← dequeue q
    let (xs, q) ← calls q cs
    .ok (x :: xs, q)

end Cont.Queue

namespace Cont.Vector

/-- A call of a member of a Vector. -/
inductive Call (α : Type) where
  | get (i : Int)
  | first
  | last
  | clear
  | insert (i : Int) (x : α)
  | erase (i : Int)
  | set (i : Int) (x : α)
  | push (x : α)
  | pop

/-- A call: what it returns, if anything, and the Vector afterwards. -/
def call (v : List α) : Call α → Out (Option α × List α)
  | .get i => do .ok (some (← get v i), v)
  | .first => do .ok (some (← first v), v)
  | .last => do .ok (some (← last v), v)
  | .clear => .ok (none, [])
  | .insert i x => do .ok (none, ← insert v i x)
  | .erase i => do .ok (none, ← erase v i)
  | .set i x => do .ok (none, ← set v i x)
  | .push x => .ok (none, push v x)
  | .pop => do
    let (x, v) ← pop v
    .ok (some x, v)

/-- A sequence of calls: all values returned, and the Vector afterwards. -/
def calls (v : List α) : List (Call α) → Out (List α × List α)
  | [] => .ok ([], v)
  | c :: cs => do
    let (r, v) ← call v c
    let (rs, v) ← calls v cs
    .ok (r.toList ++ rs, v)

end Cont.Vector

namespace Cont.Lst

/-- A call of a member of a List, other than `merge`. -/
inductive Call (α : Type) where
  | get (i : Int)
  | first
  | last
  | clear
  | insert (i : Int) (x : α)
  | erase (i : Int)
  | push (x : α)
  | pushFront (x : α)
  | pop
  | popFront
  | sort
  | reverse

/-- A call: what it returns, if anything, and the List afterwards. -/
def call [LinearOrder α] (l : List α) : Call α → Out (Option α × List α)
  | .get i => do .ok (some (← get l i), l)
  | .first => do .ok (some (← first l), l)
  | .last => do .ok (some (← last l), l)
  | .clear => .ok (none, [])
  | .insert i x => do .ok (none, ← insert l i x)
  | .erase i => do .ok (none, ← erase l i)
  | .push x => .ok (none, push l x)
  | .pushFront x => .ok (none, pushFront l x)
  | .pop => do
    let (x, l) ← pop l
    .ok (some x, l)
  | .popFront => do
    let (x, l) ← popFront l
    .ok (some x, l)
  | .sort => .ok (none, sort l)
  | .reverse => .ok (none, reverse l)

/-- A sequence of calls: all values returned, and the List afterwards. -/
def calls [LinearOrder α] (l : List α) : List (Call α) → Out (List α × List α)
  | [] => .ok ([], l)
  | c :: cs => do
    let (r, l) ← call l c
    let (rs, l) ← calls l cs
    .ok (r.toList ++ rs, l)

end Cont.Lst
