import Verif.Model.JsonApi

/-!
# Model of the memory management of `JSONObject`, /repo/src/json/Json.cpp:244-382, /repo/src/include/json/Json.h:66-85, 176-320

An address names either a `JSONObject` (a variable or an element of a container) or what `new` in `setType` and in the
copy functions returns.  Addresses are not used again after they are freed, and allocation does not fail.  The elements
of a container are separate addresses: those of a `std::map` or a `std::deque` that only grows at its end do not move.
The functions recurse as deep as the values are nested; this depth is limited by `fuel`.
-/

namespace Json.Mem
open Cpp

/-- `enum class Type`, Json.h:85. -/
inductive Ty where
  | null | object | array | string | float | integral | boolean
  deriving DecidableEq

/-- The union `data`, Json.h:66-79: the member written last. -/
inductive Data where
  | ptr (p : Nat)
  | float (q : ℚ)
  | int (i : Int)
  | bool (b : Bool)
  | nullptr
  deriving DecidableEq

/-- What is at an address. -/
inductive Cell where
  /-- a `JSONObject`, Json.h:563 -/
  | obj (ty : Ty) (d : Data)
  /-- `std::deque<JSONObject>` -/
  | list (l : List Nat)
  /-- `std::map<std::string, JSONObject>` in the order of the keys -/
  | map (m : List (Str × Nat))
  /-- `std::string` -/
  | str (s : Str)
  deriving DecidableEq

/-- The memory: `none` is free.  All addresses from `next` on are free. -/
structure Heap where
  cell : Nat → Option Cell
  next : Nat

/-- The memory at the start. -/
def Heap.empty : Heap := ⟨fun _ => none, 0⟩

/-- A write to an address. -/
def Heap.put (h : Heap) (a : Nat) (c : Cell) : Heap := ⟨fun x => if x = a then some c else h.cell x, h.next⟩

/-- The end of the life of an address. -/
def Heap.free (h : Heap) (a : Nat) : Heap := ⟨fun x => if x = a then none else h.cell x, h.next⟩

/-- A new address. -/
def Heap.alloc (h : Heap) (c : Cell) : Nat × Heap :=
  (h.next, ⟨fun x => if x = h.next then some c else h.cell x, h.next + 1⟩)

/-- The members of a `JSONObject`; an object that is no more must not be used. -/
def Heap.obj (h : Heap) (o : Nat) : Out (Ty × Data) :=
  match h.cell o with
  | some (.obj ty d) => .ok (ty, d)
  | _ => .ub

/-- The map a `Data` points to. -/
def Heap.map (h : Heap) : Data → Out (Nat × List (Str × Nat))
  | .ptr p => match h.cell p with
    | some (.map m) => .ok (p, m)
    | _ => .ub
  | _ => .ub

/-- The deque a `Data` points to. -/
def Heap.list (h : Heap) : Data → Out (Nat × List Nat)
  | .ptr p => match h.cell p with
    | some (.list l) => .ok (p, l)
    | _ => .ub
  | _ => .ub

/-- The string a `Data` points to. -/
def Heap.str (h : Heap) : Data → Out (Nat × Str)
  | .ptr p => match h.cell p with
    | some (.str s) => .ok (p, s)
    | _ => .ub
  | _ => .ub

mutual

/-- `clearData()`, Json.cpp:291-304: `delete` destroys the elements of the container. -/
def clearData : Nat → Heap → Nat → Out Heap
  | 0, _, _ => .diverge
  | fuel + 1, h, o => do
    let (ty, d) ← h.obj o
    if ty = .object then do
      let (p, m) ← h.map d
      let h ← destroyAll fuel h (m.map Prod.snd)
      .ok (h.free p)
    else if ty = .array then do
      let (p, l) ← h.list d
      let h ← destroyAll fuel h l
      .ok (h.free p)
    else if ty = .string then do
      let (p, _) ← h.str d
      .ok (h.free p)
    else .ok h

/-- `~JSONObject()` of each element, Json.cpp:258. -/
def destroyAll : Nat → Heap → List Nat → Out Heap
  | _, h, [] => .ok h
  | fuel, h, a :: l => do
    let h ← clearData fuel h a
    destroyAll fuel (h.free a) l

end

/-- `~JSONObject()` of a variable, Json.cpp:258. -/
def destroy (fuel : Nat) (h : Heap) (o : Nat) : Out Heap := do
  let h ← clearData fuel h o
  .ok (h.free o)

mutual

/-- What `JSONObject(const JSONObject&)`, Json.cpp:306-323, and `operator=(const JSONObject&)`, Json.cpp:336-352, store in
`objType` and `Data`. -/
def copyData : Nat → Heap → Nat → Out ((Ty × Data) × Heap)
  | 0, _, _ => .diverge
  | fuel + 1, h, src => do
    let (ty, d) ← h.obj src
    if ty = .object then do
      let (_, m) ← h.map d
      let (l, h) ← copyAll fuel h (m.map Prod.snd)
      let (q, h) := h.alloc (.map ((m.map Prod.fst).zip l))
      .ok ((.object, .ptr q), h)
    else if ty = .array then do
      let (_, l) ← h.list d
      let (l, h) ← copyAll fuel h l
      let (q, h) := h.alloc (.list l)
      .ok ((.array, .ptr q), h)
    else if ty = .string then do
      let (_, s) ← h.str d
      let (q, h) := h.alloc (.str s)
      .ok ((.string, .ptr q), h)
    else .ok ((ty, d), h)

/-- The copies of the elements of a container: `JSONObject(const JSONObject&)`, Json.cpp:306-323. -/
def copyAll : Nat → Heap → List Nat → Out (List Nat × Heap)
  | _, h, [] => .ok ([], h)
  | fuel, h, a :: l => do
    let ((ty, d), h) ← copyData fuel h a
    let (b, h) := h.alloc (.obj ty d)
    let (bs, h) ← copyAll fuel h l
    .ok (b :: bs, h)

end

/-- `JSONObject()`, Json.cpp:244. -/
def default (h : Heap) : Nat × Heap := h.alloc (.obj .null (.bool false))

/-- `JSONObject(const JSONObject& src)`, Json.cpp:306-323. -/
def copyCtor (fuel : Nat) (h : Heap) (src : Nat) : Out (Nat × Heap) := do
  let ((ty, d), h) ← copyData fuel h src
  .ok (h.alloc (.obj ty d))

/-- `JSONObject(JSONObject&& other)`, Json.cpp:252-256. -/
def moveCtor (h : Heap) (other : Nat) : Out (Nat × Heap) := do
  let (ty, d) ← h.obj other
  let (a, h) := h.alloc (.obj ty d)
  .ok (a, h.put other (.obj .null .nullptr))

/-- `operator=(const JSONObject& src)`, Json.cpp:335-353. -/
def assign (fuel : Nat) (h : Heap) (dst src : Nat) : Out Heap := do
  let h ← clearData fuel h dst
  let ((ty, d), h) ← copyData fuel h src
  .ok (h.put dst (.obj ty d))

/-- `operator=(JSONObject&& src)`, Json.cpp:325-333. -/
def moveAssign (fuel : Nat) (h : Heap) (dst src : Nat) : Out Heap := do
  let h ← clearData fuel h dst
  let (ty, d) ← h.obj src
  let h := h.put dst (.obj ty d)
  .ok (h.put src (.obj .null .nullptr))

/-- The `switch` of `setType`, Json.cpp:265-287: `Data` for the new type. -/
def newData (h : Heap) : Ty → Data × Heap
  | .null => (.nullptr, h)
  | .object => let (p, h) := h.alloc (.map []); (.ptr p, h)
  | .array => let (p, h) := h.alloc (.list []); (.ptr p, h)
  | .string => let (p, h) := h.alloc (.str []); (.ptr p, h)
  | .float => (.float 0, h)
  | .integral => (.int 0, h)
  | .boolean => (.bool false, h)

/-- `setType(type)`, Json.cpp:260-289. -/
def setType (fuel : Nat) (h : Heap) (o : Nat) (ty : Ty) : Out Heap := do
  let (t, _) ← h.obj o
  if ty = t then .ok h else do
  let h ← clearData fuel h o
  let (d, h) := newData h ty
  .ok (h.put o (.obj ty d))

/-- A value that is not a container or null, as the templates Json.h:205-254 take it. -/
inductive Scalar where
  | bool (b : Bool)
  | int (i : Int)
  | float (q : ℚ)
  | str (s : Str)
  deriving DecidableEq

/-- What the templates `operator=(T value)` store, Json.h:205-254. -/
def writeScalar (fuel : Nat) (h : Heap) (o : Nat) : Scalar → Out Heap
  | .bool b => do
    let h ← setType fuel h o .boolean
    .ok (h.put o (.obj .boolean (.bool b)))
  | .int i => do
    let h ← setType fuel h o .integral
    .ok (h.put o (.obj .integral (.int i)))
  | .float q => do
    let h ← setType fuel h o .float
    .ok (h.put o (.obj .float (.float q)))
  | .str s => do
    let h ← setType fuel h o .string
    let (_, d) ← h.obj o
    let (p, _) ← h.str d
    .ok (h.put p (.str s))

/-- The templates `operator=(T value)`, Json.h:205-254; the copy they return is destroyed at once. -/
def assignScalar (fuel : Nat) (h : Heap) (o : Nat) (x : Scalar) : Out Heap := do
  let h ← writeScalar fuel h o x
  let (t, h) ← copyCtor fuel h o
  destroy fuel h t

/-- Where a key is or belongs in a map: the pairs before it, the address if it is there, the pairs after it. -/
def find (k : Str) : List (Str × Nat) → List (Str × Nat) × Option Nat × List (Str × Nat)
  | [] => ([], none, [])
  | (k', a) :: m =>
    if k = k' then ([], some a, m)
    else if k < k' then ([], none, (k', a) :: m)
    else let (x, r, y) := find k m; ((k', a) :: x, r, y)

/-- `std::map::operator[](k)` of the map at `p`: the address of the element, which is new if there was none. -/
def entry (h : Heap) (p : Nat) (k : Str) : List (Str × Nat) × Option Nat × List (Str × Nat) → Nat × Heap
  | (_, some a, _) => (a, h)
  | (x, none, y) => ((default h).1, (default h).2.put p (.map (x ++ (k, (default h).1) :: y)))

/-- `operator[](const std::string& key)`, Json.cpp:361-364 (also 355-359): the address of the element. -/
def key (fuel : Nat) (h : Heap) (o : Nat) (k : Str) : Out (Nat × Heap) := do
  let h ← setType fuel h o .object
  let (_, d) ← h.obj o
  let (p, m) ← h.map d
  .ok (entry h p k (find k m))

/-- `resize(n)` of a deque: new elements at the end. -/
def defaults : Nat → Heap → List Nat × Heap
  | 0, h => ([], h)
  | n + 1, h =>
    let (a, h) := default h
    let (l, h) := defaults n h
    (a :: l, h)

/-- `operator[](int index)`, Json.cpp:366-370: the address of the element. -/
def index (fuel : Nat) (h : Heap) (o : Nat) (i : Int) : Out (Nat × Heap) := do
  let h ← setType fuel h o .array
  let (_, d) ← h.obj o
  let (p, l) ← h.list d
  let (l, h) ← (if i ≥ l.length then do
      let n ← Cpp.int (i + 1)
      let (l', h) := defaults (n.toNat - l.length) h
      .ok (l ++ l', h.put p (.list (l ++ l')))
    else .ok (l, h))
  if i < 0 then .ub else
  if hi : i.toNat < l.length then .ok (l[i.toNat], h) else .ub

/-- `o[s1][s2]…`: the address of the element. -/
def locate (fuel : Nat) (h : Heap) (o : Nat) : List Step → Out (Nat × Heap)
  | [] => .ok (o, h)
  | .key k :: p => do
    let (a, h) ← key fuel h o k
    locate fuel h a p
  | .idx i :: p => do
    let (a, h) ← index fuel h o i
    locate fuel h a p

/-- `append(arg)` with a `JSONObject`, Json.h:316-320: `arg` is a copy, of which `emplace_back` makes another. -/
def append (fuel : Nat) (h : Heap) (o src : Nat) : Out Heap := do
  let (arg, h) ← copyCtor fuel h src
  let h ← setType fuel h o .array
  let (_, d) ← h.obj o
  let (a, h) ← copyCtor fuel h arg
  let (p, l) ← h.list d
  destroy fuel (h.put p (.list (l ++ [a]))) arg

/-! ### Programs -/

/-- What a program can do with its variables; `x` and `y` are variables, counted in the order of their construction. -/
inductive Stmt where
  /-- `JSONObject x;` -/
  | new
  /-- `JSONObject x(y[q]);` -/
  | copy (y : Nat) (q : List Step)
  /-- `JSONObject x(std::move(y[q]));` -/
  | move (y : Nat) (q : List Step)
  /-- `x[p] = y[q];`, the right side first -/
  | assign (x : Nat) (p : List Step) (y : Nat) (q : List Step)
  /-- `x[p] = std::move(y[q]);`, the right side first -/
  | moveAssign (x : Nat) (p : List Step) (y : Nat) (q : List Step)
  /-- `x[p] = scalar;` -/
  | scalar (x : Nat) (p : List Step) (v : Scalar)
  /-- `x[p].append(y[q]);`, the right side first -/
  | append (x : Nat) (p : List Step) (y : Nat) (q : List Step)
  /-- the end of the scope of `x` -/
  | destroy (x : Nat)

/-- The memory and the addresses of the variables; `none` after the end of the scope. -/
structure State where
  heap : Heap
  vars : List (Option Nat)

/-- The address of a variable. -/
def State.var (s : State) (x : Nat) : Out Nat :=
  match s.vars[x]? with
  | some (some a) => .ok a
  | _ => .ub

/-- One statement. -/
def step (fuel : Nat) (s : State) : Stmt → Out State
  | .new => let (a, h) := default s.heap; .ok ⟨h, s.vars ++ [some a]⟩
  | .copy y q => do
    let (b, h) ← locate fuel s.heap (← s.var y) q
    let (a, h) ← copyCtor fuel h b
    .ok ⟨h, s.vars ++ [some a]⟩
  | .move y q => do
    let (b, h) ← locate fuel s.heap (← s.var y) q
    let (a, h) ← moveCtor h b
    .ok ⟨h, s.vars ++ [some a]⟩
  | .assign x p y q => do
    let (b, h) ← locate fuel s.heap (← s.var y) q
    let (a, h) ← locate fuel h (← s.var x) p
    .ok ⟨← assign fuel h a b, s.vars⟩
  | .moveAssign x p y q => do
    let (b, h) ← locate fuel s.heap (← s.var y) q
    let (a, h) ← locate fuel h (← s.var x) p
    .ok ⟨← moveAssign fuel h a b, s.vars⟩
  | .scalar x p v => do
    let (a, h) ← locate fuel s.heap (← s.var x) p
    .ok ⟨← assignScalar fuel h a v, s.vars⟩
  | .append x p y q => do
    let (b, h) ← locate fuel s.heap (← s.var y) q
    let (a, h) ← locate fuel h (← s.var x) p
    .ok ⟨← append fuel h a b, s.vars⟩
  | .destroy x => do
    let h ← destroy fuel s.heap (← s.var x)
    .ok ⟨h, s.vars.set x none⟩

/-- A program. -/
def run (fuel : Nat) (s : State) : List Stmt → Out State
  | [] => .ok s
  | c :: p => do run fuel (← step fuel s c) p

end Json.Mem
