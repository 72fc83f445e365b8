import Verif.Cpp

/-!
# Model of /repo/src/graph/Vertex.cpp, Edge.cpp and their headers

A world holds all `Vertex` and `Edge` objects ever constructed, in the order of construction; the address of an
object is its position (addresses are not reused).  A destroyed object stays with `alive = false`; any use of it is
undefined.  The lists `inEdges` and `outEdges` hold addresses of edges.
Simplification: the lists are public members; only the changes made by the member functions are modelled, and
memory exhaustion is not.  So no list contains a null pointer.
-/

namespace Graph
open Cpp

/-- `Edge`, Edge.h:8-35. -/
structure Edge where
  /-- `from`, `to`: addresses of vertices -/
  from' : Nat
  to' : Nat
  val : Int
  use : Bool
  id : Int
  /-- not yet destroyed -/
  alive : Bool
  deriving DecidableEq

/-- `Vertex`, Vertex.h:10-41. -/
structure Vertex where
  inEdges : List Nat
  outEdges : List Nat
  val : Int
  use : Bool
  id : Int
  /-- not yet destroyed -/
  alive : Bool
  deriving DecidableEq

/-- All objects, and the static members `nextVertexID` (Vertex.cpp:9) and `nextEdgeID` (Edge.cpp:5). -/
structure World where
  vs : List Vertex
  es : List Edge
  nextVertexID : Int
  nextEdgeID : Int
  deriving DecidableEq

/-- The start of the program: Vertex.cpp:9, Edge.cpp:5. -/
def World.init : World := ⟨[], [], 0, 0⟩

/-- Access to a vertex object. -/
def readV (w : World) (v : Nat) : Out Vertex :=
  match w.vs[v]? with
  | some x => if x.alive then .ok x else .ub
  | none => .ub

/-- Access to an edge object. -/
def readE (w : World) (e : Nat) : Out Edge :=
  match w.es[e]? with
  | some x => if x.alive then .ok x else .ub
  | none => .ub

/-- A vertex object changes. -/
def writeV (w : World) (v : Nat) (x : Vertex) : World := { w with vs := w.vs.set v x }

/-- An edge object changes. -/
def writeE (w : World) (e : Nat) (x : Edge) : World := { w with es := w.es.set e x }

/-- `Vertex()` and `Vertex(val)`, Vertex.cpp:11-24 (`val` is 0 in the first). -/
def newV (w : World) (val : Int) : Out World := do
  let id := w.nextVertexID
  let next ← int (w.nextVertexID + 1)
  .ok { w with vs := w.vs ++ [⟨[], [], val, true, id, true⟩], nextVertexID := next }

/-- `Vertex(const Vertex& src)`, Vertex.cpp:26-38: the pointers are copied. -/
def copyV (w : World) (src : Nat) : Out World := do
  let s ← readV w src
  let id := w.nextVertexID
  let next ← int (w.nextVertexID + 1)
  .ok { w with vs := w.vs ++ [⟨s.inEdges, s.outEdges, s.val, s.use, id, true⟩], nextVertexID := next }

/-- `delete e` for an edge; `~Edge` does nothing, Edge.cpp:20. -/
def deleteE (w : World) (e : Nat) : Out World := do
  let x ← readE w e
  .ok (writeE w e { x with alive := false })

/-- `~Vertex`, Vertex.cpp:40-46. -/
def destroyV (w : World) (v : Nat) : Out World := do
  let x ← readV w v
  let w ← x.outEdges.foldlM deleteE w
  .ok (writeV w v { x with inEdges := [], outEdges := [], alive := false })

/-- `Vertex::operator=`, Vertex.cpp:48-60.  The lists of `src` are read after those of `*this` have been
cleared. -/
def assignV (w : World) (dst src : Nat) : Out World := do
  let d ← readV w dst
  let s ← readV w src
  let w := writeV w dst { d with val := s.val, use := s.use, inEdges := [], outEdges := [] }
  let d ← readV w dst
  let s ← readV w src
  .ok (writeV w dst { d with inEdges := s.inEdges, outEdges := s.outEdges })

/-- `Edge(from, to, val)`, Edge.cpp:7-10.  The pointers are only stored. -/
def newE (w : World) (from' to' : Nat) (val : Int) : Out World := do
  let id := w.nextEdgeID
  let next ← int (w.nextEdgeID + 1)
  .ok { w with es := w.es ++ [⟨from', to', val, true, id, true⟩], nextEdgeID := next }

/-- `Edge(const Edge& src)`, Edge.cpp:12-18. -/
def copyE (w : World) (src : Nat) : Out World := do
  let s ← readE w src
  let id := w.nextEdgeID
  let next ← int (w.nextEdgeID + 1)
  .ok { w with es := w.es ++ [⟨s.from', s.to', s.val, s.use, id, true⟩], nextEdgeID := next }

/-- `Edge::operator=`, Edge.cpp:22-28. -/
def assignE (w : World) (dst src : Nat) : Out World := do
  let d ← readE w dst
  let s ← readE w src
  .ok (writeE w dst { d with from' := s.from', to' := s.to', val := s.val, use := s.use })

/-- `Vertex::addEdge`, Vertex.cpp:68-72. -/
def addEdge (w : World) (v u : Nat) (val : Int) : Out World := do
  let _ ← readV w v
  let e := w.es.length
  let w ← newE w v u val
  let x ← readV w v
  let w := writeV w v { x with outEdges := x.outEdges ++ [e] }
  let y ← readV w u
  .ok (writeV w u { y with inEdges := y.inEdges ++ [e] })

/-- `getInDegree`, Vertex.h:30: `size()` converted to `int`. -/
def getInDegree (w : World) (v : Nat) : Out Int := do
  let x ← readV w v
  .ok (toInt x.inEdges.length)

/-- `getOutDegree`, Vertex.h:31. -/
def getOutDegree (w : World) (v : Nat) : Out Int := do
  let x ← readV w v
  .ok (toInt x.outEdges.length)

/-- `Vertex::operator==`, Vertex.cpp:62. -/
def eqV (w : World) (a b : Nat) : Out Bool := do
  let x ← readV w a
  let y ← readV w b
  .ok (decide (x.id = y.id))

/-- `Vertex::operator<`, Vertex.cpp:66. -/
def ltV (w : World) (a b : Nat) : Out Bool := do
  let x ← readV w a
  let y ← readV w b
  .ok (decide (x.val < y.val))

/-- `Edge::operator==`, Edge.cpp:30. -/
def eqE (w : World) (a b : Nat) : Out Bool := do
  let x ← readE w a
  let y ← readE w b
  .ok (decide (x.id = y.id))

/-- `Vertex::operator!=`, Vertex.cpp:64. -/
def neV (w : World) (a b : Nat) : Out Bool := do .ok (!(← eqV w a b))

/-- `Edge::operator!=`, Edge.cpp:32. -/
def neE (w : World) (a b : Nat) : Out Bool := do .ok (!(← eqE w a b))

/-- `Edge::operator<`, Edge.cpp:34. -/
def ltE (w : World) (a b : Nat) : Out Bool := do
  let x ← readE w a
  let y ← readE w b
  .ok (decide (x.val < y.val))

/-- A call that a program can make.  `setV` is `setVal`, `setValid`, `setInvalid` of Vertex.h:18-21, `setE` those of
Edge.h:17-20. -/
inductive Cmd where
  | newV (val : Int)
  | copyV (src : Nat)
  | destroyV (v : Nat)
  | assignV (dst src : Nat)
  | setV (v : Nat) (val : Int) (use : Bool)
  | addEdge (v u : Nat) (val : Int)
  | newE (from' to' : Nat) (val : Int)
  | copyE (src : Nat)
  | deleteE (e : Nat)
  | assignE (dst src : Nat)
  | setE (e : Nat) (val : Int) (use : Bool)
  deriving DecidableEq

/-- The effect of one call. -/
def step (w : World) : Cmd → Out World
  | .newV val => newV w val
  | .copyV src => copyV w src
  | .destroyV v => destroyV w v
  | .assignV dst src => assignV w dst src
  | .setV v val use => do
    let x ← readV w v
    .ok (writeV w v { x with val := val, use := use })
  | .addEdge v u val => addEdge w v u val
  | .newE a b val => newE w a b val
  | .copyE src => copyE w src
  | .deleteE e => deleteE w e
  | .assignE dst src => assignE w dst src
  | .setE e val use => do
    let x ← readE w e
    .ok (writeE w e { x with val := val, use := use })

/-- A history of calls from the start of the program. -/
def run (h : List Cmd) : Out World := h.foldlM step World.init

end Graph
