import Verif.Model.Graph

/-! # Histories of calls on vertices and edges -/

namespace Graph
open Cpp

/-- Calls that construct or change vertices and add edges. -/
def Cmd.simple : Cmd → Bool
  | .newV _ => true
  | .addEdge _ _ _ => true
  | .setV _ _ _ => true
  | _ => false

/-- The pairs `(v, u)` of the calls `v.addEdge(u)` of a history. -/
def pairs (h : List Cmd) : List (Nat × Nat) :=
  h.filterMap fun
    | .addEdge v u _ => some (v, u)
    | _ => none

/-- The calls that construct a vertex. -/
def Cmd.makesV : Cmd → Bool
  | .newV _ => true
  | .copyV _ => true
  | _ => false

/-- The calls that construct an edge. -/
def Cmd.makesE : Cmd → Bool
  | .addEdge _ _ _ => true
  | .newE _ _ _ => true
  | .copyE _ => true
  | _ => false

/-- The vertices named by a simple call. -/
def Cmd.names : Cmd → List Nat
  | .addEdge v u _ => [v, u]
  | .setV v _ _ => [v]
  | _ => []

/-- Copies and assignments, and changes of edges. -/
def Cmd.copies : Cmd → Bool
  | .copyV _ => true
  | .assignV _ _ => true
  | .copyE _ => true
  | .assignE _ _ => true
  | .setE _ _ _ => true
  | _ => false

/-- A call on vertices that does not copy lists of leaving edges. -/
def Cmd.Safe (w : World) : Cmd → Prop
  | .newV _ => True
  | .copyV src => ∀ x, readV w src = .ok x → x.outEdges = []
  | .destroyV _ => True
  | .assignV dst src => (∀ x, readV w dst = .ok x → x.outEdges = []) ∧ ∀ x, readV w src = .ok x → x.outEdges = []
  | .setV _ _ _ => True
  | .addEdge _ _ _ => True
  | .newE _ _ _ => False
  | .copyE _ => False
  | .deleteE _ => False
  | .assignE _ _ => True
  | .setE _ _ _ => True

/-- Worlds reached by such calls. -/
inductive Reach : World → Prop
  | init : Reach World.init
  | step {w w' : World} (c : Cmd) : Reach w → c.Safe w → step w c = .ok w' → Reach w'

end Graph
