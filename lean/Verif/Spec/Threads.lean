import Verif.Model.Threads

/-! # Specification for threads: data races, and which calls may run at the same time -/

namespace Threads.Spec

/-- Two accesses to one variable by different threads, one of them a write.  (Nothing orders the accesses of different threads:
the library has no locks.) -/
def Race (accesses : List Access) : Prop :=
  ∃ a ∈ accesses, ∃ b ∈ accesses, a.thread ≠ b.thread ∧ a.var = b.var ∧ (a.write = true ∨ b.write = true)

/-- The static variables a call may write. -/
def writes : Call → List Var
  | .vertex => [.nextVertexID]
  | .edge => [.nextEdgeID]
  | .trie _ _ => [.mapChar]
  | .global _ _ => [.initialized, .generator]
  | _ => []

/-- The static variables a call may read. -/
def reads : Call → List Var
  | .vertex => [.nextVertexID]
  | .edge => [.nextEdgeID]
  | .insert _ _ => [.mapChar]
  | .contain _ _ => [.mapChar]
  | .remove _ _ => [.mapChar]
  | .global _ _ => [.initialized, .generator]
  | .plus _ _ _ _ => [.base, .order]
  | .times _ _ _ => [.base, .order]
  | _ => []

/-- One of the calls writes a variable the other one uses. -/
def Conflict (c d : Call) : Prop :=
  ∃ l, (l ∈ writes c ∧ (l ∈ reads d ∨ l ∈ writes d)) ∨ (l ∈ writes d ∧ (l ∈ reads c ∨ l ∈ writes c))

/-- No two calls of different threads conflict. -/
def Apart (calls : Nat → List Call) : Prop :=
  ∀ i j, i ≠ j → ∀ c ∈ calls i, ∀ d ∈ calls j, ¬ Conflict c d

/-- The program in which only the thread `i` makes calls. -/
def only (i : Nat) (calls : Nat → List Call) : Nat → List Call := fun j => if j = i then calls j else []

/-- A program with one call in each of two threads. -/
def two (c d : Call) : Nat → List Call
  | 0 => [c]
  | 1 => [d]
  | _ => []

/-- The trie a call uses has been constructed. -/
def Ready {E : Rand.Engine} (s : Objects E) : Call → Prop
  | .insert t _ => s.trie t ≠ none
  | .contain t _ => s.trie t ≠ none
  | .remove t _ => s.trie t ≠ none
  | _ => True

/-- The identities of the vertices which a thread has constructed, from its calls and their results. -/
def vertexIDs (calls : List Call) (results : List Result) : List Int :=
  (calls.zip results).filterMap fun x =>
    match x.1, x.2 with
    | .vertex, .id i => some i
    | _, _ => none

/-- The identities of the edges. -/
def edgeIDs (calls : List Call) (results : List Result) : List Int :=
  (calls.zip results).filterMap fun x =>
    match x.1, x.2 with
    | .edge, .id i => some i
    | _, _ => none

/-- The number of vertices a thread constructs. -/
def vertices (calls : List Call) : Nat := calls.countP fun | .vertex => true | _ => false

/-- The number of edges a thread constructs. -/
def edges (calls : List Call) : Nat := calls.countP fun | .edge => true | _ => false

end Threads.Spec
