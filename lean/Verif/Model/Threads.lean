import Verif.Model.Trie
import Verif.Model.RandomObj
import Verif.Model.BigNum

/-!
# Threads that share only the static variables of the library

The library never creates a thread and contains no lock and no atomic variable.  Here a program has several threads, and every
thread uses only objects of its own.  What the threads share are the static variables: `Vertex::nextVertexID`
(/repo/src/include/graph/Vertex.h:40), `Edge::nextEdgeID` (/repo/src/include/graph/Edge.h:34), `Trie::StringAdapter::mapChar`
(/repo/src/include/string_utils/Trie.h:159), `initialized` and `randomGenerator`
(/repo/src/random/random_functions.cpp:10-11), `BigNum::base` and `BigNum::order`
(/repo/src/include/math_utils/BigNum.h:318-319; one pair for all `N` here, as no code writes
them).  (`codes`, /repo/src/base64/base64_functions.cpp:9, and the other static members are constants.)

The threads proceed in any order, one access to a static variable at a time; the rest of a call happens together with the access
before it.  Two accesses to one variable by different threads, one of them a write, are a data race, which C++ leaves undefined:
the accesses of a program are recorded, so that this can be said.
Simplifications: a call of a member of `Trie` reads `mapChar` once instead of once for each character, and an operation of a
`BigNum` reads `base` and `order` once, before everything else; without a race this makes no difference.  A call of `error` ends
only its own thread here.
-/

namespace Threads
open Cpp

/-- The static variables that are not constants, see above. -/
inductive Var where
  | nextVertexID | nextEdgeID | mapChar | initialized | generator | base | order
  deriving DecidableEq

/-- What they hold.  `mapChar` is a null pointer at first, `generator` too. -/
def Val (E : Rand.Engine) : Var → Type
  | .nextVertexID => Int
  | .nextEdgeID => Int
  | .mapChar => Option Trie.Mapper
  | .initialized => Bool
  | .generator => Option E.σ
  | .base => Int
  | .order => Int

/-- The values of the static variables. -/
abbrev Mem (E : Rand.Engine) := (l : Var) → Val E l

/-- The start of the program: Vertex.cpp:9, Edge.cpp:5, Trie.cpp:53, random_functions.cpp:10-11 (static variables without
initializer are zero), BigNum.h:322-326. -/
def Mem.init (E : Rand.Engine) : Mem E
  | .nextVertexID => (0 : Int)
  | .nextEdgeID => (0 : Int)
  | .mapChar => (none : Option Trie.Mapper)
  | .initialized => false
  | .generator => (none : Option E.σ)
  | .base => (10 : Int)
  | .order => (1 : Int)

variable {E : Rand.Engine}

/-- Code that reads and writes static variables. -/
inductive Prog (E : Rand.Engine) (α : Type) : Type where
  /-- the end, with the outcome -/
  | ret (o : Out α)
  /-- a variable is read -/
  | load (l : Var) (k : Val E l → Prog E α)
  /-- a variable is written -/
  | store (l : Var) (v : Val E l) (k : Prog E α)

/-- Sequencing of statements: anything but a normal return stops the execution. -/
def Prog.bind {α β : Type} : Prog E α → (α → Prog E β) → Prog E β
  | .ret (.ok a), f => f a
  | .ret .exit, _ => .ret .exit
  | .ret .ub, _ => .ret .ub
  | .ret .diverge, _ => .ret .diverge
  | .load l k, f => .load l fun v => (k v).bind f
  | .store l v k, f => .store l v (k.bind f)

/-! ### The calls -/

/-- The objects of one thread: its tries with their member `mapChar`, and a `Random` object. -/
structure Objects (E : Rand.Engine) where
  trie : Nat → Option (Trie.St × Trie.Mapper)
  random : E.σ

/-- A call in a thread. -/
inductive Call where
  /-- `Vertex()`, `Vertex(val)` or `Vertex(src)` -/
  | vertex
  /-- `Edge(from, to, val)`, `Edge(src)` or `v.addEdge(to, val)` -/
  | edge
  /-- `Trie t(mapChar, mapInt)` -/
  | trie (t : Nat) (m : Trie.Mapper)
  /-- `t.insert(w)` -/
  | insert (t : Nat) (w : Str)
  /-- `t.contain(w)` -/
  | contain (t : Nat) (w : Str)
  /-- `t.remove(w)` -/
  | remove (t : Nat) (w : Str)
  /-- `randomInt`, `randomDouble`, `randomBool`, at the given time -/
  | global (time : Int) (c : Rand.Call Dbl)
  /-- the methods of the own `Random` object -/
  | random (c : Rand.Call Dbl)
  /-- `a + b` for `BigNum<N>` -/
  | plus (N fuel : Nat) (a b : BigNum.Big)
  /-- `a * b` for `BigNum<N>` -/
  | times (N : Nat) (a b : BigNum.Big)

/-- What a call returns; for a vertex or an edge the value of `getID()`. -/
inductive Result where
  | id (i : Int)
  | done
  | bool (b : Bool)
  | random (r : Rand.Ret Dbl)
  | big (b : BigNum.Big)

/-- `id = Vertex::nextVertexID++`, Vertex.cpp:14, 21, 29: the variable is read, then written. -/
def newVertexID : Prog E Int :=
  .load .nextVertexID fun (i : Int) =>
    match int (i + 1) with
    | .ok (n : Int) => .store .nextVertexID n (.ret (.ok i))
    | _ => .ret .ub

/-- `id = Edge::nextEdgeID++`, Edge.cpp:9, 17. -/
def newEdgeID : Prog E Int :=
  .load .nextEdgeID fun (i : Int) =>
    match int (i + 1) with
    | .ok (n : Int) => .store .nextEdgeID n (.ret (.ok i))
    | _ => .ret .ub

/-- The constructor of `Trie`, Trie.cpp:55-62. -/
def newTrie (t : Nat) (m : Trie.Mapper) (s : Objects E) : Prog E (Objects E) :=
  match Trie.new with
  | .ok st => .store .mapChar (some m) (.ret (.ok { s with trie := fun j => if j = t then some (st, m) else s.trie j }))
  | _ => .ret .ub

/-- A member function of `Trie` that reads `StringAdapter::mapChar` (Trie.h:172-175): `f` is given it, the own mapper and the state.
Calling a null pointer is undefined. -/
def useTrie {α : Type} (t : Nat) (s : Objects E) (f : Trie.Mapper → Trie.Mapper → Trie.St → Out α) : Prog E (α × Trie.Mapper) :=
  match s.trie t with
  | none => .ret .ub
  | some (st, m) => .load .mapChar fun (ms : Option Trie.Mapper) =>
    match ms with
    | none => .ret .ub
    | some ms => .ret (do .ok (← f ms m st, m))

/-- A function of random_functions.cpp:20-42: first `getInitializedGenerator()`, random_functions.cpp:9-17, then the generator is
used.  Dereferencing a null pointer is undefined. -/
def globalRandom (time : Int) (c : Rand.Call Dbl) : Prog E (Rand.Ret Dbl) :=
  .load .initialized fun (b : Bool) =>
    let use : Prog E (Rand.Ret Dbl) := .load .generator fun (g : Option E.σ) =>
      match g with
      | none => .ret .ub
      | some s =>
        match c.global time (some s) with
        | .ok (r, g') => .store .generator g' (.ret (.ok r))
        | .exit => .ret .exit
        | .ub => .ret .ub
        | .diverge => .ret .diverge
    if b then use else .store .generator (some (Rand.newAt E time)) (.store .initialized true use)

/-- An operation of `BigNum`, BigNum.h:245-295, which uses `base`; the constructors use `order` too, BigNum.h:33-41.  The model
of `BigNum` is for the values 10 and 1, which no code changes. -/
def useBig (o : Out BigNum.Big) : Prog E BigNum.Big :=
  .load .base fun (b : Int) => .load .order fun (k : Int) => if b = 10 ∧ k = 1 then .ret o else .ret .ub

/-- One call. -/
def Call.prog (c : Call) (s : Objects E) : Prog E (Result × Objects E) :=
  match c with
  | .vertex => newVertexID.bind fun i => .ret (.ok (.id i, s))
  | .edge => newEdgeID.bind fun i => .ret (.ok (.id i, s))
  | .trie t m => (newTrie t m s).bind fun s => .ret (.ok (.done, s))
  | .insert t w => (useTrie t s fun ms m st => Trie.insert ms m st w).bind fun (st, m) =>
    .ret (.ok (.done, { s with trie := fun j => if j = t then some (st, m) else s.trie j }))
  | .contain t w => (useTrie t s fun ms _ st => Trie.contain ms st w).bind fun (b, _) => .ret (.ok (.bool b, s))
  | .remove t w => (useTrie t s fun ms _ st => Trie.remove ms st w).bind fun (st, m) =>
    .ret (.ok (.done, { s with trie := fun j => if j = t then some (st, m) else s.trie j }))
  | .global time c => (globalRandom time c).bind fun r => .ret (.ok (.random r, s))
  | .random c => .ret (do
    let (r, g) ← c.method (E := E) s.random
    .ok (.random r, { s with random := g }))
  | .plus N fuel a b => (useBig (BigNum.plus N fuel a b)).bind fun b => .ret (.ok (.big b, s))
  | .times N a b => (useBig (BigNum.times N a b)).bind fun b => .ret (.ok (.big b, s))

/-- The calls of a thread, one after the other; the results of all of them. -/
def thread : List Call → Objects E → Prog E (List Result)
  | [], _ => .ret (.ok [])
  | c :: cs, s => (c.prog s).bind fun (r, s) => (thread cs s).bind fun rs => .ret (.ok (r :: rs))

/-! ### Threads -/

/-- An access to a static variable. -/
structure Access where
  thread : Nat
  var : Var
  write : Bool
  deriving DecidableEq

/-- The state of a program: the static variables, what each thread has still to do, and the accesses so far.  (A thread which
does not exist is one that has ended.) -/
structure State (E : Rand.Engine) (α : Type) where
  mem : Mem E
  todo : Nat → Prog E α
  accesses : List Access

/-- A static variable changes. -/
def Mem.set (m : Mem E) (l : Var) (v : Val E l) : Mem E := Function.update m l v

/-- The thread `i` proceeds up to and including its next access. -/
def State.step {α : Type} (s : State E α) (i : Nat) : State E α :=
  match s.todo i with
  | .ret _ => s
  | .load l k => ⟨s.mem, Function.update s.todo i (k (s.mem l)), s.accesses ++ [⟨i, l, false⟩]⟩
  | .store l v k => ⟨s.mem.set l v, Function.update s.todo i k, s.accesses ++ [⟨i, l, true⟩]⟩

/-- The threads proceed in the order given. -/
def State.run {α : Type} (s : State E α) (order : List Nat) : State E α := order.foldl State.step s

/-- A program whose thread `i` makes the calls `calls i` with the objects `own i`. -/
def start (m : Mem E) (calls : Nat → List Call) (own : Nat → Objects E) : State E (List Result) :=
  ⟨m, fun i => thread (calls i) (own i), []⟩

end Threads
