import Verif.Model.Random

/-!
# Model of /repo/src/include/random/Distribution.h and /repo/src/random/random_functions.cpp

Which `Random` object a sampler uses and who destroys it; and the functions that share one generator.
-/

namespace Rand
open Cpp

/-- `Random()`, Random.h:21: the seed is the time in seconds, converted to `int` (modulo `2^32`). -/
def newAt (E : Engine) (time : Int) : E.σ := new E (time.bmod (2 ^ 32))

/-! ### Objects -/

/-- A `Random` object.  `client` says that the program constructed it, otherwise a distribution did. -/
structure Gen (E : Engine) where
  /-- the state of the engine -/
  st : E.σ
  /-- constructed by the program -/
  client : Bool
  /-- not yet destroyed -/
  alive : Bool

/-- The members of Distribution.h:72-75. -/
structure Dist where
  /-- `randomGenerator` -/
  gen : Nat
  /-- `newedRandom` -/
  newed : Bool
  /-- not yet destroyed -/
  alive : Bool
  deriving DecidableEq

/-- All generators and distributions ever constructed; the address of an object is its position. -/
structure Objs (E : Engine) where
  gens : List (Gen E)
  dists : List Dist

variable {E : Engine}

/-- Access to a generator. -/
def readG (w : Objs E) (g : Nat) : Out (Gen E) :=
  match w.gens[g]? with
  | some x => if x.alive then .ok x else .ub
  | none => .ub

/-- Access to a distribution. -/
def readD (w : Objs E) (d : Nat) : Out Dist :=
  match w.dists[d]? with
  | some x => if x.alive then .ok x else .ub
  | none => .ub

/-- `delete` of a generator, or the end of its life. -/
def deleteG (w : Objs E) (g : Nat) : Out (Objs E) := do
  let x ← readG w g
  .ok { w with gens := w.gens.set g { x with alive := false } }

/-- `Distribution()`, Distribution.h:53: a new generator, seeded with the time. -/
def newDist (w : Objs E) (time : Int) : Objs E :=
  { gens := w.gens ++ [⟨newAt E time, false, true⟩], dists := w.dists ++ [⟨w.gens.length, true, true⟩] }

/-- `Distribution(Random& random)`, Distribution.h:61-63. -/
def newDistWith (w : Objs E) (g : Nat) : Out (Objs E) := do
  let _ ← readG w g
  .ok { w with dists := w.dists ++ [⟨g, false, true⟩] }

/-- `setRandomGenerator(random)`, Distribution.h:35-39. -/
def setGenerator (w : Objs E) (d g : Nat) : Out (Objs E) := do
  let _ ← readG w g
  let x ← readD w d
  let w ← if x.newed then deleteG w x.gen else .ok w
  .ok { w with dists := w.dists.set d { x with gen := g, newed := false } }

/-- `~Distribution`, Distribution.h:65-67. -/
def destroyDist (w : Objs E) (d : Nat) : Out (Objs E) := do
  let x ← readD w d
  let w ← if x.newed then deleteG w x.gen else .ok w
  .ok { w with dists := w.dists.set d { x with alive := false } }

/-- A sampler uses its generator: any computation `f`, e.g. one of the functions `…Next`. -/
def sample {α : Type} (w : Objs E) (d : Nat) (f : R E α) : Out (α × Objs E) := do
  let x ← readD w d
  let g ← readG w x.gen
  let (a, st) ← f g.st
  .ok (a, { w with gens := w.gens.set x.gen { g with st := st } })

/-- What a program can do with generators and distributions.  `draw` stands for a use of a distribution that takes
`n` numbers from its generator, `drawG` for a direct use of a generator. -/
inductive ObjCmd where
  | newRandom (seed : Int)
  | deleteRandom (g : Nat)
  | newDist (time : Int)
  | newDistWith (g : Nat)
  | setGenerator (d g : Nat)
  | destroyDist (d : Nat)
  | draw (d n : Nat)
  | drawG (g n : Nat)
  deriving DecidableEq

/-- `n` numbers are taken from a generator. -/
def draws : Nat → R E Unit
  | 0 => pure ()
  | n + 1 => do
    let _ ← Rand.draw
    draws n

/-- The effect of one call. -/
def objStep (w : Objs E) : ObjCmd → Out (Objs E)
  | .newRandom seed => .ok { w with gens := w.gens ++ [⟨new E seed, true, true⟩] }
  | .deleteRandom g => deleteG w g
  | .newDist time => .ok (newDist w time)
  | .newDistWith g => newDistWith w g
  | .setGenerator d g => setGenerator w d g
  | .destroyDist d => destroyDist w d
  | .draw d n => do
    let (_, w) ← sample w d (draws n)
    .ok w
  | .drawG g n => do
    let x ← readG w g
    let (_, st) ← draws (E := E) n x.st
    .ok { w with gens := w.gens.set g { x with st := st } }

/-! ### The shared generator of random_functions.cpp -/

/-- The static variables of random_functions.cpp:10-11: `none` if not `initialized`. -/
abbrev Global (E : Engine) := Option E.σ

/-- `getInitializedGenerator()`, random_functions.cpp:9-17, and a use `f` of the generator; `time` is the value of the
clock. -/
def global {α : Type} (time : Int) (f : R E α) (g : Global E) : Out (α × Global E) := do
  let s := match g with
    | none => newAt E time
    | some s => s
  let (a, s) ← f s
  .ok (a, some s)

section
variable {D : Type} [Add D] [Sub D] [Neg D] [Mul D] [Div D] [IntCast D] [LT D] [LE D] [DecidableLT D] [DecidableLE D]

/-- A call of one of the functions of random_functions.h. -/
inductive Call (D : Type) where
  | int0
  | int1 (max : Int)
  | int2 (min max : Int)
  | double0
  | double1 (max : D)
  | double2 (min max : D)
  | bool

/-- What a call returns. -/
inductive Ret (D : Type) where
  | int (i : Int)
  | double (x : D)
  | bool (b : Bool)

/-- `randomInt`, `randomDouble`, `randomBool`, random_functions.cpp:20-42; `randomDouble(max)` and `randomDouble()` call
`randomDouble(0, max)` and `randomDouble(0, 1)`. -/
def Call.global (time : Int) : Call D → Global E → Out (Ret D × Global E)
  | .int0, g => Rand.global time (do pure (.int (← nextInt0))) g
  | .int1 max, g => Rand.global time (do pure (.int (← nextInt1 max))) g
  | .int2 min max, g => Rand.global time (do pure (.int (← nextInt2 min max))) g
  | .double2 min max, g => Rand.global time (do pure (.double (← nextDouble2 min max))) g
  | .double1 max, g => Rand.global time (do pure (.double (← nextDouble2 ((0 : Int) : D) max))) g
  | .double0, g => Rand.global time (do pure (.double (← nextDouble2 ((0 : Int) : D) ((1 : Int) : D)))) g
  | .bool, g => Rand.global time (do pure (.bool (← nextBool))) g

/-- The same calls on a `Random` object: the methods of Random.cpp:12-39. -/
def Call.method : Call D → R E (Ret D)
  | .int0 => do pure (.int (← nextInt0))
  | .int1 max => do pure (.int (← nextInt1 max))
  | .int2 min max => do pure (.int (← nextInt2 min max))
  | .double2 min max => do pure (.double (← nextDouble2 min max))
  | .double1 max => do pure (.double (← nextDouble1 max))
  | .double0 => do pure (.double (← nextDouble0))
  | .bool => do pure (.bool (← nextBool))

/-- A history of calls of the functions, each with the time of the call. -/
def runGlobal : List (Int × Call D) → Global E → Out (List (Ret D) × Global E)
  | [], g => .ok ([], g)
  | (t, c) :: cs, g => do
    let (r, g) ← c.global t g
    let (rs, g) ← runGlobal cs g
    .ok (r :: rs, g)

/-- A history of calls on one `Random` object. -/
def runMethods : List (Call D) → R E (List (Ret D))
  | [] => pure []
  | c :: cs => do
    let r ← c.method
    let rs ← runMethods cs
    pure (r :: rs)

end
end Rand
