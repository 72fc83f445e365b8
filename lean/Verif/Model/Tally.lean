import Verif.Cpp

/-!
# Counting what a function does

The vocabulary of `Model/EditWork.lean` and `Model/MatrixWork.lean`, not a transcription of a particular file: an outcome
together with the number of uses of single cells and the sizes of the blocks of memory taken and given back, up to the end of
the function, undefined behaviour or the end of the fuel.
-/

namespace Tally
open Cpp

/-- What a piece of a program does: uses of single cells, bytes taken (positive) and given back (negative) in the order of
time, outcome. -/
structure Job (α : Type) where
  uses : Nat
  mem : List Int
  out : Out α

/-- Sequencing of statements: the counters go on. -/
def Job.bind {α β : Type} (x : Job α) (f : α → Job β) : Job β :=
  match x.out with
  | .ok a => ⟨x.uses + (f a).uses, x.mem ++ (f a).mem, (f a).out⟩
  | .exit => ⟨x.uses, x.mem, .exit⟩
  | .ub => ⟨x.uses, x.mem, .ub⟩
  | .diverge => ⟨x.uses, x.mem, .diverge⟩

instance : Monad Job where
  pure a := ⟨0, [], .ok a⟩
  bind := Job.bind

/-- A statement without counted work. -/
def free {α : Type} (x : Out α) : Job α := ⟨0, [], x⟩

/-- A statement that uses one cell. -/
def one {α : Type} (x : Out α) : Job α := ⟨1, [], x⟩

/-- `n` uses of cells whose effect is known already. -/
def use (n : Nat) : Job Unit := ⟨n, [], .ok ()⟩

/-- `new` of a block of `n` bytes; it does not fail. -/
def take (n : Nat) : Job Unit := ⟨0, [(n : Int)], .ok ()⟩

/-- `delete` of a block of `n` bytes. -/
def give (n : Nat) : Job Unit := ⟨0, [-(n : Int)], .ok ()⟩

end Tally
