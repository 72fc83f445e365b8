import Verif.Model.StringCast
import Verif.Spec.Stream

/-! # What a stringCast should give: the value whose text it is; and the text it was made from -/

namespace Stream.Spec
open Cpp

/-- the text that `out << b` writes for a `bool` -/
def boolText (b : Bool) : Str := if b then [byte '1'] else [byte '0']

/-- a state in which every object holds its text -/
structure Held (α : Type) where
  vars : Nat → Option Str := fun _ => none
  texts : Nat → Option Str := fun _ => none
  out : List α := []

/-- the text of an argument -/
def Held.arg {α : Type} (s : Held α) : CastArg → Option Str
  | .var v => s.vars v
  | .temp t => some t

/-- add the value of a text to the results -/
def Held.push {α : Type} (cast : Str → Out α) (s : Held α) : Option Str → Out (Held α)
  | none => .ub
  | some t => do
    let x ← cast t
    .ok { s with out := s.out ++ [x] }

/-- a statement, if an object holds the text it was made from -/
def Held.step {α : Type} (cast : Str → Out α) (s : Held α) : CastStmt → Out (Held α)
  | .assign v t => .ok { s with vars := Function.update s.vars v (some t) }
  | .drop v => .ok { s with vars := Function.update s.vars v none }
  | .make c a => match s.arg a with
    | none => .ub
    | some t => .ok { s with texts := Function.update s.texts c (some t) }
  | .use c => s.push cast (s.texts c)
  | .direct a => s.push cast (s.arg a)

/-- the results of a program -/
def Held.results {α : Type} (cast : Str → Out α) : List CastStmt → Held α → Out (List α)
  | [], s => .ok s.out
  | a :: p, s => do
    let s ← s.step cast a
    Held.results cast p s

/-- the statement changes the variable or ends its life -/
def Changes (v : Nat) : CastStmt → Prop
  | .assign u _ => u = v
  | .drop u => u = v
  | _ => False

/-- no named object is made from a temporary, and a variable from which one was made is not changed later -/
def Keeps : List CastStmt → Prop
  | [] => True
  | .make _ (.temp _) :: _ => False
  | .make _ (.var v) :: p => (∀ a ∈ p, ¬ Changes v a) ∧ Keeps p
  | _ :: p => Keeps p

end Stream.Spec
