import Verif.Cpp

/-! # Edit sequences (independent of the model) -/

namespace EditDistance.Spec
open Cpp

/-- One edit operation: insert, delete or replace one character anywhere. -/
inductive Edit : Str → Str → Prop
  | insert (u : Str) (c : Byte) (v : Str) : Edit (u ++ v) (u ++ c :: v)
  | delete (u : Str) (c : Byte) (v : Str) : Edit (u ++ c :: v) (u ++ v)
  | replace (u : Str) (c d : Byte) (v : Str) : Edit (u ++ c :: v) (u ++ d :: v)

/-- `Edits n a b`: some sequence of `n` edit operations turns `a` into `b`. -/
inductive Edits : Nat → Str → Str → Prop
  | done (a : Str) : Edits 0 a a
  | step {n : Nat} {a b c : Str} : Edit a b → Edits n b c → Edits (n + 1) a c

end EditDistance.Spec
