import Verif.Spec.Json

/-! # How a dumped JSON value is laid out in lines -/

namespace Json.Spec
open Cpp

/-- A reader of JSON text: inside a string or not, behind a backslash or not, how many brackets and braces are open. -/
structure Reader where
  quoted : Bool
  esc : Bool
  level : Int

/-- One character is read. -/
def Reader.step (s : Reader) (c : Byte) : Reader :=
  if s.quoted then
    (if s.esc then { s with esc := false }
    else if c = byte '\\' then { s with esc := true }
    else if c = byte '"' then { s with quoted := false } else s)
  else if c = byte '"' then { s with quoted := true }
  else if c = byte '{' ∨ c = byte '[' then { s with level := s.level + 1 }
  else if c = byte '}' ∨ c = byte ']' then { s with level := s.level - 1 }
  else s

/-- The reader after a text which begins outside of strings at level `n`. -/
def read (n : Int) (t : Str) : Reader := t.foldl Reader.step ⟨false, false, n⟩

/-- The tab, `n` times. -/
def indent (tab : Str) (n : Int) : Str := (List.replicate n.toNat tab).flatten

/-- Every line after the first begins outside of strings, with the indentation of a member and the quote of its key, or with the
indentation of a closing brace and that brace. -/
def Lines (member brace : Int → Str) (n : Int) (t : Str) : Prop :=
  ∀ pre post, t = pre ++ 10 :: post → (read n pre).quoted = false ∧
    ((∃ r, post = member (read n pre).level ++ byte '"' :: r) ∨ ∃ r, post = brace (read n pre).level ++ byte '}' :: r)

/-- The layout expected: a member is indented by the number of brackets and braces open, a closing brace by one less. -/
def LaidOut (tab : Str) (n : Int) (t : Str) : Prop := Lines (indent tab) (fun k => indent tab (k - 1)) n t

/-- Values whose keys are in escaped form and whose objects have members. -/
inductive Tidy : Value → Prop
  | null : Tidy .null
  | bool (b : Bool) : Tidy (.bool b)
  | int (i : Int) : Tidy (.int i)
  | float (q : ℚ) : Tidy (.float q)
  | str (s : Str) : Tidy (.str s)
  | arr (l : List Value) (h : ∀ v ∈ l, Tidy v) : Tidy (.arr l)
  | obj (m : List (Str × Value)) (hne : m ≠ []) (hk : ∀ p ∈ m, Escaped p.1) (h : ∀ p ∈ m, Tidy p.2) : Tidy (.obj m)

mutual
/-- The line breaks expected: one before each member and one before the closing brace of each object. -/
def breaks : Value → Nat
  | .arr l => breaksArr l
  | .obj m => breaksObj m + 1
  | _ => 0

/-- those of the elements -/
def breaksArr : List Value → Nat
  | [] => 0
  | v :: l => breaks v + breaksArr l

/-- those of the members, and one for each -/
def breaksObj : List (Str × Value) → Nat
  | [] => 0
  | (_, v) :: m => breaks v + 1 + breaksObj m
end

/-- Spaces and tabs. -/
def Blanks (tab : Str) : Prop := ∀ c ∈ tab, c = 32 ∨ c = 9

end Json.Spec
