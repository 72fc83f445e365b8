import Verif.Model.Json

/-!
# Model of the work of `JSONObject::dump`, /repo/src/json/Json.cpp:429-469

`dump` of Model/Json.lean once more, statement by statement, with a counter of the characters written into strings.
`s += t` writes the characters of `t`; a new string made of a literal or a named string and another one writes both.  A sum
whose left side is a temporary may be appended in place or written anew; which of the two is left to the library and is a
parameter (`Lib`).  What a `std::string` copies when it grows is not counted, nor are moves of whole strings.
-/

namespace Json.DumpWork
open Cpp

/-- How many characters `x + y` writes when `x` is a temporary, by the lengths of `x` and `y`. -/
abbrev Lib := Nat → Nat → Nat

/-- The characters of `y` are written; those of `x` may be. -/
def Lib.Sound (lib : Lib) : Prop := ∀ a b, b ≤ lib a b ∧ lib a b ≤ a + b

/-- What a piece of `dump` does: characters written, result. -/
structure Job (α : Type) where
  writes : Nat
  out : α

/-- Sequencing of statements: the counters add up. -/
def Job.bind {α β : Type} (x : Job α) (f : α → Job β) : Job β := ⟨x.writes + (f x.out).writes, (f x.out).out⟩

instance : Monad Job where
  pure a := ⟨0, a⟩
  bind := Job.bind

/-- `s += t` -/
def append (s t : Str) : Job Str := ⟨t.length, s ++ t⟩

/-- `s + t` for a literal or a named string `s` -/
def plus (s t : Str) : Job Str := ⟨s.length + t.length, s ++ t⟩

/-- `s + t` for a temporary `s` -/
def onto (lib : Lib) (s t : Str) : Job Str := ⟨lib s.length t.length, s ++ t⟩

/-- A new string with these characters: `std::to_string`, `std::string s = "..."`, the parameter `tab` passed by value. -/
def fresh (s : Str) : Job Str := ⟨s.length, s⟩

/-- The loop Json.cpp:430-432 from `i` rounds before the end on. -/
def pad (tab : Str) : Nat → Str → Job Str
  | 0, p => pure p
  | i + 1, p => do
    let p ← append p tab
    pad tab i p

/-- `pad.erase(0, 2)`, Json.cpp:445: the other characters are moved to the front. -/
def erase2 (p : Str) : Job Str := ⟨(p.drop 2).length, p.drop 2⟩

/-- `jsonEscape`, /repo/src/json/json_functions.cpp:5-34: the result is written once, bit by bit. -/
def escape (s : Str) : Job Str := fresh (jsonEscape s)

/-- `if (!skip) s += sep`, Json.cpp:441, 452 -/
def comma (skip : Bool) (s sep : Str) : Job Str := if skip then pure s else append s sep

mutual
/-- `dump(depth, tab)`, Json.cpp:429-469; the argument `tab` is a copy. -/
def dump (lib : Lib) (tab : Str) (depth : Int) : Value → Job Str
  | .null => do
    let tab ← fresh tab
    let _ ← pad tab depth.toNat []
    fresh (bytes ['n', 'u', 'l', 'l'])
  | .obj m => do
    let tab ← fresh tab
    let p ← pad tab depth.toNat []
    let s ← fresh (bytes ['{', '\n'])
    let s ← dumpObj lib tab depth p true s m
    let p ← erase2 p
    let e ← plus (bytes ['\n']) p
    let e ← onto lib e (bytes ['}'])
    append s e
  | .arr l => do
    let tab ← fresh tab
    let _ ← pad tab depth.toNat []
    let s ← fresh (bytes ['['])
    let s ← dumpArr lib tab depth true s l
    append s (bytes [']'])
  | .str s => do
    let tab ← fresh tab
    let _ ← pad tab depth.toNat []
    let e ← escape s
    let e ← plus (bytes ['"']) e
    onto lib e (bytes ['"'])
  | .float q => do
    let tab ← fresh tab
    let _ ← pad tab depth.toNat []
    fresh (decFloat q)
  | .int i => do
    let tab ← fresh tab
    let _ ← pad tab depth.toNat []
    fresh (decInt i)
  | .bool b => do
    let tab ← fresh tab
    let _ ← pad tab depth.toNat []
    fresh (if b then bytes ['t', 'r', 'u', 'e'] else bytes ['f', 'a', 'l', 's', 'e'])

/-- The loop Json.cpp:451-455, with `skip` and `s`. -/
def dumpArr (lib : Lib) (tab : Str) (depth : Int) (skip : Bool) (s : Str) : List Value → Job Str
  | [] => pure s
  | v :: l => do
    let s ← comma skip s (bytes [',', ' '])
    let t ← dump lib tab (depth + 1) v
    let s ← append s t
    dumpArr lib tab depth false s l

/-- The loop Json.cpp:440-444, with `pad`, `skip` and `s`. -/
def dumpObj (lib : Lib) (tab : Str) (depth : Int) (p : Str) (skip : Bool) (s : Str) : List (Str × Value) → Job Str
  | [] => pure s
  | (k, v) :: m => do
    let s ← comma skip s (bytes [',', '\n'])
    let x ← plus p (bytes ['"'])
    let x ← onto lib x k
    let x ← onto lib x (bytes ['"', ' ', ':', ' '])
    let t ← dump lib tab (depth + 1) v
    let x ← onto lib x t
    let s ← append s x
    dumpObj lib tab depth p false s m
end

end Json.DumpWork
