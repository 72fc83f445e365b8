import Verif.Model.Stream

/-!
# stringCast for types other than int, and stringCast objects, /repo/src/include/string_utils/StringCast.h:18-37

`operator T()` (lines 22-32) makes a stream over the text, declares `T casted` and reads it with `operator>>`.  No exception
is thrown (the exceptions of the stream are not enabled), so that lines 27-30 are never reached.  The operators `>>` and `<<`
of the standard library are not code of /repo; they are written down here following the C++11 standard ("C" locale, no
`boolalpha`).  `double` is in Model/DoubleText.lean.
-/

open Cpp

namespace Stream

/-- the sign, the digits, and the stream after them: the first steps of reading any integer type -/
def IStream.getDigits (s : IStream) : Str × Str × IStream :=
  let sign := (s.rest.take 1).filter (fun c => c = byte '-' ∨ c = byte '+')
  let ds := (s.rest.drop sign.length).takeWhile Json.isDigit
  let s := s.take (sign.length + ds.length)
  (sign, ds, { s with eof := decide (s.rest = []) })

/-- `is >> value` for a signed integer type with the range from `lo` to `hi`: as for `int` (`IStream.getInt`) -/
def IStream.getSigned (lo hi : Int) (s : IStream) (value : Option Int) : Option Int × IStream :=
  let (ok, s) := s.sentry
  if ok then
    let (sign, ds, s) := s.getDigits
    if ds = [] then (some 0, { s with fail := true }) else
    let v : Int := if sign = [byte '-'] then -Json.natVal ds else Json.natVal ds
    if v > hi then (some hi, { s with fail := true })
    else if v < lo then (some lo, { s with fail := true })
    else (some v, s)
  else (value, s)

/-- `is >> value` for an unsigned integer type with the values below `m`: the digits must denote a value below `m`, otherwise
the greatest value is stored; a minus sign negates modulo `m` (`strtoull`). -/
def IStream.getUnsigned (m : Nat) (s : IStream) (value : Option Nat) : Option Nat × IStream :=
  let (ok, s) := s.sentry
  if ok then
    let (sign, ds, s) := s.getDigits
    if ds = [] then (some 0, { s with fail := true }) else
    let v := Json.natVal ds
    if v ≥ m then (some (m - 1), { s with fail := true })
    else if sign = [byte '-'] then (some ((m - v) % m), s)
    else (some v, s)
  else (value, s)

/-- `is >> value` for `bool`: a `long` (64 bits) is read; 0 is `false`, 1 is `true`, anything else is `true` with `failbit` -/
def IStream.getBool (s : IStream) (value : Option Bool) : Option Bool × IStream :=
  match s.getSigned (-2 ^ 63) (2 ^ 63 - 1) none with
  | (none, s) => (value, s)
  | (some v, s) => if v = 0 then (some false, s) else if v = 1 then (some true, s) else (some true, { s with fail := true })

/-- `is >> value` for `std::string`: the characters up to white space; the string keeps its value if there is none -/
def IStream.getString (s : IStream) (value : Str) : Str × IStream :=
  let (ok, s) := s.sentry
  if ok then
    let w := s.rest.takeWhile fun c => !isWs c
    let s := s.take w.length
    (w, { s with eof := decide (s.rest = []) })
  else (value, s)

/-- `stringCast<long long>(src)`, StringCast.h:22-32 -/
def castInt64 (src : Str) : Out Int := use (IStream.getSigned (-2 ^ 63) (2 ^ 63 - 1) { rest := src } none).1

/-- `stringCast<unsigned>(src)`, StringCast.h:22-32 -/
def castUnsigned (src : Str) : Out Nat := use (IStream.getUnsigned (2 ^ 32) { rest := src } none).1

/-- `stringCast<bool>(src)`, StringCast.h:22-32 -/
def castBool (src : Str) : Out Bool := use (IStream.getBool { rest := src } none).1

/-- `stringCast<char>(src)`, StringCast.h:22-32 -/
def castChar (src : Str) : Out Byte := use (IStream.getChar { rest := src } none).1

/-- `stringCast<std::string>(src)`, StringCast.h:22-32; `casted` (line 24) begins as the empty string -/
def castString (src : Str) : Out Str := .ok (IStream.getString { rest := src } []).1

/-! ## Objects -/

/-- what a `stringCast` is made from: a variable, or a temporary string such as the one made for a literal -/
inductive CastArg
  | var (v : Nat)
  | temp (t : Str)

/-- statements that make and use `stringCast` objects -/
inductive CastStmt
  /-- `v = t;` for a `std::string` variable `v` (or its declaration) -/
  | assign (v : Nat) (t : Str)
  /-- the end of the life of the variable `v` -/
  | drop (v : Nat)
  /-- `stringCast<T> c(arg);` -/
  | make (c : Nat) (arg : CastArg)
  /-- `out.push_back(c());` or `out.push_back((T)c);` -/
  | use (c : Nat)
  /-- `out.push_back(stringCast<T>(arg)());` in one expression -/
  | direct (arg : CastArg)

/-- the state: the living variables, the objects (`m_from`, StringCast.h:36, refers to a variable, or to a temporary that is
gone), and the results so far -/
structure CastState (α : Type) where
  vars : Nat → Option Str := fun _ => none
  objs : Nat → Option CastArg := fun _ => none
  out : List α := []

/-- the string a reference to a variable refers to; undefined if it does not live -/
def CastState.deref {α : Type} (s : CastState α) (v : Nat) : Out Str :=
  match s.vars v with
  | some t => .ok t
  | none => .ub

/-- One statement.  The constructor (StringCast.h:21) binds the reference `m_from` to its argument; a temporary bound to the
parameter lives until the end of the full expression only, so that an object made from one refers to nothing afterwards. -/
def CastStmt.run {α : Type} (cast : Str → Out α) (s : CastState α) : CastStmt → Out (CastState α)
  | .assign v t => .ok { s with vars := fun u => if u = v then some t else s.vars u }
  | .drop v => .ok { s with vars := fun u => if u = v then none else s.vars u }
  | .make c (.var v) => do
    let _ ← s.deref v
    .ok { s with objs := fun d => if d = c then some (.var v) else s.objs d }
  | .make c (.temp t) => .ok { s with objs := fun d => if d = c then some (.temp t) else s.objs d }
  | .use c =>
    match s.objs c with
    | some (.var v) => do
      let t ← s.deref v
      let x ← cast t
      .ok { s with out := s.out ++ [x] }
    | _ => .ub
  | .direct (.var v) => do
    let t ← s.deref v
    let x ← cast t
    .ok { s with out := s.out ++ [x] }
  | .direct (.temp t) => do
    let x ← cast t
    .ok { s with out := s.out ++ [x] }

/-- a program -/
def CastStmt.runAll {α : Type} (cast : Str → Out α) : List CastStmt → CastState α → Out (CastState α)
  | [], s => .ok s
  | a :: p, s => do
    let s ← a.run cast s
    runAll cast p s

end Stream
