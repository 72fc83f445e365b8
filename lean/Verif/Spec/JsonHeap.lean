import Verif.Model.JsonHeap
import Mathlib.Algebra.Order.Group.Multiset

/-!
# What `JSONObject` variables are expected to be: independent values

`Rep` says which value the memory at an address stands for.  `vrun` runs a program on values: each variable has its own
value, an assignment copies, and nothing is shared.
-/

namespace Json.Mem
open Cpp

/-- What is at each address. -/
abbrev Cells := Nat → Option Cell

mutual

/-- The members `ty`, `d` stand for a value; the addresses that belong to it. -/
inductive RepD (c : Cells) : Ty → Data → Value → Multiset Nat → Prop
  | null (d : Data) : RepD c .null d .null 0
  | bool (b : Bool) : RepD c .boolean (.bool b) (.bool b) 0
  | int (i : Int) : RepD c .integral (.int i) (.int i) 0
  | float (q : ℚ) : RepD c .float (.float q) (.float q) 0
  | str {p : Nat} {s : Str} (hp : c p = some (.str s)) : RepD c .string (.ptr p) (.str s) {p}
  | arr {p : Nat} {as : List Nat} {l : List Value} {G : Multiset Nat} (hp : c p = some (.list as)) (h : RepL c as l G) :
      RepD c .array (.ptr p) (.arr l) ({p} + G)
  | obj {p : Nat} {as : List (Str × Nat)} {m : List (Str × Value)} {G : Multiset Nat} (hp : c p = some (.map as))
      (hk : as.map Prod.fst = m.map Prod.fst) (hs : (m.map Prod.fst).Pairwise (· < ·))
      (h : RepL c (as.map Prod.snd) (m.map Prod.snd) G) : RepD c .object (.ptr p) (.obj m) ({p} + G)

/-- The objects at some addresses stand for a list of values. -/
inductive RepL (c : Cells) : List Nat → List Value → Multiset Nat → Prop
  | nil : RepL c [] [] 0
  | cons {a : Nat} {as : List Nat} {ty : Ty} {d : Data} {v : Value} {l : List Value} {T G : Multiset Nat}
      (ha : c a = some (.obj ty d)) (h : RepD c ty d v T) (hl : RepL c as l G) :
      RepL c (a :: as) (v :: l) ({a} + T + G)

end

/-- The object at address `o` stands for the value `v`. -/
def Rep (c : Cells) (o : Nat) (v : Value) (F : Multiset Nat) : Prop :=
  ∃ ty d T, c o = some (.obj ty d) ∧ RepD c ty d v T ∧ F = {o} + T

/-! ### Programs on values -/

/-- the value of a scalar -/
def Scalar.value : Scalar → Value
  | .bool b => .bool b
  | .int i => .int i
  | .float q => .float q
  | .str s => .str s

/-- The value of a variable that has not been destroyed. -/
def vvar (vs : List (Option Value)) (x : Nat) : Out Value :=
  match vs[x]? with
  | some (some v) => .ok v
  | _ => .ub

/-- A statement on values. -/
def vstep (vs : List (Option Value)) : Stmt → Out (List (Option Value))
  | .new => .ok (vs ++ [some .null])
  | .copy y q => do
    let v ← vvar vs y
    let e ← peek q v
    let v' ← update e q v
    .ok (vs.set y (some v') ++ [some e])
  | .move y q => do
    let v ← vvar vs y
    let e ← peek q v
    let v' ← update .null q v
    .ok (vs.set y (some v') ++ [some e])
  | .assign x p y q => do
    let v ← vvar vs y
    let e ← peek q v
    let v' ← update e q v
    let vs := vs.set y (some v')
    let u ← vvar vs x
    let u' ← update e p u
    .ok (vs.set x (some u'))
  | .moveAssign x p y q => do
    let v ← vvar vs y
    let e ← peek q v
    let v' ← update .null q v
    let vs := vs.set y (some v')
    let u ← vvar vs x
    let u' ← update e p u
    .ok (vs.set x (some u'))
  | .scalar x p c => do
    let u ← vvar vs x
    let u' ← update c.value p u
    .ok (vs.set x (some u'))
  | .append x p y q => do
    let v ← vvar vs y
    let e ← peek q v
    let v' ← update e q v
    let vs := vs.set y (some v')
    let u ← vvar vs x
    let t ← peek p u
    let u' ← update (Json.append e t) p u
    .ok (vs.set x (some u'))
  | .destroy x => do
    let _ ← vvar vs x
    .ok (vs.set x none)

/-- A program on values. -/
def vrun (vs : List (Option Value)) : List Stmt → Out (List (Option Value))
  | [] => .ok vs
  | c :: p => do vrun (← vstep vs c) p

/-- Two paths lead to different keys of one object or to different indices of one array. -/
def Diverge : List Step → List Step → Prop
  | .key k :: q, .key k' :: p => k ≠ k' ∨ (k = k' ∧ Diverge q p)
  | .idx i :: q, .idx j :: p => i ≠ j ∨ (i = j ∧ Diverge q p)
  | _, _ => False

/-- The source and the target of a statement are separate. -/
def Stmt.Apart : Stmt → Prop
  | .assign x p y q => x ≠ y ∨ Diverge q p
  | .moveAssign x p y q => x ≠ y ∨ Diverge q p
  | .append x p y q => x ≠ y ∨ Diverge q p
  | _ => True

end Json.Mem
