import Verif.Spec.Stream
import Verif.Spec.JsonDouble
import Verif.Model.JsonDouble

/-! # Texts of decimal numbers -/

namespace Stream.Spec
open Cpp

/-- A decimal number as it is written in C++ and elsewhere: `-12.5e+3`, `.5`, `7.`, `1E6`.  A sign is `some true` for minus. -/
structure Lit where
  sign : Option Bool
  int : Str
  point : Bool
  frac : Str
  exp : Option (Byte × Option Bool × Str)

/-- a sign -/
def signText : Option Bool → Str
  | none => []
  | some true => [byte '-']
  | some false => [byte '+']

/-- only digits where digits are expected, at least one digit before or behind the point, and at least one in the exponent -/
def Lit.Ok (l : Lit) : Prop :=
  (∀ c ∈ l.int ++ l.frac, 48 ≤ c ∧ c ≤ 57) ∧ (l.int ≠ [] ∨ l.frac ≠ []) ∧ (l.frac ≠ [] → l.point = true) ∧
  ∀ e ∈ l.exp, (e.1 = byte 'e' ∨ e.1 = byte 'E') ∧ Digits e.2.2

instance (l : Lit) : Decidable l.Ok := by unfold Lit.Ok; infer_instance

/-- the text -/
def Lit.text (l : Lit) : Str :=
  signText l.sign ++ l.int ++ (if l.point then [byte '.'] else []) ++ l.frac ++
    match l.exp with
    | none => []
    | some (e, s, d) => e :: (signText s ++ d)

/-- is there a minus sign? -/
def Lit.neg (l : Lit) : Bool := l.sign = some true

/-- the power of ten -/
def Lit.power (l : Lit) : Int :=
  match l.exp with
  | none => 0
  | some (_, s, d) => if s = some true then -(nat d : Int) else nat d

/-- the number -/
def Lit.value (l : Lit) : ℚ :=
  (if l.neg then -1 else 1) * ((nat l.int + nat l.frac / 10 ^ l.frac.length) * 10 ^ l.power)

/-- The text `t` does not go on with the number: its first character is no digit, point or `e`. -/
def Ends (t : Str) : Prop := ∀ c ∈ t.head?, ¬ (48 ≤ c ∧ c ≤ 57) ∧ c ≠ byte '.' ∧ c ≠ byte 'e' ∧ c ≠ byte 'E'

instance (t : Str) : Decidable (Ends t) := inferInstanceAs (Decidable (∀ c ∈ t.head?, _))

/-- an element of a vector: a number in the range of `double` between white space -/
structure RItem where
  pre : Str
  lit : Lit
  post : Str

/-- it is one -/
def RItem.Ok (x : RItem) : Prop := Ws x.pre ∧ x.lit.Ok ∧ Ws x.post ∧ |x.lit.value| ≤ (2 ^ 53 - 1) * 2 ^ 971

/-- its text -/
def RItem.text (x : RItem) : Str := x.pre ++ x.lit.text ++ x.post

/-- elements separated by commas -/
def rcommas : List RItem → Str
  | [] => []
  | [x] => x.text
  | x :: xs => x.text ++ byte ',' :: rcommas xs

/-- Is `d` a nearest `double` to the number, with its sign? -/
def RItem.Read (x : RItem) (d : Json.F64) : Prop := ∃ q, d = ⟨x.lit.neg, .fin q⟩ ∧ Json.Spec.Nearest x.lit.value q

end Stream.Spec
