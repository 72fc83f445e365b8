import Verif.Spec.FloatText

/-! # Spec: elements of a vector of `float`s -/

namespace Stream.Spec

/-- an element of a vector of `float`s: a number in the range of `float` between white space -/
def RItem.OkF (x : RItem) : Prop := Ws x.pre ∧ x.lit.Ok ∧ Ws x.post ∧ |x.lit.value| ≤ (2 ^ 24 - 1) * 2 ^ 104

/-- a number out of the range of `float`, its absolute value being 10^39 or more, between white space -/
def RItem.LargeF (x : RItem) : Prop := Ws x.pre ∧ x.lit.Ok ∧ Ws x.post ∧ 10 ^ 39 ≤ |x.lit.value|

/-- Is `d` a nearest `float` to the number, with its sign? -/
def RItem.ReadF (x : RItem) (d : Json.F64) : Prop := ∃ q, d = ⟨x.lit.neg, .fin q⟩ ∧ NearestFloat x.lit.value q

end Stream.Spec
