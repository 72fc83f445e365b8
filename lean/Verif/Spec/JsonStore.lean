import Verif.Model.JsonStore
import Verif.Spec.Json

/-! # What a store of byte strings should hold -/

namespace JsonStore.Spec
open Cpp

/-- the data given last for a name -/
def lastData (name : Str) : List Op → Option Str
  | [] => none
  | .reload _ _ :: ops => lastData name ops
  | .set n d :: ops => (lastData name ops).or (if n = name then some d else none)

/-- documents are indented with white space -/
def Tabs (ops : List Op) : Prop := ∀ depth tab, Op.reload depth tab ∈ ops → Json.Spec.Ws tab

end JsonStore.Spec
