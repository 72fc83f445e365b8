import Verif.Model.JsonApi
import Verif.Model.Url
import Verif.Model.Base64

/-!
# Client code: byte strings under names in a JSON document

The functions of the library used are `JSONObject::operator[]`, `hasKey`, `dump`, `toString` (/repo/src/json/Json.cpp:355-364,
388-391, 429-469, 399-401), `loadJSON` (Json.cpp:484-487), `urlEncode`, `urlDecode`
(/repo/src/network/network_functions.cpp:24-64), `base64Encode` and `base64Decode` (/repo/src/base64/base64_functions.cpp:13-75).
-/

namespace JsonStore
open Cpp Json

/-- A step of the client: `doc[urlEncode(name)] = enc(data)`, or writing the document and reading it again,
`doc = loadJSON(doc.dump(depth, tab))`. -/
inductive Op where
  | set (name data : Str)
  | reload (depth : Int) (tab : Str)

/-- one step -/
def step (enc : Str → Str) (doc : Value) : Op → Out Value
  | .set name data => update (.str (enc data)) [.key (Url.urlEncode name)] doc
  | .reload depth tab => loadJSON (dump tab depth doc)

/-- the steps, beginning with `JSONObject doc;` -/
def run (enc : Str → Str) (ops : List Op) : Out Value := ops.foldlM (step enc) .null

/-- `doc.hasKey(urlEncode(name))`, and if so the data, `dec(doc[urlEncode(name)].toString())` -/
def get (dec : Str → Out Str) (name : Str) (doc : Value) : Out (Option Str) := do
  if hasKey (Url.urlEncode name) doc then
    let e ← peek [.key (Url.urlEncode name)] doc
    .ok (some (← dec e.toString))
  else .ok none

end JsonStore
