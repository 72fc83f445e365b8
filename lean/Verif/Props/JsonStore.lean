import Verif.Proof.JsonStore

/-! # C156: byte strings stored in a JSON document -/

namespace JsonStore
open Cpp Json Json.Spec Spec

/-- C156: names and data coded with `urlEncode`.  Whatever bytes the names and data have, and however often the document
was written and read in between, every name gives the data stored last for it, and no other name is there. -/
theorem C156_url (ops : List Op) (ht : Tabs ops) : ∃ doc, run Url.urlEncode ops = .ok doc ∧
    ∀ name, get Url.urlDecode name doc = .ok (lastData name ops) := by
  obtain ⟨doc, e, h⟩ := run_inv ops (inv_nil Url.urlEncode) ht
  refine ⟨doc, e, fun name => ?_⟩
  rw [get_ok h clean_url, after, Option.or_none]
  cases lastData name ops with
  | none => rfl
  | some d => simp only [Url.C05_round_trip, Out.ok_bind]

/-- C156: data coded with `base64Encode`.  The data come back without their NUL bytes (C02). -/
theorem C156_base64 (ops : List Op) (ht : Tabs ops) : ∃ doc, run (fun d => Base64.base64Encode d) ops = .ok doc ∧
    ∀ name, get (fun t => .ok (Base64.base64Decode t)) name doc =
      .ok ((lastData name ops).map fun d => d.filter (fun b => b ≠ 0)) := by
  obtain ⟨doc, e, h⟩ := run_inv ops (inv_nil fun d => Base64.base64Encode d) ht
  refine ⟨doc, e, fun name => ?_⟩
  rw [get_ok h clean_base64, after, Option.or_none]
  cases lastData name ops with
  | none => rfl
  | some d => simp only [Base64.C02_round_trip_partial, Out.ok_bind, Option.map_some]

/-- names and data with quotes, a backslash, a line feed and a NUL byte; one name twice, and the document reloaded -/
def session : List Op :=
  [.set [byte '"'] [0, byte '\\'], .reload 0 [9], .set [10] [byte 'x'], .set [byte '"'] [255, 10, byte '"'],
    .reload 2 [byte ' ', byte ' ']]

example : Tabs session ∧ lastData [byte '"'] session = some [255, 10, byte '"'] ∧ lastData [10] session = some [byte 'x'] ∧
    lastData [] session = none := by
  refine ⟨?_, by decide, by decide, by decide⟩
  intro depth tab h
  simp only [session, List.mem_cons, Op.reload.injEq, List.not_mem_nil, or_false, reduceCtorEq, false_or] at h
  rcases h with ⟨-, rfl⟩ | ⟨-, rfl⟩ <;> decide

-- without a code: `doc["\n"] = "x"` is found, after writing and reading, under the two characters `\n`
example : (do
    let doc ← update (.str [byte 'x']) [.key [10]] .null
    let doc ← loadJSON (dumpDefault doc)
    .ok (hasKey [10] doc, hasKey (bytes ['\\', 'n']) doc)) = Out.ok (false, true) := by decide +kernel

-- without a code: the data `"` come back from `toString` as `\"`
example : (do
    let doc ← update (.str [byte '"']) [.key (bytes ['k'])] .null
    let e ← peek [.key (bytes ['k'])] doc
    .ok e.toString) = Out.ok (bytes ['\\', '"']) := by decide +kernel

end JsonStore
