import Verif.Spec.JsonLoose

/-! # Specification: texts which end inside a string, or inside brackets after a number -/

namespace Json.Spec
open Cpp

/-- elements, or members, each followed by a comma -/
def listed (l : List Str) : Str := (l.map fun t => t ++ [byte ',']).flatten

/-- `Cut b r`: the text `r` is the beginning of a value and ends inside a string, or right after a number; `b` says that
there is nothing but the number. -/
inductive Cut : Bool → Str → Prop
  /-- the closing quote is missing -/
  | str (t s : Str) (h : LBody t s) : Cut false (byte '"' :: t)
  /-- the text ends after a backslash -/
  | escape (t s : Str) (h : LBody t s) : Cut false (byte '"' :: (t ++ [byte '\\']))
  | num (s : Str) (v : Value) (h : Numeral s v) : Cut true s
  /-- inside an array, after any number of elements -/
  | arr (l : List LItem) (hw : ∀ x ∈ l, Blank x.pre ∧ Blank x.post) (h : ∀ x ∈ l, Loose x.num x.text x.value)
      (w : Str) (hb : Blank w) {b : Bool} {r : Str} (c : Cut b r) : Cut false (byte '[' :: (listed (l.map LItem.full) ++ (w ++ r)))
  /-- inside of a key, after any number of members -/
  | key (l : List LMember)
      (hw : ∀ x ∈ l, Blank x.key.pre ∧ Blank x.key.post ∧ Blank x.item.pre ∧ Blank x.item.post)
      (hk : ∀ x ∈ l, Loose x.key.num x.key.text x.key.value) (hn : ∀ x ∈ l, x.key.num = true → x.key.post ≠ [])
      (h : ∀ x ∈ l, Loose x.item.num x.item.text x.item.value)
      (w : Str) (hb : Blank w) {b : Bool} {r : Str} (c : Cut b r) : Cut false (byte '{' :: (listed (l.map LMember.full) ++ (w ++ r)))
  /-- after a key and a colon, after any number of members -/
  | item (l : List LMember)
      (hw : ∀ x ∈ l, Blank x.key.pre ∧ Blank x.key.post ∧ Blank x.item.pre ∧ Blank x.item.post)
      (hk : ∀ x ∈ l, Loose x.key.num x.key.text x.key.value) (hn : ∀ x ∈ l, x.key.num = true → x.key.post ≠ [])
      (h : ∀ x ∈ l, Loose x.item.num x.item.text x.item.value)
      (k : LItem) (kw : Blank k.pre ∧ Blank k.post) (kl : Loose k.num k.text k.value) (kn : k.num = true → k.post ≠ [])
      (w : Str) (hb : Blank w) {b : Bool} {r : Str} (c : Cut b r) :
      Cut false (byte '{' :: (listed (l.map LMember.full) ++ (k.full ++ (byte ':' :: (w ++ r)))))

end Json.Spec
