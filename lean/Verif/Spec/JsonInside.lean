import Verif.Spec.JsonCut

/-! # Specification: texts with a number with an exponent inside of brackets -/

namespace Json.Spec
open Cpp

/-- `ExpIn b r`: in the text `r`, which begins with a value, a number with an exponent is reached after values which are
read; `b` says that it comes first, outside of any brackets.  What comes after the number does not matter, if only its first
character is one which ends a number. -/
inductive ExpIn : Bool → Str → Prop
  | num (s : Str) (v : Value) (h : Expo s v) (rest : Str) (hr : EndsNum rest) : ExpIn true (s ++ rest)
  /-- inside an array, after any number of elements -/
  | arr (l : List LItem) (hw : ∀ x ∈ l, Blank x.pre ∧ Blank x.post) (h : ∀ x ∈ l, Loose x.num x.text x.value)
      (w : Str) (hb : Blank w) {b : Bool} {r : Str} (c : ExpIn b r) : ExpIn false (byte '[' :: (listed (l.map LItem.full) ++ (w ++ r)))
  /-- inside of a key, after any number of members -/
  | key (l : List LMember)
      (hw : ∀ x ∈ l, Blank x.key.pre ∧ Blank x.key.post ∧ Blank x.item.pre ∧ Blank x.item.post)
      (hk : ∀ x ∈ l, Loose x.key.num x.key.text x.key.value) (hn : ∀ x ∈ l, x.key.num = true → x.key.post ≠ [])
      (h : ∀ x ∈ l, Loose x.item.num x.item.text x.item.value)
      (w : Str) (hb : Blank w) {b : Bool} {r : Str} (c : ExpIn b r) : ExpIn false (byte '{' :: (listed (l.map LMember.full) ++ (w ++ r)))
  /-- after a key and a colon, after any number of members -/
  | item (l : List LMember)
      (hw : ∀ x ∈ l, Blank x.key.pre ∧ Blank x.key.post ∧ Blank x.item.pre ∧ Blank x.item.post)
      (hk : ∀ x ∈ l, Loose x.key.num x.key.text x.key.value) (hn : ∀ x ∈ l, x.key.num = true → x.key.post ≠ [])
      (h : ∀ x ∈ l, Loose x.item.num x.item.text x.item.value)
      (k : LItem) (kw : Blank k.pre ∧ Blank k.post) (kl : Loose k.num k.text k.value) (kn : k.num = true → k.post ≠ [])
      (w : Str) (hb : Blank w) {b : Bool} {r : Str} (c : ExpIn b r) :
      ExpIn false (byte '{' :: (listed (l.map LMember.full) ++ (k.full ++ (byte ':' :: (w ++ r)))))

end Json.Spec
