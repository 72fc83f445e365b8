import Verif.Spec.Stream

/-! # Texts whose reading as a vector of integers is undefined -/

namespace Stream.Spec
open Cpp

/-- What can stand behind a comma without being an `int` at the end of the text: nothing; something that is not a number, perhaps
after a sign; or a number out of range with something behind it. -/
inductive NoInt : Str → Prop
  | nothing (w : Str) (hw : Ws w) : NoInt w
  | word (w s : Str) (c : Byte) (t : Str) (hw : Ws w) (hs : s = [] ∨ s = [byte '+'] ∨ s = [byte '-']) (hd : ¬ Digits [c])
      (hc : s = [] → ¬ Ws [c] ∧ c ≠ byte '+' ∧ c ≠ byte '-') : NoInt (w ++ s ++ c :: t)
  | range (w n : Str) (v : Int) (c : Byte) (t : Str) (hw : Ws w) (hn : Num n v) (hv : ¬ IsInt v) (hd : ¬ Digits [c]) :
      NoInt (w ++ n ++ c :: t)

/-- Texts that make `>>` use a variable without a value: white space only; nothing behind the brace; a comma as the first thing
behind the brace; or elements, a comma, and no `int` behind the comma. -/
inductive Undefined : Str → Prop
  | blank (a : Str) (ha : Ws a) : Undefined a
  | opened (a b : Str) (ha : Ws a) (hb : Ws b) : Undefined (a ++ byte '{' :: b)
  | comma (a b t : Str) (ha : Ws a) (hb : Ws b) : Undefined (a ++ byte '{' :: (b ++ byte ',' :: t))
  | later (a : Str) (xs : List Item) (t : Str) (ha : Ws a) (hne : xs ≠ []) (h : ∀ x ∈ xs, x.Ok) (ht : NoInt t) :
      Undefined (a ++ byte '{' :: (commas xs ++ byte ',' :: t))

end Stream.Spec
