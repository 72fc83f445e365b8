import Verif.Cpp
import Mathlib.Data.Nat.Digits.Defs

/-! # Texts that denote vectors of integers -/

namespace Stream.Spec
open Cpp

/-- white space -/
def Ws (s : Str) : Prop := ∀ c ∈ s, c = 32 ∨ 9 ≤ c ∧ c ≤ 13

instance (s : Str) : Decidable (Ws s) := inferInstanceAs (Decidable (∀ c ∈ s, _))

/-- digits, at least one -/
def Digits (s : Str) : Prop := s ≠ [] ∧ ∀ c ∈ s, 48 ≤ c ∧ c ≤ 57

instance (s : Str) : Decidable (Digits s) := inferInstanceAs (Decidable (_ ∧ ∀ c ∈ s, _))

/-- the number written by digits, most significant first -/
def nat (s : Str) : Nat := Nat.ofDigits 10 (s.reverse.map fun c => c.toNat - 48)

/-- a text that denotes an integer: perhaps a sign, then digits -/
inductive Num : Str → Int → Prop
  | plain (ds : Str) (h : Digits ds) : Num ds (nat ds)
  | plus (ds : Str) (h : Digits ds) : Num (byte '+' :: ds) (nat ds)
  | minus (ds : Str) (h : Digits ds) : Num (byte '-' :: ds) (-nat ds)

/-- an element: an integer in the range of `int` between white space -/
structure Item where
  pre : Str
  num : Str
  post : Str
  val : Int

/-- it is one -/
def Item.Ok (x : Item) : Prop := Ws x.pre ∧ Num x.num x.val ∧ Ws x.post ∧ IsInt x.val

/-- its text -/
def Item.text (x : Item) : Str := x.pre ++ x.num ++ x.post

/-- elements separated by commas -/
def commas : List Item → Str
  | [] => []
  | [x] => x.text
  | x :: xs => x.text ++ byte ',' :: commas xs

/-- `{`, elements separated by commas, `}`, with white space anywhere between; no element at all is allowed, too -/
inductive VecText : Str → List Int → Prop
  | nil (a b : Str) (ha : Ws a) (hb : Ws b) : VecText (a ++ byte '{' :: b ++ [byte '}']) []
  | items (a : Str) (ha : Ws a) (xs : List Item) (hne : xs ≠ []) (h : ∀ x ∈ xs, x.Ok) :
      VecText (a ++ byte '{' :: commas xs ++ [byte '}']) (xs.map Item.val)

end Stream.Spec
