import Verif.Spec.Json

/-!
# The texts taken for JSON

First the syntax of RFC 8259 (`RfcText`), then the texts that are read (`LooseText`).  The latter are more: with
other white space, unknown escapes, numbers with dashes and points anywhere, keys that are not strings, and anything at all
after the value.
-/

namespace Json.Spec
open Cpp

/-! ## RFC 8259 -/

/-- a hexadecimal digit -/
def Hex (c : Byte) : Prop := (48 ≤ c ∧ c ≤ 57) ∨ (97 ≤ c ∧ c ≤ 102) ∨ (65 ≤ c ∧ c ≤ 70)

/-- the inside of a string: no control characters, quotes and backslashes; escapes; unicode escapes -/
inductive RBody : Str → Prop
  | nil : RBody []
  | plain (c : Byte) (h : c ≠ byte '"') (h' : c ≠ byte '\\') (hc : 32 ≤ c) {t} (r : RBody t) : RBody (c :: t)
  | escape (p : Byte × Byte) (h : p ∈ escapes) {t} (r : RBody t) : RBody (byte '\\' :: p.1 :: t)
  | unicode (h : Str) (hl : h.length = 4) (hh : ∀ c ∈ h, Hex c) {t} (r : RBody t) :
      RBody (byte '\\' :: byte 'u' :: (h ++ t))

/-- a text with white space around it -/
structure Around where
  pre : Str
  text : Str
  post : Str

/-- all of it -/
def Around.full (x : Around) : Str := x.pre ++ x.text ++ x.post

/-- the white space is white space -/
def Around.Ok (x : Around) : Prop := Ws x.pre ∧ Ws x.post

/-- `Rfc E t`: the text `t` is a value; with exponents only if `E`. -/
inductive Rfc (E : Bool) : Str → Prop
  | null : Rfc E (bytes ['n', 'u', 'l', 'l'])
  | true : Rfc E (bytes ['t', 'r', 'u', 'e'])
  | false : Rfc E (bytes ['f', 'a', 'l', 's', 'e'])
  | num (n : Number) (h : n.Ok) (hz : n.ip.head? = some 48 → n.ip = [48]) (he : n.exp = none) : Rfc E n.text
  | exp (n : Number) (h : n.Ok) (hz : n.ip.head? = some 48 → n.ip = [48]) (he : n.exp = none) (hE : E = Bool.true)
      (e : Byte) (h' : e = byte 'e' ∨ e = byte 'E') (sign ds : Str) (hs : sign = [] ∨ sign = [byte '+'] ∨ sign = [byte '-'])
      (hd : Digits ds) : Rfc E (n.text ++ e :: sign ++ ds)
  | str (t : Str) (h : RBody t) : Rfc E ([byte '"'] ++ t ++ [byte '"'])
  | arr0 (w : Str) (h : Ws w) : Rfc E ([byte '['] ++ w ++ [byte ']'])
  | arr (l : List Around) (hne : l ≠ []) (hw : ∀ x ∈ l, x.Ok) (h : ∀ x ∈ l, Rfc E x.text) :
      Rfc E ([byte '['] ++ commas (l.map Around.full) ++ [byte ']'])
  | obj0 (w : Str) (h : Ws w) : Rfc E ([byte '{'] ++ w ++ [byte '}'])
  | obj (l : List (Around × Around)) (hne : l ≠ []) (hw : ∀ x ∈ l, x.1.Ok ∧ x.2.Ok)
      (hk : ∀ x ∈ l, ∃ t, RBody t ∧ x.1.text = [byte '"'] ++ t ++ [byte '"']) (h : ∀ x ∈ l, Rfc E x.2.text) :
      Rfc E ([byte '{'] ++ commas (l.map fun x => x.1.full ++ [byte ':'] ++ x.2.full) ++ [byte '}'])

/-- a JSON text -/
def RfcText (E : Bool) (t : Str) : Prop := ∃ x : Around, x.Ok ∧ Rfc E x.text ∧ t = x.full

/-! ## what is read -/

/-- white space of the "C" locale -/
def Blank (s : Str) : Prop := ∀ c ∈ s, c = 32 ∨ (9 ≤ c ∧ c ≤ 13)

/-- `LBody t s`: between quotes, the text `t` stands for the string `s`.  A unicode escape stands for its own six
characters, an unknown escape for a backslash. -/
inductive LBody : Str → Str → Prop
  | nil : LBody [] []
  | plain (c : Byte) (h : c ≠ byte '"') (h' : c ≠ byte '\\') {t s} (r : LBody t s) : LBody (c :: t) (c :: s)
  | escape (e c : Byte) (h : (e, c) ∈ escapes) {t s} (r : LBody t s) : LBody (byte '\\' :: e :: t) (c :: s)
  | unicode (h : Str) (hl : h.length = 4) (hh : ∀ c ∈ h, Hex c) {t s} (r : LBody t s) :
      LBody (byte '\\' :: byte 'u' :: (h ++ t)) (byte '\\' :: byte 'u' :: (h ++ s))
  | unknown (e : Byte) (h : ∀ p ∈ escapes, p.1 ≠ e) (hu : e ≠ byte 'u') {t s} (r : LBody t s) :
      LBody (byte '\\' :: e :: t) (byte '\\' :: s)

/-- What is taken for a number: sign, digits, a point and digits (if any), and after that more digits, dashes and points,
which do not count. -/
structure LNum where
  neg : Bool
  ip : Str
  frac : Option Str
  junk : Str

namespace LNum
/-- Before the junk there are as many digits as possible, and a point if possible; the first character is a digit or `-`. -/
def Ok (n : LNum) : Prop :=
  (∀ c ∈ n.ip, 48 ≤ c ∧ c ≤ 57) ∧ (∀ f ∈ n.frac, ∀ c ∈ f, 48 ≤ c ∧ c ≤ 57) ∧
  (∀ c ∈ n.junk, c = byte '-' ∨ c = byte '.' ∨ (48 ≤ c ∧ c ≤ 57)) ∧
  (∀ c ∈ n.junk.head?, ¬ (48 ≤ c ∧ c ≤ 57) ∧ (n.frac = none → c ≠ byte '.')) ∧ (n.neg = false → n.ip ≠ [])

/-- the text -/
def text (n : LNum) : Str :=
  (if n.neg then [byte '-'] else []) ++ n.ip ++ (match n.frac with | none => [] | some f => byte '.' :: f) ++ n.junk

/-- the number, without the junk; 0 if there are no digits -/
def value (n : LNum) : ℚ :=
  (if n.neg then -1 else 1) * ((nat n.ip : ℚ) + match n.frac with | none => 0 | some f => (nat f : ℚ) / 10 ^ f.length)
end LNum

/-- The text of a number and its value: a floating-point number if there is a point anywhere; else an integer, the nearest
`int` if out of range. -/
def Numeral (s : Str) (v : Value) : Prop :=
  ∃ n : LNum, n.Ok ∧ s = n.text ∧
    ((byte '.' ∈ s ∧ v = .float n.value) ∨
      (byte '.' ∉ s ∧ ∃ i : Int, n.value = i ∧ v = .int (max (-2147483648) (min 2147483647 i))))

/-- The text of a number with an exponent.  One character after the `e` is the sign, whatever it is. -/
def Expo (s : Str) (v : Value) : Prop :=
  ∃ (n : LNum) (e x : Byte) (ds : Str) (k : Int), n.Ok ∧ (e = byte 'e' ∨ e = byte 'E') ∧ (∀ c ∈ ds, 48 ≤ c ∧ c ≤ 57) ∧
    (x = byte '-' ∨ ds ≠ []) ∧ k = (if x = byte '-' then -(nat ds : Int) else nat ds) ∧ IsInt k ∧
    s = n.text ++ e :: x :: ds ∧ v = .float (n.value * (10 : ℚ) ^ k)

/-- What a value used as a key becomes: a string its escaped form, anything else the empty key. -/
def KeyOf (v : Value) (k : Str) : Prop :=
  match v with
  | .str s => Escaped k ∧ Body k s
  | _ => k = []

/-- An element: white space, text, white space; its value; and whether the text is a number, which ends before one of
certain characters only. -/
structure LItem where
  pre : Str
  text : Str
  post : Str
  value : Value
  num : Bool

/-- all of its text -/
def LItem.full (x : LItem) : Str := x.pre ++ x.text ++ x.post

/-- A member of an object: two elements. -/
structure LMember where
  key : LItem
  item : LItem

/-- all of its text -/
def LMember.full (x : LMember) : Str := x.key.full ++ [byte ':'] ++ x.item.full

/-- `Loose b d v`: the text `d` is taken for the value `v`; `b` says that it is a number. -/
inductive Loose : Bool → Str → Value → Prop
  | null : Loose false (bytes ['n', 'u', 'l', 'l']) .null
  | true : Loose false (bytes ['t', 'r', 'u', 'e']) (.bool true)
  | false : Loose false (bytes ['f', 'a', 'l', 's', 'e']) (.bool false)
  | num (s : Str) (v : Value) (h : Numeral s v) : Loose true s v
  /-- a zero character after a number is dropped -/
  | numNul (s : Str) (v : Value) (h : Numeral s v) : Loose false (s ++ [0]) v
  | str (t s : Str) (h : LBody t s) : Loose false ([byte '"'] ++ t ++ [byte '"']) (.str s)
  | arr0 (w : Str) (h : Blank w) : Loose false ([byte '['] ++ w ++ [byte ']']) (.arr [])
  | arr (l : List LItem) (hne : l ≠ []) (hw : ∀ x ∈ l, Blank x.pre ∧ Blank x.post)
      (h : ∀ x ∈ l, Loose x.num x.text x.value) :
      Loose false ([byte '['] ++ commas (l.map LItem.full) ++ [byte ']']) (.arr (l.map LItem.value))
  | obj0 (w : Str) (h : Blank w) : Loose false ([byte '{'] ++ w ++ [byte '}']) (.obj [])
  | obj (l : List LMember) (ps m : List (Str × Value)) (hne : l ≠ [])
      (hw : ∀ x ∈ l, Blank x.key.pre ∧ Blank x.key.post ∧ Blank x.item.pre ∧ Blank x.item.post)
      (hk : ∀ x ∈ l, Loose x.key.num x.key.text x.key.value) (hn : ∀ x ∈ l, x.key.num = Bool.true → x.key.post ≠ [])
      (h : ∀ x ∈ l, Loose x.item.num x.item.text x.item.value)
      (hp : List.Forall₂ (fun (x : LMember) (p : Str × Value) => KeyOf x.key.value p.1 ∧ p.2 = x.item.value) l ps) (hm : MapOf m ps) :
      Loose false ([byte '{'] ++ commas (l.map LMember.full) ++ [byte '}']) (.obj m)

/-- what may follow a number: nothing, white space, a comma, a closing bracket or a zero character -/
def EndsNum (r : Str) : Prop :=
  ∀ c ∈ r.head?, (c = 32 ∨ (9 ≤ c ∧ c ≤ 13)) ∨ c = byte ',' ∨ c = byte ']' ∨ c = byte '}' ∨ c = 0

/-- `LooseText t v`: white space, a text taken for the value `v`, and anything. -/
def LooseText (t : Str) (v : Value) : Prop :=
  ∃ w d r, Blank w ∧ t = w ++ d ++ r ∧
    (Loose false d v ∨ (Loose true d v ∧ EndsNum r) ∨ (Expo d v ∧ EndsNum r))

end Json.Spec
