import Verif.Model.Json

/-!
# JSON texts and the values they denote

Written after RFC 8259; only the type of values is taken from the model.  (The grammar allows a little more than the RFC:
leading zeros, and control characters inside strings.)
-/

namespace Json.Spec
open Cpp

/-- white space -/
def Ws (s : Str) : Prop := ∀ c ∈ s, c = 32 ∨ c = 9 ∨ c = 10 ∨ c = 13

instance (s : Str) : Decidable (Ws s) := inferInstanceAs (Decidable (∀ c ∈ s, _))

/-- The two-character escapes: second character and meaning. -/
def escapes : List (Byte × Byte) :=
  [(byte '"', byte '"'), (byte '\\', byte '\\'), (byte '/', byte '/'), (byte 'b', 8), (byte 'f', 12), (byte 'n', 10),
    (byte 'r', 13), (byte 't', 9)]

/-- `Body t s`: between quotes, the text `t` denotes the string `s` (no unicode escapes). -/
inductive Body : Str → Str → Prop
  | nil : Body [] []
  | plain (c : Byte) (h : c ≠ byte '"') (h' : c ≠ byte '\\') {t s} (r : Body t s) : Body (c :: t) (c :: s)
  | escape (e c : Byte) (h : (e, c) ∈ escapes) {t s} (r : Body t s) : Body (byte '\\' :: e :: t) (c :: s)

/-- A text in which every quote, backslash, and each of the control characters that have an escape is written as one. -/
inductive Escaped : Str → Prop
  | nil : Escaped []
  | plain (c : Byte) (h : c ∉ [byte '"', byte '\\', 8, 9, 10, 12, 13]) {t} (r : Escaped t) : Escaped (c :: t)
  | escape (e : Byte) (h : e ∈ bytes ['"', '\\', 'b', 'f', 'n', 'r', 't']) {t} (r : Escaped t) :
      Escaped (byte '\\' :: e :: t)

/-- digits, at least one -/
def Digits (s : Str) : Prop := s ≠ [] ∧ ∀ c ∈ s, 48 ≤ c ∧ c ≤ 57

instance (s : Str) : Decidable (Digits s) := inferInstanceAs (Decidable (_ ∧ ∀ c ∈ s, _))

/-- The number written by digits, most significant first. -/
def nat (s : Str) : Nat := Nat.ofDigits 10 (s.reverse.map fun c => c.toNat - 48)

/-- A number literal: sign, digits, fraction digits (if any), exponent (if any) with its sign character (if any). -/
structure Number where
  neg : Bool
  ip : Str
  frac : Option Str
  exp : Option (Option Bool × Str)

namespace Number
/-- well formed -/
def Ok (n : Number) : Prop := Digits n.ip ∧ (∀ f ∈ n.frac, Digits f) ∧ ∀ e ∈ n.exp, Digits e.2

/-- the text -/
def text (n : Number) : Str :=
  (if n.neg then [byte '-'] else []) ++ n.ip ++ (match n.frac with | none => [] | some f => byte '.' :: f) ++
    match n.exp with
    | none => []
    | some (sign, d) => byte 'e' :: (match sign with | none => [] | some true => [byte '-'] | some false => [byte '+']) ++ d

/-- the number denoted -/
def value (n : Number) : ℚ :=
  (if n.neg then -1 else 1) * ((nat n.ip : ℚ) + match n.frac with | none => 0 | some f => (nat f : ℚ) / 10 ^ f.length) *
    match n.exp with
    | none => 1
    | some (sign, d) => (10 : ℚ) ^ (if sign = some true then -(nat d : Int) else nat d)
end Number

/-- An element of an array: white space, text, white space; and its value. -/
structure Item where
  pre : Str
  text : Str
  post : Str
  value : Value

/-- all of its text -/
def Item.full (x : Item) : Str := x.pre ++ x.text ++ x.post

/-- A member of an object. -/
structure Member where
  pre : Str
  ktext : Str
  key : Str
  mid : Str
  mid' : Str
  text : Str
  post : Str
  value : Value

/-- all of its text -/
def Member.full (x : Member) : Str :=
  x.pre ++ [byte '"'] ++ x.ktext ++ [byte '"'] ++ x.mid ++ [byte ':'] ++ x.mid' ++ x.text ++ x.post

/-- with commas between -/
def commas : List Str → Str
  | [] => []
  | [t] => t
  | t :: ts => t ++ byte ',' :: commas ts

/-- `m` is the map (in the order of keys) given by the pairs, of which the last one with a given key counts. -/
def MapOf (m : List (Str × Value)) (ps : List (Str × Value)) : Prop :=
  m.Pairwise (fun a b => a.1 < b.1) ∧ ∀ k v, (k, v) ∈ m ↔ ∃ l r, ps = l ++ (k, v) :: r ∧ ∀ p ∈ r, p.1 ≠ k

/-- `Doc K t v`: the JSON text `t`, without exponents and unicode escapes, denotes the value `v`; ints are in the range of
`int`.  `K k k'` says that a key `k` is stored as `k'`; in the RFC, `k' = k`. -/
inductive Doc (K : Str → Str → Prop) : Str → Value → Prop
  | null : Doc K (bytes ['n', 'u', 'l', 'l']) .null
  | true : Doc K (bytes ['t', 'r', 'u', 'e']) (.bool true)
  | false : Doc K (bytes ['f', 'a', 'l', 's', 'e']) (.bool false)
  | int (n : Number) (h : n.Ok) (hf : n.frac = none) (he : n.exp = none) (i : Int) (hi : IsInt i) (hv : n.value = i) :
      Doc K n.text (.int i)
  | float (n : Number) (h : n.Ok) (hf : n.frac ≠ none) (he : n.exp = none) : Doc K n.text (.float n.value)
  | str (t s : Str) (h : Body t s) : Doc K ([byte '"'] ++ t ++ [byte '"']) (.str s)
  | arr0 (w : Str) (h : Ws w) : Doc K ([byte '['] ++ w ++ [byte ']']) (.arr [])
  | arr (l : List Item) (hne : l ≠ []) (hw : ∀ x ∈ l, Ws x.pre ∧ Ws x.post) (h : ∀ x ∈ l, Doc K x.text x.value) :
      Doc K ([byte '['] ++ commas (l.map Item.full) ++ [byte ']']) (.arr (l.map Item.value))
  | obj0 (w : Str) (h : Ws w) : Doc K ([byte '{'] ++ w ++ [byte '}']) (.obj [])
  | obj (l : List Member) (ps : List (Str × Value)) (m : List (Str × Value)) (hne : l ≠ [])
      (hw : ∀ x ∈ l, Ws x.pre ∧ Ws x.mid ∧ Ws x.mid' ∧ Ws x.post ∧ Body x.ktext x.key)
      (h : ∀ x ∈ l, Doc K x.text x.value)
      (hp : List.Forall₂ (fun x p => K x.key p.1 ∧ p.2 = x.value) l ps) (hm : MapOf m ps) :
      Doc K ([byte '{'] ++ commas (l.map Member.full) ++ [byte '}']) (.obj m)

/-- A text of the grammar with white space around it. -/
def Text (K : Str → Str → Prop) (t : Str) (v : Value) : Prop :=
  ∃ w w' d, Ws w ∧ Ws w' ∧ t = w ++ d ++ w' ∧ Doc K d v

/-- The values `JSONObject` can hold whose keys are all in escaped form; objects list their keys in order. -/
inductive Fine : Value → Prop
  | null : Fine .null
  | bool (b : Bool) : Fine (.bool b)
  | int (i : Int) (h : IsInt i) : Fine (.int i)
  | float (q : ℚ) : Fine (.float q)
  | str (s : Str) : Fine (.str s)
  | arr (l : List Value) (h : ∀ v ∈ l, Fine v) : Fine (.arr l)
  | obj (m : List (Str × Value)) (hs : m.Pairwise fun a b => a.1 < b.1) (hk : ∀ p ∈ m, ∃ s, p.1 = jsonEscape s)
      (h : ∀ p ∈ m, Fine p.2) : Fine (.obj m)

/-- no floating-point numbers -/
inductive NoFloat : Value → Prop
  | null : NoFloat .null
  | bool (b : Bool) : NoFloat (.bool b)
  | int (i : Int) : NoFloat (.int i)
  | str (s : Str) : NoFloat (.str s)
  | arr (l : List Value) (h : ∀ v ∈ l, NoFloat v) : NoFloat (.arr l)
  | obj (m : List (Str × Value)) (h : ∀ p ∈ m, NoFloat p.2) : NoFloat (.obj m)

/-- equal up to half a unit in the sixth place after the point of floating-point numbers -/
inductive Close : Value → Value → Prop
  | null : Close .null .null
  | bool (b : Bool) : Close (.bool b) (.bool b)
  | int (i : Int) : Close (.int i) (.int i)
  | float (q q' : ℚ) (h : |q - q'| ≤ 1 / 2000000) : Close (.float q) (.float q')
  | str (s : Str) : Close (.str s) (.str s)
  | arr (l l' : List Value) (hl : l.length = l'.length) (h : ∀ p ∈ l.zip l', Close p.1 p.2) : Close (.arr l) (.arr l')
  | obj (m m' : List (Str × Value)) (hk : m.map Prod.fst = m'.map Prod.fst)
      (h : ∀ p ∈ (m.map Prod.snd).zip (m'.map Prod.snd), Close p.1 p.2) : Close (.obj m) (.obj m')

end Json.Spec
