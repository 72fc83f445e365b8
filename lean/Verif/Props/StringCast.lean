import Verif.Proof.StringCast
import Verif.Proof.Decimal

/-!
# C142, C143: stringCast for types other than int, and stringCast objects

C142: *casting the text which `operator<<` writes for a value of type int, long long, unsigned, bool, char or std::string gives
the value back.*  The code does so for all numbers and truth values, for the characters that are not white space, and for the
strings without white space, but not for the others.

C143: *a stringCast object gives the value of the text it was made from, whenever it is used.*  The code keeps a reference to
the text only.
-/

namespace Stream.Props
open Cpp Spec

/-- **C142, what holds: `int`.**  `BigNum.Spec.decimal i` is the canonical decimal text of `i`. -/
theorem C142_int_partial (i : Int) (h : IsInt i) : castInt (BigNum.Spec.decimal i) = .ok i := by
  rw [← Json.decInt_decimal]
  have := getInt_num [] (w := []) (t := []) (by simp [Ws]) (decInt_num i) (by simp) none
  unfold castInt
  rw [List.append_nil, List.nil_append] at this
  rw [this]
  unfold IsInt at h
  show Out.ok (max INT_MIN (min INT_MAX i)) = _
  rw [show max INT_MIN (min INT_MAX i) = i by omega]

/-- **C142, what holds: `long long`.**  A text that begins with an integer, perhaps after white space, gives that integer, or
the nearest `long long`. -/
theorem C142_int64_value_partial (w n t : Str) (v : Int) (hw : Ws w) (hn : Num n v) (ht : ∀ c ∈ t.head?, ¬ Digits [c]) :
    castInt64 (w ++ n ++ t) = .ok (max (-2 ^ 63) (min (2 ^ 63 - 1) v)) := by
  unfold castInt64
  have h : ∀ c ∈ t.head?, Json.isDigit c = false := by
    intro c hc
    rw [← Bool.not_eq_true, Json.digit_iff]
    intro h
    exact ht c hc ⟨by simp, by simpa using h⟩
  rw [List.append_assoc, getSigned_num _ _ (by decide) [] hw hn h]
  rfl

/-- **C142, what holds: `long long`.** -/
theorem C142_int64_partial (i : Int) (h : -2 ^ 63 ≤ i ∧ i < 2 ^ 63) : castInt64 (BigNum.Spec.decimal i) = .ok i := by
  rw [← Json.decInt_decimal]
  have := C142_int64_value_partial [] _ [] i (by simp [Ws]) (decInt_num i) (by simp)
  rw [List.nil_append, List.append_nil] at this
  rw [this]
  congr 1
  omega

/-- **C142, what holds: `unsigned`.**  The digits denote the value, a minus sign negates it modulo 2³²; from 2³² on the result
is the greatest `unsigned`. -/
theorem C142_unsigned_value_partial (w n t : Str) (v : Int) (hw : Ws w) (hn : Num n v)
    (ht : ∀ c ∈ t.head?, ¬ Digits [c]) :
    castUnsigned (w ++ n ++ t) = .ok (if v.natAbs < 2 ^ 32 then (v % 2 ^ 32).toNat else 2 ^ 32 - 1) := by
  unfold castUnsigned
  have h : ∀ c ∈ t.head?, Json.isDigit c = false := by
    intro c hc
    rw [← Bool.not_eq_true, Json.digit_iff]
    intro h
    exact ht c hc ⟨by simp, by simpa using h⟩
  rw [List.append_assoc, getUnsigned_num _ [] hw hn h]
  rfl

/-- **C142, what holds: `unsigned`.** -/
theorem C142_unsigned_partial (n : Nat) (h : n < 2 ^ 32) : castUnsigned (BigNum.Spec.decimal n) = .ok n := by
  rw [← Json.decInt_decimal, show Json.decInt n = Json.decNat n by rw [Json.decInt, if_neg (by omega)]; rfl]
  have hd := Json.decNat_digits n
  have e : nat (Json.decNat n) = n := Json.decNat_nat n
  have hn := Num.plain _ hd
  rw [e] at hn
  have := C142_unsigned_value_partial [] _ [] n (by simp [Ws]) hn (by simp)
  rw [List.nil_append, List.append_nil] at this
  rw [this, if_pos (by omega)]
  congr 1
  omega

/-- **C142, what holds: `bool`.** -/
theorem C142_bool_partial (b : Bool) : castBool (boolText b) = .ok b := by
  cases b <;> decide +kernel

/-- **C142, what holds: `bool`.**  Any integer other than 0 gives `true`. -/
theorem C142_bool_value_partial (w n t : Str) (v : Int) (hw : Ws w) (hn : Num n v) (ht : ∀ c ∈ t.head?, ¬ Digits [c]) :
    castBool (w ++ n ++ t) = .ok (decide (v ≠ 0)) := by
  have h : ∀ c ∈ t.head?, Json.isDigit c = false := by
    intro c hc
    rw [← Bool.not_eq_true, Json.digit_iff]
    intro h
    exact ht c hc ⟨by simp, by simpa using h⟩
  have := getSigned_num (-2 ^ 63) (2 ^ 63 - 1) (by decide) [] hw hn h none
  unfold castBool IStream.getBool
  rw [List.append_assoc]
  revert this
  generalize IStream.getSigned _ _ _ _ = r
  obtain ⟨x, s⟩ := r
  rintro rfl
  dsimp only
  by_cases hv : v = 0
  · subst hv
    rfl
  · rw [if_neg (by omega)]
    split <;> simp [use, hv]

/-- **C142, what holds: `char`.**  Any character but white space. -/
theorem C142_char_partial (w t : Str) (c : Byte) (hw : Ws w) (hc : ¬ Ws [c]) : castChar (w ++ c :: t) = .ok c := by
  unfold castChar
  rw [getChar_good [] hw]
  · rfl
  · rw [← Bool.not_eq_true, isWs_iff]
    intro h
    exact hc (by simpa [Ws] using h)

/-- **C142, what holds: `std::string`.**  A string without white space; a longer text gives its first word. -/
theorem C142_string_partial (w n t : Str) (hw : Ws w) (hn : ∀ c ∈ n, ¬ Ws [c]) (ht : n = [] → t = [])
    (ht' : ∀ c ∈ t.head?, Ws [c]) : castString (w ++ n ++ t) = .ok n := by
  have key : ∀ c, Ws [c] ↔ isWs c = true := by intro c; rw [isWs_iff]; simp [Ws]
  unfold castString
  by_cases hne : n = []
  · subst hne
    rw [ht rfl, List.append_nil, List.append_nil]
    unfold IStream.getString
    rw [sentry_end [] hw]
    rfl
  · rw [List.append_assoc, getString_word [] hw hne (fun c hc => by
      rw [← Bool.not_eq_true]; exact fun h => hn c hc ((key c).2 h)) (fun c hc => (key c).1 (ht' c hc))]

/-- **C142, refuted.**  A string with a blank is cut at the blank; the blank itself gives a variable without a value; a text
without a number gives 0, and one of white space only is undefined for every type but `std::string`. -/
theorem C142_refuted :
    (∀ a b : Str, a ≠ [] → (∀ c ∈ a, ¬ Ws [c]) → castString (a ++ byte ' ' :: b) = .ok a) ∧
      castChar [byte ' '] = .ub ∧
      (∀ w, Ws w → castInt64 w = .ub ∧ castUnsigned w = .ub ∧ castBool w = .ub ∧ castChar w = .ub ∧ castString w = .ok []) := by
  refine ⟨fun a b ha h => ?_, by decide +kernel, fun w hw => ?_⟩
  · exact C142_string_partial [] a (byte ' ' :: b) (by simp [Ws]) h (fun e => absurd e ha) (by
      intro c hc
      simp at hc
      subst hc
      decide)
  · unfold castInt64 castUnsigned castBool castChar castString IStream.getBool IStream.getSigned IStream.getUnsigned
      IStream.getChar IStream.getString
    rw [sentry_end [] hw]
    exact ⟨rfl, rfl, rfl, rfl, rfl⟩

example : castInt64 (BigNum.Spec.decimal (-9223372036854775808)) = .ok (-9223372036854775808) := C142_int64_partial _ (by decide)
example : castInt (BigNum.Spec.decimal 2147483647) = .ok 2147483647 := C142_int_partial _ (by decide)
example : castUnsigned (BigNum.Spec.decimal 4294967295) = .ok 4294967295 := C142_unsigned_partial _ (by decide)
example : castUnsigned (bytes [' ', '-', '1', 'x']) = .ok 4294967295 :=
  C142_unsigned_value_partial [32] (bytes ['-', '1']) (bytes ['x']) (-1) (by decide) (.minus (bytes ['1']) (by decide)) (by decide)
example : castBool (bytes ['7']) = .ok true :=
  C142_bool_value_partial [] (bytes ['7']) [] 7 (by decide) (.plain _ (by decide)) (by simp)
example : castChar (bytes ['x', 'y']) = .ok (byte 'x') := C142_char_partial [] _ _ (by decide) (by decide)
example : castString (bytes ['a', 'b', ' ', 'c']) = .ok (bytes ['a', 'b']) :=
  C142_refuted.1 (bytes ['a', 'b']) (bytes ['c']) (by decide) (by decide)
example : castString (bytes [' ', 'a', 'b']) = .ok (bytes ['a', 'b']) :=
  C142_string_partial [32] (bytes ['a', 'b']) [] (by decide) (by decide) (by simp) (by simp)

/-! ## objects -/

/-- **C143, refuted.**  An object made from a temporary string cannot be used in a later statement; an object made from a
variable gives the value of what the variable holds when it is used, and cannot be used after the life of the variable. -/
theorem C143_refuted :
    (CastStmt.runAll castInt [.make 0 (.temp [byte '7']), .use 0] {} = .ub ∧
      Held.results castInt [.make 0 (.temp [byte '7']), .use 0] {} = .ok [7]) ∧
    ((CastStmt.runAll castInt [.assign 0 [byte '7'], .make 0 (.var 0), .assign 0 [byte '8'], .use 0] {} >>=
        fun s => .ok s.out) = .ok [8] ∧
      Held.results castInt [.assign 0 [byte '7'], .make 0 (.var 0), .assign 0 [byte '8'], .use 0] {} = .ok [7]) ∧
    (CastStmt.runAll castInt [.assign 0 [byte '7'], .make 0 (.var 0), .drop 0, .use 0] {} = .ub ∧
      Held.results castInt [.assign 0 [byte '7'], .make 0 (.var 0), .drop 0, .use 0] {} = .ok [7]) := by
  have e7 : castInt [byte '7'] = .ok 7 := by decide +kernel
  have e8 : castInt [byte '8'] = .ok 8 := by decide +kernel
  refine ⟨⟨rfl, ?_⟩, ⟨?_, ?_⟩, rfl, ?_⟩ <;>
    simp [Held.results, Held.step, Held.push, Held.arg, CastStmt.runAll, CastStmt.run, CastState.deref, e7, e8]

/-- **C143, what holds.**  For every type, every program in which no named object is made from a temporary, and in which a
variable is not changed after an object was made from it, gives the results it would give if objects held their text.  Casts
within one expression may use temporaries. -/
theorem C143_partial {α : Type} (cast : Str → Out α) (p : List CastStmt) (h : Keeps p) :
    (CastStmt.runAll cast p {} >>= fun s => .ok s.out) = Held.results cast p {} :=
  runAll_held cast p {} {} h ⟨rfl, rfl, fun _ => .inl ⟨rfl, rfl⟩⟩

example : (CastStmt.runAll castInt [.assign 0 [byte '7'], .make 0 (.var 0), .assign 1 [byte '8'], .direct (.temp [byte '8']),
    .use 0] {} >>= fun s => .ok s.out) = .ok [8, 7] := by
  rw [C143_partial castInt _ (by simp [Keeps, Changes])]
  have e7 : castInt [byte '7'] = .ok 7 := by decide +kernel
  have e8 : castInt [byte '8'] = .ok 8 := by decide +kernel
  simp [Held.results, Held.step, Held.push, Held.arg, e7, e8, Function.update]

end Stream.Props
