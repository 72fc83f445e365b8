import Verif.Model.DoubleText
import Verif.Spec.DoubleText
import Verif.Proof.Stream
import Verif.Proof.JsonDouble

/-! # Lemmas about doubles in texts -/

set_option exponentiation.threshold 2000

namespace Stream
open Cpp Spec Rand.Spec
open Json.Spec (Nearest SignBit)
open Json (F64 DBL_MAX readMag isDigit natVal decNat roundEven)

/-! ## reading -/

theorem drop_pre (a t : Str) : (a ++ t).drop a.length = t := List.drop_left

theorem one_yes {p : Byte → Bool} {c : Byte} (h : p c = true) (t : Str) : one p (c :: t) = [c] := by
  simp [one, h]

theorem one_no {p : Byte → Bool} {t : Str} (h : ∀ c ∈ t.head?, p c = false) : one p t = [] := by
  cases t with
  | nil => rfl
  | cons c t => simp [one, h c (by simp)]

theorem digit_facts : ∀ c : Byte, 48 ≤ c ∧ c ≤ 57 → isDigit c = true ∧ isSign c = false ∧ c ≠ byte '.' ∧ c ≠ byte 'e' ∧ c ≠ byte 'E' ∧
    isWs c = false := forall_byte (by decide +kernel)

theorem not_digit : ∀ c : Byte, ¬ (48 ≤ c ∧ c ≤ 57) → isDigit c = false := forall_byte (by decide +kernel)

theorem e_facts : ∀ c : Byte, c = byte 'e' ∨ c = byte 'E' → isDigit c = false ∧ isSign c = false ∧ c ≠ byte '.' ∧ isWs c = false :=
  forall_byte (by decide +kernel)

theorem head_append {p : Byte → Prop} {a t : Str} (ha : ∀ c ∈ a, p c) (ht : ∀ c ∈ t.head?, p c) : ∀ c ∈ (a ++ t).head?, p c := by
  cases a with
  | nil => exact ht
  | cons x a => intro c hc; simp at hc; exact ha c (by simp [hc])

theorem sign_split (s : Option Bool) {t : Str} (ht : ∀ c ∈ t.head?, isSign c = false) :
    one isSign (signText s ++ t) = signText s := by
  match s with
  | none => exact one_no ht
  | some true => exact one_yes (by decide) t
  | some false => exact one_yes (by decide) t

/-- the characters of a number in a text -/
def Lit.chars (l : Lit) : Chars :=
  ⟨signText l.sign, l.int, if l.point then [byte '.'] else [], l.frac,
    match l.exp with | none => [] | some (e, _, _) => [e],
    match l.exp with | none => [] | some (_, s, _) => signText s,
    match l.exp with | none => [] | some (_, _, d) => d⟩

theorem chars_all (l : Lit) : (Lit.chars l).all = l.text := by
  unfold Chars.all Lit.chars Lit.text
  cases l.exp <;> simp

/-- the exponent part of a number -/
def expText (l : Lit) : Str := match l.exp with
  | none => []
  | some (e, s, d) => e :: (signText s ++ d)

theorem ends_exp {l : Lit} (h : l.Ok) {t : Str} (ht : Ends t) : ∀ c ∈ (expText l ++ t).head?, ¬ (48 ≤ c ∧ c ≤ 57) ∧ c ≠ byte '.' := by
  unfold expText
  cases he : l.exp with
  | none => exact fun c hc => ⟨(ht c hc).1, (ht c hc).2.1⟩
  | some x =>
    obtain ⟨e, s, d⟩ := x
    intro c hc
    simp at hc
    have := (h.2.2.2 (e, s, d) (by rw [he]; rfl)).1
    subst hc
    have f := e_facts _ this
    refine ⟨fun hd => ?_, f.2.2.1⟩
    rw [(digit_facts _ hd).1] at f
    exact absurd f.1 (by simp)

theorem collect_lit {l : Lit} (h : l.Ok) {t : Str} (ht : Ends t) : collect (l.text ++ t) = Lit.chars l := by
  obtain ⟨hd, hne, hp, hx⟩ := h
  have hint : ∀ c ∈ l.int, 48 ≤ c ∧ c ≤ 57 := fun c hc => hd c (by simp [hc])
  have hfrac : ∀ c ∈ l.frac, 48 ≤ c ∧ c ≤ 57 := fun c hc => hd c (by simp [hc])
  have hE := ends_exp ⟨hd, hne, hp, hx⟩ ht
  have e0 : l.text ++ t = signText l.sign ++ (l.int ++ ((if l.point then [byte '.'] else []) ++ (l.frac ++ (expText l ++ t)))) := by
    unfold Lit.text expText
    cases l.exp <;> simp
  -- the head after the sign
  have h5 : ∀ c ∈ (expText l ++ t).head?, isDigit c = false := fun c hc => not_digit c (hE c hc).1
  have h3 : ∀ c ∈ ((if l.point then [byte '.'] else []) ++ (l.frac ++ (expText l ++ t))).head?, isDigit c = false := by
    by_cases hpt : l.point = true
    · rw [if_pos hpt]; intro c hc; simp at hc; subst hc; decide
    · rw [if_neg hpt]
      have : l.frac = [] := by by_contra hf; exact hpt (hp hf)
      rw [this]
      exact h5
  have h2 : ∀ c ∈ (l.int ++ ((if l.point then [byte '.'] else []) ++ (l.frac ++ (expText l ++ t)))).head?, isSign c = false := by
    by_cases hi : l.int = []
    · have hf := hne.resolve_left (by simp [hi])
      rw [hi, if_pos (hp hf)]
      intro c hc
      simp at hc
      subst hc
      decide
    · obtain ⟨c, i, hc⟩ := List.exists_cons_of_ne_nil hi
      rw [hc]
      intro c' hc'
      simp at hc'
      subst hc'
      exact (digit_facts c (hint c (by rw [hc]; simp))).2.1
  have s1 := sign_split l.sign h2
  have s2 : (l.int ++ ((if l.point then [byte '.'] else []) ++ (l.frac ++ (expText l ++ t)))).takeWhile isDigit = l.int :=
    takeWhile_pre (fun c hc => (digit_facts c (hint c hc)).1) h3
  have s3 : one (fun c => decide (c = byte '.')) ((if l.point then [byte '.'] else []) ++ (l.frac ++ (expText l ++ t))) =
      if l.point then [byte '.'] else [] := by
    by_cases hpt : l.point = true
    · rw [if_pos hpt]; exact one_yes (by simp) _
    · rw [if_neg hpt]
      have : l.frac = [] := by by_contra hf; exact hpt (hp hf)
      rw [this]
      exact one_no fun c hc => by simpa using (hE c hc).2
  have s4 : (if (if l.point then [byte '.'] else []) = ([] : Str) then [] else (l.frac ++ (expText l ++ t)).takeWhile isDigit) = l.frac := by
    by_cases hpt : l.point = true
    · rw [if_pos hpt, if_neg (by simp)]
      exact takeWhile_pre (fun c hc => (digit_facts c (hfrac c hc)).1) h5
    · rw [if_neg hpt, if_pos rfl]
      by_contra hf
      exact hpt (hp fun h0 => hf h0.symm)
  rw [e0]
  unfold collect
  simp only [s1, drop_pre, s2, s3, s4]
  rw [if_neg (show ¬ (l.int = [] ∧ l.frac = []) by rcases hne with h | h <;> simp [h])]
  unfold expText Lit.chars
  cases he : l.exp with
  | none =>
    have : one (fun c => decide (c = byte 'e' ∨ c = byte 'E')) ([] ++ t) = [] :=
      one_no fun c hc => by have := ht c hc; simp [this.2.2.1, this.2.2.2]
    simp only [this]
    rfl
  | some x =>
    obtain ⟨e, s, d⟩ := x
    obtain ⟨h1, h2⟩ : (e = byte 'e' ∨ e = byte 'E') ∧ Spec.Digits d := hx (e, s, d) (by rw [he]; rfl)
    have a1 : one (fun c => decide (c = byte 'e' ∨ c = byte 'E')) (e :: (signText s ++ d) ++ t) = [e] := one_yes (by simpa using h1) _
    have a2 : (e :: (signText s ++ d) ++ t).drop 1 = signText s ++ (d ++ t) := by simp
    have a3 : one isSign (signText s ++ (d ++ t)) = signText s := by
      apply sign_split
      obtain ⟨c, i, hc⟩ := List.exists_cons_of_ne_nil h2.1
      rw [hc]
      intro c' hc'
      simp at hc'
      subst hc'
      exact (digit_facts c (h2.2 c (by rw [hc]; simp))).2.1
    have a4 : (d ++ t).takeWhile isDigit = d :=
      takeWhile_pre (fun c hc => (digit_facts c (h2.2 c hc)).1) fun c hc => not_digit c (ht c hc).1
    simp only [a1, List.length_singleton, a2, if_neg (show ¬ ([e] = []) by simp), a3, drop_pre, a4]

theorem chars_valid {l : Lit} (h : l.Ok) : (Lit.chars l).valid = true := by
  unfold Chars.valid
  rw [decide_eq_true_eq]
  refine ⟨h.2.1, ?_⟩
  unfold Lit.chars
  cases he : l.exp with
  | none => left; rfl
  | some x => right; exact (h.2.2.2 x (by rw [he]; rfl)).2.1

theorem chars_value (l : Lit) : (Lit.chars l).value = |l.value| := by
  have e : (Lit.chars l).value = (nat l.int + nat l.frac / 10 ^ l.frac.length) * 10 ^ l.power := by
    unfold Chars.value Lit.chars Lit.power
    cases l.exp with
    | none => simp [natVal_nat, show (nat [] : ℕ) = 0 from rfl]
    | some x =>
      obtain ⟨e, s, d⟩ := x
      match s with
      | none => simp [natVal_nat, signText]
      | some true => simp [natVal_nat, signText]
      | some false =>
        have : ¬ (byte '+' = byte '-') := by decide
        simp [natVal_nat, signText, this]
  have h0 : 0 ≤ (nat l.int + nat l.frac / 10 ^ l.frac.length : ℚ) * 10 ^ l.power := by positivity
  rw [e, Lit.value, abs_mul, abs_of_nonneg h0]
  cases l.neg <;> simp

theorem chars_neg (l : Lit) : decide ((Lit.chars l).sign = [byte '-']) = l.neg := by
  unfold Lit.chars Lit.neg
  match l.sign with
  | none => rfl
  | some true => rfl
  | some false => rfl

theorem lit_head {l : Lit} (h : l.Ok) (t : Str) : ∃ c ∈ (l.text ++ t).head?, isWs c = false := by
  unfold Lit.text
  match hs : l.sign with
  | some true => exact ⟨byte '-', by simp [signText], by decide⟩
  | some false => exact ⟨byte '+', by simp [signText], by decide⟩
  | none =>
    by_cases hi : l.int = []
    · have hf := h.2.1.resolve_left (by simp [hi])
      exact ⟨byte '.', by rw [hi, if_pos (h.2.2.1 hf)]; simp [signText], by decide⟩
    · obtain ⟨c, i, hc⟩ := List.exists_cons_of_ne_nil hi
      exact ⟨c, by rw [hc]; simp [signText], (digit_facts c (h.1 c (by rw [hc]; simp))).2.2.2.2.2⟩

/-- reading a number: the value, and the stream behind it -/
theorem getDouble_lit (b : Str) {w : Str} {l : Lit} {t : Str} (hw : Ws w) (h : l.Ok) (ht : Ends t) (value : Option F64) :
    IStream.getDouble ⟨b, w ++ (l.text ++ t), false, false⟩ value =
      (some ⟨l.neg, .fin (if l.neg then -readMag |l.value| else readMag |l.value|)⟩,
        ⟨l.text.reverse ++ (w.reverse ++ b), t, decide (t = []), match Dbl.round |l.value| with | .fin _ => false | _ => true⟩) := by
  unfold IStream.getDouble
  rw [sentry_good b hw (lit_head h t)]
  simp only [if_true, collect_lit h ht, chars_all, take_pre, chars_valid h, chars_value, chars_neg]
  unfold readMag
  cases hr : Dbl.round |l.value| with
  | fin r => rfl
  | nan => cases l.neg <;> rfl
  | inf s => cases l.neg <;> rfl

theorem castDouble_lit {w : Str} {l : Lit} {t : Str} (hw : Ws w) (h : l.Ok) (ht : Ends t) :
    castDouble (w ++ l.text ++ t) = .ok ⟨l.neg, .fin (if l.neg then -readMag |l.value| else readMag |l.value|)⟩ := by
  unfold castDouble
  rw [List.append_assoc, getDouble_lit [] hw h ht]
  rfl

/-! ## writing -/

theorem nat_append (a b : Str) : nat (a ++ b) = nat a * 10 ^ b.length + nat b := by
  unfold nat
  rw [List.reverse_append, List.map_append, Nat.ofDigits_append]
  simp
  ring

theorem nat_zeros (j : Nat) : nat (List.replicate j (byte '0')) = 0 := by
  induction j with
  | zero => rfl
  | succ j ih =>
    rw [List.replicate_succ', nat_append, ih]
    rfl

theorem digitsN_succ (k n : Nat) : digitsN (k + 1) n = digitsN k (n / 10) ++ [48 + UInt8.ofNat (n % 10)] := by
  unfold digitsN
  rw [List.range_succ, List.map_append]
  congr 1
  · refine List.map_congr_left fun i hi => ?_
    rw [List.mem_range] at hi
    have : k + 1 - 1 - i = (k - 1 - i) + 1 := by omega
    rw [this, pow_succ', Nat.div_div_eq_div_mul]
  · simp

theorem digitsN_length (k n : Nat) : (digitsN k n).length = k := by simp [digitsN]

theorem digitsN_digits (k n : Nat) : ∀ c ∈ digitsN k n, 48 ≤ c ∧ c ≤ 57 := by
  intro c hc
  unfold digitsN at hc
  rw [List.mem_map] at hc
  obtain ⟨i, -, rfl⟩ := hc
  exact (Json.digit_byte (Nat.mod_lt _ (by omega))).2

theorem digitsN_nat : ∀ (k n : Nat), n < 10 ^ k → nat (digitsN k n) = n
  | 0, n, h => by
    have : n = 0 := by simpa using h
    rw [this]; rfl
  | k + 1, n, h => by
    rw [digitsN_succ, nat_append, digitsN_nat k (n / 10) (by rw [Nat.div_lt_iff_lt_mul (by omega), ← pow_succ]; exact h)]
    have : nat [48 + UInt8.ofNat (n % 10)] = n % 10 := by
      have := (Json.digit_byte (Nat.mod_lt n (show 0 < 10 by omega))).1
      simp only [nat, List.reverse_cons, List.reverse_nil, List.nil_append, List.map_cons, List.map_nil, Nat.ofDigits_singleton]
      rw [this]; omega
    rw [this, List.length_singleton]
    omega

theorem dropZeros_zeros (s : Str) : ∃ j, s = dropZeros s ++ List.replicate j (byte '0') := by
  refine ⟨(s.reverse.takeWhile (fun c => c = byte '0')).length, ?_⟩
  have h1 : s.reverse.takeWhile (fun c => c = byte '0') =
      List.replicate (s.reverse.takeWhile (fun c => c = byte '0')).length (byte '0') := by
    refine List.eq_replicate_iff.2 ⟨rfl, fun c hc => ?_⟩
    have := List.all_takeWhile (p := fun c => decide (c = byte '0')) (l := s.reverse)
    simpa using List.all_eq_true.1 this c hc
  have h2 := List.takeWhile_append_dropWhile (p := fun c => decide (c = byte '0')) (l := s.reverse)
  unfold dropZeros
  rw [← List.reverse_replicate, ← h1, ← List.reverse_append, h2, List.reverse_reverse]

theorem dropZeros_sub {s : Str} {c : Byte} (h : c ∈ dropZeros s) : c ∈ s := by
  obtain ⟨j, hj⟩ := dropZeros_zeros s
  rw [hj]
  exact List.mem_append_left _ h

theorem frac_value {k m : Nat} (h : m < 10 ^ k) :
    (nat (dropZeros (digitsN k m)) : ℚ) / 10 ^ (dropZeros (digitsN k m)).length = m / 10 ^ k := by
  obtain ⟨j, hj⟩ := dropZeros_zeros (digitsN k m)
  set d := dropZeros (digitsN k m)
  have h1 : k = d.length + j := by
    have := congrArg List.length hj
    rw [digitsN_length, List.length_append, List.length_replicate] at this
    exact this
  have h2 : m = nat d * 10 ^ j := by
    have := congrArg nat hj
    rw [digitsN_nat k m h, nat_append, nat_zeros, List.length_replicate] at this
    exact this
  rw [h2, h1, pow_add]
  push_cast
  rw [mul_div_mul_right _ _ (by positivity)]

/-- the literal that is written -/
def litOf (neg : Bool) (n : Nat) (e : Int) : Lit :=
  if e < -4 ∨ 6 ≤ e then
    ⟨if neg then some true else none, digitsN 1 (n / 100000), decide (dropZeros (digitsN 5 (n % 100000)) ≠ []),
      dropZeros (digitsN 5 (n % 100000)),
      some (byte 'e', some (decide (e < 0)), if e.natAbs < 10 then byte '0' :: decNat e.natAbs else decNat e.natAbs)⟩
  else
    ⟨if neg then some true else none, decNat (n / 10 ^ (5 - e).toNat), decide (dropZeros (digitsN (5 - e).toNat (n % 10 ^ (5 - e).toNat)) ≠ []),
      dropZeros (digitsN (5 - e).toNat (n % 10 ^ (5 - e).toNat)), none⟩

theorem fraction_eq (s : Str) : fraction s = (if decide (dropZeros s ≠ []) then [byte '.'] else []) ++ dropZeros s := by
  unfold fraction
  by_cases h : dropZeros s = []
  · simp [h]
  · simp [h]

theorem litOf_text (neg : Bool) {q : ℚ} (hq : q ≠ 0) : (litOf neg (six |q|).1 (six |q|).2).text = putDouble ⟨neg, .fin q⟩ := by
  unfold putDouble
  dsimp only
  rw [if_neg hq]
  have hs : signText (if neg then some true else none) = if neg then [byte '-'] else [] := by cases neg <;> rfl
  unfold litOf
  by_cases h : (six |q|).2 < -4 ∨ 6 ≤ (six |q|).2
  · rw [if_pos h, if_pos h, fraction_eq]
    unfold Lit.text exponent
    simp only [hs, List.append_assoc]
    by_cases h0 : (six |q|).2 < 0
    · simp [h0, signText]
    · simp [h0, signText]
  · rw [if_neg h, if_neg h, fraction_eq]
    unfold Lit.text
    simp only [hs, List.append_assoc, List.append_nil]

theorem litOf_neg (neg : Bool) (n : Nat) (e : Int) : (litOf neg n e).neg = neg := by
  unfold litOf Lit.neg
  split <;> cases neg <;> rfl

theorem digits_cons0 {s : Str} (h : Spec.Digits s) : Spec.Digits (byte '0' :: s) :=
  ⟨by simp, fun c hc => by
    rcases List.mem_cons.1 hc with rfl | hc
    · decide
    · exact h.2 c hc⟩

theorem litOf_ok (neg : Bool) (n : Nat) (e : Int) : (litOf neg n e).Ok := by
  unfold litOf Lit.Ok
  split
  · refine ⟨?_, Or.inl ?_, fun h => by simpa using h, ?_⟩
    · intro c hc
      rcases List.mem_append.1 hc with hc | hc
      · exact digitsN_digits _ _ c hc
      · exact digitsN_digits _ _ c (dropZeros_sub hc)
    · simp [digitsN]
    · intro x hx
      cases hx
      refine ⟨Or.inl rfl, ?_⟩
      have := Json.decNat_digits e.natAbs
      dsimp only
      split
      · exact digits_cons0 this
      · exact this
  · refine ⟨?_, Or.inl (Json.decNat_digits _).1, fun h => by simpa using h, by simp⟩
    intro c hc
    rcases List.mem_append.1 hc with hc | hc
    · exact (Json.decNat_digits _).2 c hc
    · exact digitsN_digits _ _ c (dropZeros_sub hc)

theorem nat_dec (n : Nat) : nat (decNat n) = n := Json.decNat_nat n

theorem nat_cons0 (s : Str) : nat (byte '0' :: s) = nat s := by
  rw [show byte '0' :: s = [byte '0'] ++ s from rfl, nat_append]
  simp [show nat [byte '0'] = 0 from rfl]

theorem litOf_value (neg : Bool) {n : Nat} (hn : n < 1000000) (e : Int) :
    (litOf neg n e).value = (if neg then -1 else 1) * (n * 10 ^ (e - 5)) := by
  have hneg := litOf_neg neg n e
  unfold Lit.value
  rw [hneg]
  congr 1
  unfold litOf
  by_cases h : e < -4 ∨ 6 ≤ e
  · rw [if_pos h]
    dsimp only
    rw [digitsN_nat 1 (n / 100000) (by omega), frac_value (by omega)]
    have hp : Lit.power ⟨if neg then some true else none, digitsN 1 (n / 100000), decide (dropZeros (digitsN 5 (n % 100000)) ≠ []),
      dropZeros (digitsN 5 (n % 100000)),
      some (byte 'e', some (decide (e < 0)), if e.natAbs < 10 then byte '0' :: decNat e.natAbs else decNat e.natAbs)⟩ = e := by
      unfold Lit.power
      have : nat (if e.natAbs < 10 then byte '0' :: decNat e.natAbs else decNat e.natAbs) = e.natAbs := by
        split
        · rw [nat_cons0, nat_dec]
        · rw [nat_dec]
      dsimp only
      rw [this]
      by_cases h0 : e < 0
      · simp only [h0, decide_true, if_true]; omega
      · simp only [h0, decide_false, Option.some.injEq, Bool.false_eq_true, if_false]; omega
    rw [hp]
    have hd : (n : ℚ) = ((n / 100000 : Nat) : ℚ) * 100000 + ((n % 100000 : Nat) : ℚ) := by
      exact_mod_cast (Nat.div_add_mod' n 100000).symm
    rw [hd, zpow_sub₀ (by norm_num)]
    norm_num
    ring
  · rw [if_neg h]
    set p := (5 - e).toNat with hp
    have he : e - 5 = -(p : Int) := by omega
    dsimp only
    have hpow : Lit.power ⟨if neg then some true else none, decNat (n / 10 ^ p), decide (dropZeros (digitsN p (n % 10 ^ p)) ≠ []),
      dropZeros (digitsN p (n % 10 ^ p)), none⟩ = 0 := rfl
    rw [hpow, nat_dec, frac_value (Nat.mod_lt _ (by positivity)), he, zpow_neg, zpow_natCast, zpow_zero, mul_one]
    have hd : (n : ℚ) = ((n / 10 ^ p : Nat) : ℚ) * 10 ^ p + ((n % 10 ^ p : Nat) : ℚ) := by
      exact_mod_cast (Nat.div_add_mod' n (10 ^ p)).symm
    conv_rhs => rw [hd]
    field_simp

/-! ## six digits -/

/-- the number `n · 10^(e - 5)` -/
def dec (x : Nat × Int) : ℚ := x.1 * 10 ^ (x.2 - 5)

theorem ten_pos (e : Int) : (0 : ℚ) < 10 ^ e := by positivity

theorem log_bounds {a : ℚ} (ha : 0 < a) : (10 : ℚ) ^ Int.log 10 a ≤ a ∧ a < 10 ^ (Int.log 10 a + 1) := by
  have h1 := Int.zpow_log_le_self (b := 10) (by norm_num) ha
  have h2 := Int.lt_zpow_succ_log_self (b := 10) (by norm_num) a
  exact ⟨by exact_mod_cast h1, by exact_mod_cast h2⟩

theorem log_eq {a : ℚ} {k : Int} (h1 : (10 : ℚ) ^ k ≤ a) (h2 : a < 10 ^ (k + 1)) : Int.log 10 a = k := by
  have ha : 0 < a := (ten_pos k).trans_le h1
  have a1 := (Int.zpow_le_iff_le_log (b := 10) (by norm_num) ha (x := k)).1 (by exact_mod_cast h1)
  have a2 := (Int.lt_zpow_iff_log_lt (b := 10) (by norm_num) ha (x := k + 1)).1 (by exact_mod_cast h2)
  omega

theorem ten_sub5 (e : Int) : (10 : ℚ) ^ e = 100000 * 10 ^ (e - 5) := by
  rw [zpow_sub₀ (by norm_num)]; norm_num; ring

theorem ten_succ (e : Int) : (10 : ℚ) ^ (e + 1) = 1000000 * 10 ^ (e - 5) := by
  rw [zpow_sub₀ (by norm_num), zpow_add₀ (by norm_num)]; norm_num; ring

/-- what rounding does: the digits and the error -/
theorem round_spec {a : ℚ} (ha : 0 < a) :
    100000 ≤ (roundEven (a / 10 ^ (Int.log 10 a - 5))).toNat ∧ (roundEven (a / 10 ^ (Int.log 10 a - 5))).toNat ≤ 1000000 ∧
    |a - (roundEven (a / 10 ^ (Int.log 10 a - 5))).toNat * 10 ^ (Int.log 10 a - 5)| ≤ 10 ^ (Int.log 10 a - 5) / 2 := by
  obtain ⟨h1, h2⟩ := log_bounds ha
  set e := Int.log 10 a
  have hp := ten_pos (e - 5)
  set u := (10 : ℚ) ^ (e - 5) with hu
  rw [ten_sub5, ← hu] at h1
  rw [ten_succ, ← hu] at h2
  have hx1 : 100000 ≤ a / u := by rw [le_div_iff₀ hp]; exact h1
  have hx2 : a / u < 1000000 := by rw [div_lt_iff₀ hp]; exact h2
  have hc := Json.roundEven_close (a / u)
  have h0 : 0 ≤ roundEven (a / u) := Json.roundEven_nonneg (by linarith)
  set r := roundEven (a / u)
  have hr : ((r.toNat : Nat) : ℚ) = (r : ℚ) := by
    have : ((r.toNat : Nat) : Int) = r := Int.toNat_of_nonneg h0
    exact_mod_cast this
  rw [abs_le] at hc
  have hr1 : (99999 : ℚ) < r := by linarith
  have hr2 : (r : ℚ) < 1000001 := by linarith
  have hr1' : (99999 : Int) < r := by exact_mod_cast hr1
  have hr2' : r < (1000001 : Int) := by exact_mod_cast hr2
  refine ⟨by omega, by omega, ?_⟩
  rw [hr]
  have e1 : a - r * u = (a / u - r) * u := by field_simp
  rw [e1, abs_mul, abs_of_pos hp]
  have : |a / u - r| ≤ 1 / 2 := abs_le.2 hc
  nlinarith

theorem six_spec {a : ℚ} (ha : 0 < a) : 100000 ≤ (six a).1 ∧ (six a).1 < 1000000 ∧ Int.log 10 a ≤ (six a).2 ∧
    (six a).2 ≤ Int.log 10 a + 1 ∧
    |a - dec (six a)| ≤ 10 ^ (Int.log 10 a - 5) / 2 := by
  obtain ⟨h1, h2, h3⟩ := round_spec ha
  unfold six
  dsimp only
  by_cases h : (roundEven (a / 10 ^ (Int.log 10 a - 5))).toNat = 1000000
  · rw [if_pos h]
    refine ⟨by norm_num, by norm_num, by dsimp only; omega, le_refl _, ?_⟩
    have : dec (100000, Int.log 10 a + 1) = ((roundEven (a / 10 ^ (Int.log 10 a - 5))).toNat : ℚ) * 10 ^ (Int.log 10 a - 5) := by
      rw [h]
      unfold dec
      dsimp only
      rw [show Int.log 10 a + 1 - 5 = (Int.log 10 a - 5) + 1 by ring, zpow_add₀ (by norm_num)]
      norm_num
      ring
    rw [this]
    exact h3
  · rw [if_neg h]
    exact ⟨h1, by omega, le_refl _, by dsimp only; omega, h3⟩

theorem six_close {a : ℚ} (ha : 0 < a) : |a - dec (six a)| ≤ 5 / 1000000 * a := by
  have h := (six_spec ha).2.2.2.2
  have h1 := (log_bounds ha).1
  rw [ten_sub5] at h1
  linarith

theorem six_in {a : ℚ} {m : Nat} {k : Int} (h1 : 100000 ≤ m) (h2 : m < 1000000) (hk : (10 : ℚ) ^ k ≤ a)
    (h : |a - dec (m, k)| < 10 ^ (k - 5) / 2) : six a = (m, k) := by
  have hp := ten_pos (k - 5)
  unfold dec at h
  dsimp only at h
  rw [abs_lt] at h
  have hm : (m : ℚ) + 1 ≤ 1000000 := by exact_mod_cast h2
  have hl : Int.log 10 a = k := log_eq hk (by rw [ten_succ]; nlinarith)
  unfold six
  rw [hl]
  have hr : roundEven (a / 10 ^ (k - 5)) = (m : Int) := by
    apply Json.roundEven_unique
    have e1 : a / 10 ^ (k - 5) - ((m : Int) : ℚ) = (a - m * 10 ^ (k - 5)) / 10 ^ (k - 5) := by
      push_cast
      field_simp
    rw [e1, abs_div, abs_of_pos hp, div_lt_iff₀ hp, abs_lt]
    constructor <;> linarith
  dsimp only
  rw [hr, Int.toNat_natCast, if_neg (by omega)]

theorem six_unique {a : ℚ} {m : Nat} {k : Int} (h1 : 100000 ≤ m) (h2 : m < 1000000)
    (h : |a - dec (m, k)| < 10 ^ (k - 6) / 2) : six a = (m, k) := by
  have hp := ten_pos (k - 6)
  have e10 : (10 : ℚ) ^ (k - 5) = 10 * 10 ^ (k - 6) := by
    rw [show k - 5 = (k - 6) + 1 by ring, zpow_add₀ (by norm_num)]; norm_num; ring
  rcases le_or_gt ((10 : ℚ) ^ k) a with hk | hk
  · exact six_in h1 h2 hk (by rw [e10]; linarith)
  · unfold dec at h
    dsimp only at h
    rw [abs_lt, e10] at h
    rw [ten_sub5, e10] at hk
    have hm : m = 100000 := by
      by_contra hne
      have : (100001 : ℚ) ≤ m := by exact_mod_cast (show 100001 ≤ m by omega)
      nlinarith
    subst hm
    push_cast at h
    have hl : Int.log 10 a = k - 1 := log_eq (by
      rw [ten_sub5, show k - 1 - 5 = k - 6 by ring]; linarith) (by
      rw [show k - 1 + 1 = k by ring, ten_sub5, e10]; linarith)
    unfold six
    rw [hl]
    have hr : roundEven (a / 10 ^ (k - 6)) = (1000000 : Int) := by
      apply Json.roundEven_unique
      have e1 : a / 10 ^ (k - 6) - ((1000000 : Int) : ℚ) = (a - 1000000 * 10 ^ (k - 6)) / 10 ^ (k - 6) := by
        push_cast
        field_simp
      rw [e1, abs_div, abs_of_pos hp, div_lt_iff₀ hp, abs_lt]
      constructor <;> linarith
    dsimp only
    rw [show k - 1 - 5 = k - 6 by ring, hr]
    simp

/-! ## reading what was written -/

theorem double_grid {r : ℚ} (h : IsDouble r) : ∃ i : Int, r = i * 2 ^ (-1074 : Int) := by
  obtain ⟨m, k, _, hk, _, rfl⟩ := h
  refine ⟨m * 2 ^ (k + 1074).toNat, ?_⟩
  have : ((2 : ℚ) ^ k) = 2 ^ (k + 1074).toNat * 2 ^ (-1074 : Int) := by
    rw [← zpow_natCast, ← zpow_add₀ (by norm_num)]
    congr 1
    omega
  rw [this]
  push_cast
  ring

theorem fl_sub {x : ℚ} (h0 : 0 ≤ x) (h : x ≤ 2 ^ (-1022 : Int)) : |fl x - x| ≤ 2 ^ (-1075 : Int) := by
  have hp : (0 : ℚ) < 2 ^ (-1074 : Int) := by positivity
  have hc := Json.roundEven_close (x / 2 ^ (-1074 : Int))
  have hn := Json.roundEven_nonneg (q := x / 2 ^ (-1074 : Int)) (by positivity)
  set m := roundEven (x / 2 ^ (-1074 : Int))
  have hx : x / 2 ^ (-1074 : Int) ≤ 2 ^ 52 := by
    rw [div_le_iff₀ hp]
    refine h.trans (le_of_eq ?_)
    norm_num
  have hm : |m| ≤ 2 ^ 53 := by
    rw [abs_of_nonneg hn]
    rw [abs_le] at hc
    have : (m : ℚ) ≤ ((2 ^ 53 : Int) : ℚ) := by push_cast; linarith
    exact_mod_cast this
  refine (Json.fl_near x hm (k := -1074) (by norm_num)).trans ?_
  have e1 : (m : ℚ) * 2 ^ (-1074 : Int) - x = -((x / 2 ^ (-1074 : Int) - m) * 2 ^ (-1074 : Int)) := by
    field_simp
    ring
  rw [e1, abs_neg, abs_mul, abs_of_pos hp]
  have e2 : (2 : ℚ) ^ (-1075 : Int) = 1 / 2 * 2 ^ (-1074 : Int) := by norm_num
  rw [e2]
  exact mul_le_mul_of_nonneg_right hc hp.le

theorem fl_fix {z r : ℚ} (h0 : 0 ≤ z) (h : z ≤ 2 ^ (-1022 : Int)) (hr : IsDouble r) (hc : |z - r| < 2 ^ (-1075 : Int)) : fl z = r := by
  have h1 := fl_sub h0 h
  have hp : (0 : ℚ) < 2 ^ (-1074 : Int) := by positivity
  have hd : IsDouble (fl z) := Rand.fl_isDouble (by
    have h2 : |fl z| ≤ |fl z - z| + |z| := by
      have := abs_add_le (fl z - z) z
      rwa [sub_add_cancel] at this
    rw [abs_of_nonneg h0] at h2
    have c1 : (2 : ℚ) ^ (-1075 : Int) ≤ 1 := by norm_num
    have c2 : (2 : ℚ) ^ (-1022 : Int) ≤ 1 := by norm_num
    have c3 : (2 : ℚ) < 2 ^ 1024 := by norm_num
    linarith)
  obtain ⟨i, hi⟩ := double_grid hd
  obtain ⟨j, hj⟩ := double_grid hr
  have h2 : |fl z - r| < 2 ^ (-1074 : Int) := by
    have := abs_add_le (fl z - z) (z - r)
    rw [sub_add_sub_cancel] at this
    have e2 : (2 : ℚ) ^ (-1075 : Int) + 2 ^ (-1075 : Int) = 2 ^ (-1074 : Int) := by norm_num
    linarith
  rw [hi, hj, ← sub_mul, abs_mul, abs_of_pos hp] at h2
  have h3 : |(i : ℚ) - j| < 1 := by
    by_contra hge
    push Not at hge
    nlinarith
  have h4 : |i - j| < 1 := by exact_mod_cast h3
  have h5 : i = j := by
    have := Int.abs_lt_one_iff.1 h4
    omega
  rw [hi, hj, h5]

theorem dec_bounds {n : Nat} (h1 : 100000 ≤ n) (h2 : n < 1000000) (e : Int) : (10 : ℚ) ^ e ≤ dec (n, e) ∧ dec (n, e) < 10 ^ (e + 1) := by
  unfold dec
  have hp := ten_pos (e - 5)
  have a1 : (100000 : ℚ) ≤ n := by exact_mod_cast h1
  have a2 : (n : ℚ) < 1000000 := by exact_mod_cast h2
  rw [ten_sub5, ten_succ]
  exact ⟨mul_le_mul_of_nonneg_right a1 hp.le, mul_lt_mul_of_pos_right a2 hp⟩

theorem dec_pos {n : Nat} (h1 : 100000 ≤ n) (h2 : n < 1000000) (e : Int) : 0 < dec (n, e) :=
  (ten_pos e).trans_le (dec_bounds h1 h2 e).1

theorem fl_max {y : ℚ} (h0 : 0 ≤ y) (h : y ≤ DBL_MAX) : IsDouble (fl y) := Rand.fl_isDouble (by
  rw [abs_of_nonneg (fl_nonneg h0)]
  have := fl_mono h
  rw [Rand.fl_of_isDouble Json.isDouble_max] at this
  refine this.trans_lt ?_
  unfold DBL_MAX
  norm_num)

/-- a number of six digits that was read is read again after it was written -/
theorem six_stable {n : Nat} {e : Int} (h1 : 100000 ≤ n) (h2 : n < 1000000) (hm : dec (n, e) ≤ DBL_MAX)
    (hr : 0 < fl (dec (n, e))) : fl (dec (six (fl (dec (n, e))))) = fl (dec (n, e)) := by
  obtain ⟨hy1, hy2⟩ := dec_bounds h1 h2 e
  have hy0 := dec_pos h1 h2 e
  have hd := fl_max hy0.le hm
  rcases le_or_gt (-317) e with he | he
  · rw [six_unique h1 h2]
    rcases le_or_gt ((2 : ℚ) ^ (-1022 : Int)) (dec (n, e)) with hb | hb
    · have h := Json.fl_rel (x := dec (n, e)) (by rwa [abs_of_pos hy0])
      rw [abs_of_pos hy0] at h
      refine h.trans_lt ?_
      have e7 : (10 : ℚ) ^ (e + 1) = 10000000 * 10 ^ (e - 6) := by
        rw [show e + 1 = (e - 6) + 7 by ring, zpow_add₀ (by norm_num)]; norm_num; ring
      rw [e7] at hy2
      have hp := ten_pos (e - 6)
      have c : (2 : ℚ) ^ (-53 : Int) * 10000000 < 1 / 2 := by norm_num
      have c0 : (0 : ℚ) < 2 ^ (-53 : Int) := by positivity
      nlinarith
    · refine (fl_sub hy0.le hb.le).trans_lt ?_
      have : (10 : ℚ) ^ (-323 : Int) ≤ 10 ^ (e - 6) := zpow_le_zpow_right₀ (by norm_num) (by omega)
      have c : (2 : ℚ) ^ (-1075 : Int) < 10 ^ (-323 : Int) / 2 := by norm_num
      exact c.trans_le (div_le_div_of_nonneg_right this (by norm_num))
  · have hy3 : dec (n, e) < 10 ^ (-317 : Int) := hy2.trans_le (zpow_le_zpow_right₀ (by norm_num) (by omega))
    have c317 : (10 : ℚ) ^ (-317 : Int) ≤ 2 ^ (-1022 : Int) / 2 := by norm_num
    have c1022 : (0 : ℚ) < 2 ^ (-1022 : Int) := by positivity
    have hsub := fl_sub hy0.le (hy3.le.trans (c317.trans (half_le_self c1022.le)))
    have cs : (2 : ℚ) ^ (-1075 : Int) < 10 ^ (-318 - 5 : Int) / 2 := by norm_num
    rcases lt_or_ge (fl (dec (n, e))) (10 ^ (-318 : Int)) with hb | hb
    · have hs := six_spec hr
      have hl : Int.log 10 (fl (dec (n, e))) < -318 := by
        apply (Int.lt_zpow_iff_log_lt (b := 10) (by norm_num) hr).1
        exact_mod_cast hb
      have hu : (10 : ℚ) ^ (Int.log 10 (fl (dec (n, e))) - 5) ≤ 10 ^ (-324 : Int) := zpow_le_zpow_right₀ (by norm_num) (by omega)
      have cc : (10 : ℚ) ^ (-324 : Int) / 2 < 2 ^ (-1075 : Int) := by norm_num
      have hz := hs.2.2.2.2
      have c318 : (10 : ℚ) ^ (-318 : Int) + 2 ^ (-1075 : Int) ≤ 2 ^ (-1022 : Int) := by norm_num
      refine fl_fix (dec_pos hs.1 hs.2.1 _).le ?_ hd ?_
      · rw [abs_le] at hz
        generalize (2 : ℚ) ^ (-1075 : Int) = x1 at *
        generalize (10 : ℚ) ^ (Int.log 10 (fl (dec (n, e))) - 5) = x2 at *
        generalize (10 : ℚ) ^ (-324 : Int) = x3 at *
        generalize (10 : ℚ) ^ (-318 : Int) = x4 at *
        generalize (2 : ℚ) ^ (-1022 : Int) = x5 at *
        linarith
      · rw [abs_sub_comm]
        exact hz.trans_lt ((div_le_div_of_nonneg_right hu (by norm_num)).trans_lt cc)
    · rcases eq_or_lt_of_le (show e ≤ -318 by omega) with rfl | hlt
      · rw [six_in h1 h2 hb (hsub.trans_lt cs)]
      · have hy4 : dec (n, e) < 10 ^ (-318 : Int) := hy2.trans_le (zpow_le_zpow_right₀ (by norm_num) (by omega))
        have hz : dec (100000, -318) = 10 ^ (-318 : Int) := by
          rw [ten_sub5]; unfold dec; norm_num
        rw [six_in (m := 100000) (k := -318) (by norm_num) (by norm_num) hb (by
          rw [hz]
          rw [abs_of_nonneg (by linarith)]
          rw [abs_of_nonneg (by linarith)] at hsub
          exact (sub_le_sub_left hy4.le _).trans_lt (hsub.trans_lt cs)), hz]
        refine le_antisymm ?_ ?_
        · have := fl_mono hb
          rwa [Rand.fl_of_isDouble hd] at this
        · exact fl_mono hy4.le

theorem six_le {a : ℚ} (ha : 0 < a) (hm : a ≤ DBL_MAX) : dec (six a) ≤ DBL_MAX := by
  obtain ⟨h1, h2, h3, h4, h5⟩ := six_spec ha
  have hl := (log_bounds ha).2
  rw [abs_le] at h5
  rcases le_or_gt (Int.log 10 a) 307 with h | h
  · have a1 : (10 : ℚ) ^ (Int.log 10 a + 1) ≤ 10 ^ (308 : Int) := zpow_le_zpow_right₀ (by norm_num) (by omega)
    have a2 : (10 : ℚ) ^ (Int.log 10 a - 5) ≤ 10 ^ (302 : Int) := zpow_le_zpow_right₀ (by norm_num) (by omega)
    have c : (10 : ℚ) ^ (308 : Int) + 10 ^ (302 : Int) ≤ DBL_MAX := by unfold DBL_MAX; norm_num
    linarith
  · have hlog : Int.log 10 a = 308 := by
      have : Int.log 10 a < 309 := by
        apply (Int.lt_zpow_iff_log_lt (b := 10) (by norm_num) ha).1
        refine hm.trans_lt ?_
        unfold DBL_MAX
        norm_num
      omega
    rw [hlog] at h3 h4 h5
    have c : DBL_MAX + 10 ^ (308 - 5 : Int) / 2 < 179770 * 10 ^ (303 : Int) := by unfold DBL_MAX; norm_num
    have hb := dec_bounds h1 h2 (six a).2
    rw [Prod.mk.eta] at hb
    have he : (six a).2 = 308 := by
      by_contra hne
      have : (six a).2 = 309 := by omega
      rw [this] at hb
      have c2 : (179770 : ℚ) * 10 ^ (303 : Int) < 10 ^ (309 : Int) := by norm_num
      linarith [hb.1]
    have hn : (six a).1 ≤ 179769 := by
      have hd : dec (six a) = (six a).1 * 10 ^ (303 : Int) := by unfold dec; rw [he]; norm_num
      rw [hd] at h5
      have hp := ten_pos 303
      have : ((six a).1 : ℚ) < 179770 := by
        by_contra hge
        push Not at hge
        nlinarith
      have : (six a).1 < 179770 := by exact_mod_cast this
      omega
    have hd : dec (six a) = (six a).1 * 10 ^ (303 : Int) := by unfold dec; rw [he]; norm_num
    rw [hd]
    have hn' : ((six a).1 : ℚ) ≤ 179769 := by exact_mod_cast hn
    have c3 : (179769 : ℚ) * 10 ^ (303 : Int) ≤ DBL_MAX := by unfold DBL_MAX; norm_num
    have hp := ten_pos 303
    nlinarith

/-! ## vectors -/

/-- the double that is read -/
def readLit (l : Lit) : F64 := ⟨l.neg, .fin (if l.neg then -readMag |l.value| else readMag |l.value|)⟩

theorem value_sign (l : Lit) : l.value = if l.neg then -|l.value| else |l.value| := by
  have h0 : 0 ≤ (nat l.int + nat l.frac / 10 ^ l.frac.length : ℚ) * 10 ^ l.power := by positivity
  unfold Lit.value
  rw [abs_mul, abs_of_nonneg h0]
  cases l.neg <;> simp

theorem readLit_nearest (l : Lit) : ∃ q, readLit l = ⟨l.neg, .fin q⟩ ∧ Nearest l.value q := by
  refine ⟨_, rfl, ?_⟩
  have h := Json.readMag_nearest (abs_nonneg l.value)
  have hv := value_sign l
  cases hn : l.neg with
  | true =>
    rw [hn, if_pos rfl] at hv
    rw [if_pos rfl]
    have := Json.nearest_neg h
    rwa [← hv] at this
  | false =>
    rw [hn, if_neg (by simp)] at hv
    rw [if_neg (by simp)]
    rw [← hv] at h ⊢
    exact h

theorem ends_ws {post : Str} (hp : Ws post) {c : Byte} (hc : c = byte ',' ∨ c = byte '}') (t : Str) : Ends (post ++ c :: t) := by
  intro d hd
  have key : ∀ d : Byte, isWs d = true ∨ d = byte ',' ∨ d = byte '}' →
      ¬ (48 ≤ d ∧ d ≤ 57) ∧ d ≠ byte '.' ∧ d ≠ byte 'e' ∧ d ≠ byte 'E' := forall_byte (by decide +kernel)
  apply key
  cases post with
  | nil =>
    simp only [List.nil_append, List.head?_cons, Option.mem_def, Option.some.injEq] at hd
    rw [← hd]; exact .inr hc
  | cons p post =>
    simp only [List.cons_append, List.head?_cons, Option.mem_def, Option.some.injEq] at hd
    rw [← hd]
    exact .inl ((isWs_iff p).2 (hp p (by simp)))

theorem round_lit {l : Lit} (h : |l.value| ≤ (2 ^ 53 - 1) * 2 ^ 971) :
    (match Dbl.round |l.value| with | .fin _ => false | _ => true) = false := by
  rw [Rand.round_fin (x := |l.value|) (by rw [abs_abs]; exact h)]

theorem readLoopD_item (fuel : Nat) (b : Str) (x : RItem) (hx : x.Ok) (c : Byte) (hc : c = byte ',' ∨ c = byte '}')
    (t : Str) (ch : Option Byte) (vec : List F64) :
    readLoopD (fuel + 1) ⟨b, x.text ++ c :: t, false, false⟩ ch vec =
      if c = byte '}' then .ok (vec ++ [readLit x.lit], ⟨c :: (x.text.reverse ++ b), t, false, false⟩)
      else readLoopD fuel ⟨c :: (x.text.reverse ++ b), t, false, false⟩ (some c) (vec ++ [readLit x.lit]) := by
  obtain ⟨h1, h2, h3, h4⟩ := hx
  rw [readLoopD]
  have e : x.text ++ c :: t = x.pre ++ (x.lit.text ++ (x.post ++ c :: t)) := by simp [RItem.text]
  rw [e, getDouble_lit b h1 h2 (ends_ws h3 hc t)]
  have hne : decide (x.post ++ c :: t = []) = false := by simp
  have hw : isWs c = false := by rcases hc with rfl | rfl <;> decide
  simp only [use, Out.ok_bind, hne, round_lit h4]
  rw [getChar_good _ h3 hw]
  simp only [Bool.false_eq_true, if_false, Out.ok_bind, readLit]
  rcases hc with rfl | rfl
  · rw [if_neg brace_facts.2.2.2.2.1, if_neg (show ¬ (byte ',' ≠ byte ',') by simp), if_neg brace_facts.2.2.2.2.1]
    simp [RItem.text]
  · simp [RItem.text]

theorem readLoopD_items (xs : List RItem) (hne : xs ≠ []) (hx : ∀ x ∈ xs, x.Ok) (t : Str) :
    ∀ (fuel : Nat) (_ : xs.length ≤ fuel) (b : Str) (ch : Option Byte) (vec : List F64),
    readLoopD fuel ⟨b, rcommas xs ++ byte '}' :: t, false, false⟩ ch vec =
      .ok (vec ++ xs.map (fun x => readLit x.lit), ⟨byte '}' :: ((rcommas xs).reverse ++ b), t, false, false⟩) := by
  induction xs with
  | nil => exact absurd rfl hne
  | cons x xs ih =>
    intro fuel hf b ch vec
    obtain ⟨fuel, rfl⟩ : ∃ f, fuel = f + 1 := ⟨fuel - 1, by simp at hf; omega⟩
    cases xs with
    | nil =>
      rw [rcommas, readLoopD_item fuel b x (hx x (by simp)) _ (.inr rfl), if_pos rfl]
      rfl
    | cons y ys =>
      rw [rcommas, List.append_assoc, List.cons_append, readLoopD_item fuel b x (hx x (by simp)) _ (.inl rfl),
        if_neg brace_facts.2.2.2.2.1, ih (by simp) (fun z hz => hx z (by simp [hz])) fuel (by simp at hf ⊢; omega)]
      · simp
      · simp

theorem lit_cons {l : Lit} (h : l.Ok) : ∃ c u, l.text = c :: u ∧ isWs c = false ∧ c ≠ byte '}' := by
  obtain ⟨c, hc, hw⟩ := lit_head h []
  rw [List.append_nil] at hc
  cases ht : l.text with
  | nil => rw [ht] at hc; simp at hc
  | cons d u =>
    refine ⟨d, u, rfl, ?_, ?_⟩
    · rw [ht] at hc
      simp only [List.head?_cons, Option.mem_def, Option.some.injEq] at hc
      rw [hc]; exact hw
    · rintro rfl
      unfold Lit.text at ht
      match hs : l.sign with
      | some true => rw [hs] at ht; simp [signText, byte] at ht
      | some false => rw [hs] at ht; simp [signText, byte] at ht
      | none =>
        rw [hs] at ht
        by_cases hi : l.int = []
        · rw [hi, if_pos (h.2.2.1 (h.2.1.resolve_left (by simp [hi])))] at ht
          simp [signText, byte] at ht
        · obtain ⟨c', i, hc'⟩ := List.exists_cons_of_ne_nil hi
          have := h.1 c' (by rw [hc']; simp)
          rw [hc'] at ht
          simp only [signText, List.nil_append, List.cons_append, List.cons.injEq] at ht
          rw [ht.1] at this
          exact absurd this (by decide)

theorem rcommas_length (xs : List RItem) (hx : ∀ x ∈ xs, x.Ok) : xs.length ≤ (rcommas xs).length := by
  induction xs with
  | nil => simp
  | cons x xs ih =>
    obtain ⟨c, n', e, -⟩ := lit_cons (hx x (by simp)).2.1
    have h0 : 1 ≤ x.text.length := by simp [RItem.text, e]; omega
    cases xs with
    | nil => simpa [rcommas] using h0
    | cons y ys =>
      have := ih fun z hz => hx z (by simp [hz])
      rw [rcommas]
      · simp at this ⊢; omega
      · simp

theorem rcommas_pre (x : RItem) (xs : List RItem) : rcommas (x :: xs) = x.pre ++ rcommas ({ x with pre := [] } :: xs) := by
  cases xs with
  | nil => simp [rcommas, RItem.text]
  | cons y ys => simp [rcommas, RItem.text]

theorem readVectorD_start (b a : Str) (ha : Ws a) (x : RItem) (xs : List RItem) (hx : x.Ok) (t : Str) :
    ∃ (ch : Option Byte) (n : Nat), (rcommas (x :: xs) ++ t).length ≤ n + x.pre.length ∧
    readVectorD ⟨b, a ++ byte '{' :: (rcommas (x :: xs) ++ t), false, false⟩ =
      readLoopD (n + 2) ⟨x.pre.reverse ++ (byte '{' :: (a.reverse ++ b)), rcommas ({ x with pre := [] } :: xs) ++ t, false, false⟩ ch [] := by
  obtain ⟨c, n', e, h1, h2⟩ := lit_cons hx.2.1
  obtain ⟨u, hu⟩ : ∃ u, rcommas ({ x with pre := [] } :: xs) ++ t = c :: u := by
    cases xs with
    | nil => exact ⟨n' ++ x.post ++ t, by simp [rcommas, RItem.text, e]⟩
    | cons y ys => exact ⟨_, by simp [rcommas, RItem.text, e]; rfl⟩
  refine ⟨some c, (c :: u).length, ?_, ?_⟩
  · rw [rcommas_pre, List.append_assoc, hu]
    simp; omega
  · unfold readVectorD
    rw [getChar_good b ha brace_facts.2.2.2.2.2.1]
    simp only [use, Out.ok_bind]
    rw [if_neg (by simp), rcommas_pre, List.append_assoc, hu, getChar_good _ hx.1 h1]
    simp only [Out.ok_bind]
    rw [if_pos h2]
    rfl

theorem readVectorD_items (a : Str) (ha : Ws a) (xs : List RItem) (hne : xs ≠ []) (h : ∀ x ∈ xs, x.Ok) (rest : Str) :
    readVectorD { rest := a ++ byte '{' :: (rcommas xs ++ byte '}' :: rest) } =
      .ok (xs.map (fun x => readLit x.lit), { back := (a ++ byte '{' :: (rcommas xs ++ [byte '}'])).reverse, rest := rest }) := by
  obtain ⟨x, xs, rfl⟩ := List.exists_cons_of_ne_nil hne
  have hx := h x (by simp)
  obtain ⟨ch, n, hn, e⟩ := readVectorD_start [] a ha x xs hx (byte '}' :: rest)
  have hok : ∀ y ∈ ({ x with pre := [] } : RItem) :: xs, y.Ok := by
    intro y hy
    rw [List.mem_cons] at hy
    rcases hy with rfl | hy
    · exact ⟨by simp [Ws], hx.2⟩
    · exact h y (by simp [hy])
  have hlen := rcommas_length _ hok
  have hn' : (({ x with pre := [] } : RItem) :: xs).length ≤ n + 2 := by
    rw [rcommas_pre] at hn
    simp at hn hlen ⊢
    omega
  rw [e, readLoopD_items _ (by simp) hok rest (n + 2) hn']
  simp only [rcommas_pre x xs]
  simp

/-- what may not follow an element: the end of the text, or a character that is no white space, comma, brace or part of the number -/
theorem ends_bad {post : Str} (hp : Ws post) {t : Str} (ht : Ends t) : Ends (post ++ t) := by
  cases post with
  | nil => exact ht
  | cons p post =>
    have := ends_ws hp (.inl rfl) []
    intro d hd
    exact this d (by simpa using hd)

theorem readLoopD_bad (fuel : Nat) (b : Str) (x : RItem) (hx : x.Ok) (t : Str) (ht : Ends t)
    (hb : ∀ c ∈ t.head?, isWs c = false ∧ c ≠ byte ',' ∧ c ≠ byte '}') (ch : Option Byte) (vec : List F64) :
    readLoopD (fuel + 1) ⟨b, x.text ++ t, false, false⟩ ch vec = .exit := by
  obtain ⟨h1, h2, h3, h4⟩ := hx
  rw [readLoopD]
  have e : x.text ++ t = x.pre ++ (x.lit.text ++ (x.post ++ t)) := by simp [RItem.text]
  rw [e, getDouble_lit b h1 h2 (ends_bad h3 ht)]
  simp only [use, Out.ok_bind, round_lit h4]
  cases t with
  | nil =>
    by_cases hp : x.post = []
    · simp [hp, IStream.getChar, IStream.sentry]
    · have : decide (x.post ++ [] = []) = false := by simpa using hp
      rw [this, List.append_nil]
      unfold IStream.getChar
      rw [sentry_end _ h3]
      simp
  | cons c t =>
    obtain ⟨b1, b2, b3⟩ := hb c rfl
    have hne : decide (x.post ++ c :: t = []) = false := by simp
    rw [hne, getChar_good _ h3 b1]
    simp only [Bool.false_eq_true, if_false, Out.ok_bind]
    rw [if_neg b3, if_pos b2]

theorem readLoopD_items_bad (xs : List RItem) (hne : xs ≠ []) (hx : ∀ x ∈ xs, x.Ok) (t : Str) (ht : Ends t)
    (hb : ∀ c ∈ t.head?, isWs c = false ∧ c ≠ byte ',' ∧ c ≠ byte '}') :
    ∀ (fuel : Nat) (_ : xs.length ≤ fuel) (b : Str) (ch : Option Byte) (vec : List F64),
    readLoopD fuel ⟨b, rcommas xs ++ t, false, false⟩ ch vec = .exit := by
  induction xs with
  | nil => exact absurd rfl hne
  | cons x xs ih =>
    intro fuel hf b ch vec
    obtain ⟨fuel, rfl⟩ : ∃ f, fuel = f + 1 := ⟨fuel - 1, by simp at hf; omega⟩
    cases xs with
    | nil => exact readLoopD_bad fuel b x (hx x (by simp)) t ht hb ch vec
    | cons y ys =>
      rw [rcommas, List.append_assoc, List.cons_append, readLoopD_item fuel b x (hx x (by simp)) _ (.inl rfl),
        if_neg brace_facts.2.2.2.2.1]
      · exact ih (by simp) (fun z hz => hx z (by simp [hz])) fuel (by simp at hf ⊢; omega) _ _ _
      · simp

theorem readVectorD_bad (a : Str) (ha : Ws a) (xs : List RItem) (hne : xs ≠ []) (h : ∀ x ∈ xs, x.Ok) (t : Str) (ht : Ends t)
    (hb : ∀ c ∈ t.head?, isWs c = false ∧ c ≠ byte ',' ∧ c ≠ byte '}') :
    readVectorD { rest := a ++ byte '{' :: (rcommas xs ++ t) } = .exit := by
  obtain ⟨x, xs, rfl⟩ := List.exists_cons_of_ne_nil hne
  have hx := h x (by simp)
  obtain ⟨ch, n, hn, e⟩ := readVectorD_start [] a ha x xs hx t
  have hok : ∀ y ∈ ({ x with pre := [] } : RItem) :: xs, y.Ok := by
    intro y hy
    rw [List.mem_cons] at hy
    rcases hy with rfl | hy
    · exact ⟨by simp [Ws], hx.2⟩
    · exact h y (by simp [hy])
  have hlen := rcommas_length _ hok
  have hn' : (({ x with pre := [] } : RItem) :: xs).length ≤ n + 2 := by
    rw [rcommas_pre] at hn
    simp at hn hlen ⊢
    omega
  rw [e]
  exact readLoopD_items_bad _ (by simp) hok t ht hb (n + 2) hn' _ _ _

/-! ## there and back -/

/-- the literal that is written, also for zero -/
def litD (neg : Bool) (q : ℚ) : Lit :=
  if q = 0 then ⟨if neg then some true else none, [byte '0'], false, [], none⟩ else litOf neg (six |q|).1 (six |q|).2

theorem litD_text (neg : Bool) (q : ℚ) : (litD neg q).text = putDouble ⟨neg, .fin q⟩ := by
  unfold litD
  by_cases h : q = 0
  · rw [if_pos h, h]
    cases neg <;> rfl
  · rw [if_neg h, litOf_text neg h]

theorem litD_ok (neg : Bool) (q : ℚ) : (litD neg q).Ok := by
  unfold litD
  split
  · cases neg <;> decide
  · exact litOf_ok _ _ _

theorem litD_neg (neg : Bool) (q : ℚ) : (litD neg q).neg = neg := by
  unfold litD
  split
  · cases neg <;> rfl
  · exact litOf_neg _ _ _

/-- the number that is written, without the sign -/
def written (q : ℚ) : ℚ := if q = 0 then 0 else dec (six |q|)

theorem written_nonneg (q : ℚ) : 0 ≤ written q := by
  unfold written
  split
  · exact le_refl _
  · unfold dec; positivity

theorem litD_value (neg : Bool) (q : ℚ) : (litD neg q).value = (if neg then -1 else 1) * written q := by
  unfold litD written
  by_cases h : q = 0
  · rw [if_pos h, if_pos h]
    unfold Lit.value Lit.power
    simp [show nat [byte '0'] = 0 from rfl, show nat [] = 0 from rfl]
  · rw [if_neg h, if_neg h, litOf_value neg (six_spec (abs_pos.2 h)).2.1]
    rfl

theorem litD_abs (neg : Bool) (q : ℚ) : |(litD neg q).value| = written q := by
  rw [litD_value, abs_mul, abs_of_nonneg (written_nonneg q)]
  cases neg <;> simp

theorem written_le {q : ℚ} (h : IsDouble q) : written q ≤ DBL_MAX := by
  unfold written
  split
  · unfold DBL_MAX; norm_num
  · rename_i h0
    exact six_le (abs_pos.2 h0) (Json.isDouble_le h)

theorem written_close (q : ℚ) : |written q - abs q| ≤ 5 / 1000000 * |q| := by
  unfold written
  split
  · rename_i h; rw [h]; simp
  · rename_i h
    rw [abs_sub_comm]
    exact six_close (abs_pos.2 h)

/-- what is read after `q` was written, without the sign -/
def back (q : ℚ) : ℚ := fl (written q)

theorem readLit_litD (neg : Bool) {q : ℚ} (h : IsDouble q) :
    readLit (litD neg q) = ⟨neg, .fin (if neg then -back q else back q)⟩ := by
  unfold readLit back
  rw [litD_neg, litD_abs, Json.readMag_small (by rw [abs_of_nonneg (written_nonneg q)]; exact written_le h)]

theorem cast_put (neg : Bool) {q : ℚ} (h : IsDouble q) {w t : Str} (hw : Ws w) (ht : Ends t) :
    castDouble (w ++ putDouble ⟨neg, .fin q⟩ ++ t) = .ok ⟨neg, .fin (if neg then -back q else back q)⟩ := by
  rw [← litD_text, castDouble_lit hw (litD_ok neg q) ht, ← readLit_litD neg h]
  rfl

theorem back_nonneg (q : ℚ) : 0 ≤ back q := fl_nonneg (written_nonneg q)

theorem written_abs (q : ℚ) : written |q| = written q := by
  unfold written
  rw [abs_abs]
  by_cases h : q = 0 <;> simp [h]

theorem written_neg (q : ℚ) : written (-q) = written q := by
  rw [← written_abs, abs_neg, written_abs]

theorem back_neg (q : ℚ) : back (-q) = back q := by unfold back; rw [written_neg]

theorem back_double {q : ℚ} (h : IsDouble q) : IsDouble (back q) := fl_max (written_nonneg q) (written_le h)

/-- numbers of six digits survive -/
theorem back_six {n : Nat} {e : Int} (h1 : 100000 ≤ n) (h2 : n < 1000000) (hm : dec (n, e) ≤ DBL_MAX) :
    back (fl (dec (n, e))) = fl (dec (n, e)) := by
  rcases (fl_nonneg (dec_pos h1 h2 e).le).eq_or_lt with h | h
  · rw [← h]
    unfold back written
    rw [if_pos rfl, fl_zero]
  · unfold back written
    rw [if_neg h.ne', abs_of_pos h]
    exact six_stable h1 h2 hm h

theorem back_back {q : ℚ} (h : IsDouble q) : back (back q) = back q := by
  by_cases h0 : q = 0
  · rw [h0]
    have : back 0 = 0 := by unfold back written; rw [if_pos rfl, fl_zero]
    rw [this, this]
  · have hs := six_spec (abs_pos.2 h0)
    have hw := written_le h
    have e : written q = dec ((six |q|).1, (six |q|).2) := by unfold written; rw [if_neg h0]
    have hb : back q = fl (dec ((six |q|).1, (six |q|).2)) := by unfold back; rw [e]
    rw [hb]
    rw [e] at hw
    exact back_six hs.1 hs.2.1 hw

/-- every number with at most six digits has six -/
theorem six_digits {x : ℚ} (hx : 0 < x) {m : Nat} {k : Int} (hm : m < 1000000) (h : x = m * 10 ^ k) :
    ∃ n : Nat, ∃ e : Int, 100000 ≤ n ∧ n < 1000000 ∧ x = dec (n, e) := by
  have hm0 : m ≠ 0 := by
    rintro rfl
    rw [h] at hx
    simp at hx
  have hl : Nat.log 10 m ≤ 5 := by
    have := Nat.log_lt_of_lt_pow hm0 (show m < 10 ^ 6 by omega)
    omega
  refine ⟨m * 10 ^ (5 - Nat.log 10 m), k + Nat.log 10 m, ?_, ?_, ?_⟩
  · have h1 := Nat.pow_log_le_self 10 hm0
    calc 100000 = 10 ^ Nat.log 10 m * 10 ^ (5 - Nat.log 10 m) := by rw [← pow_add, Nat.add_sub_cancel' hl]; norm_num
      _ ≤ _ := Nat.mul_le_mul_right _ h1
  · have h1 := Nat.lt_pow_succ_log_self (b := 10) (by norm_num) m
    calc _ < 10 ^ (Nat.log 10 m).succ * 10 ^ (5 - Nat.log 10 m) := Nat.mul_lt_mul_of_pos_right h1 (by positivity)
      _ = 1000000 := by rw [← pow_add, show (Nat.log 10 m).succ + (5 - Nat.log 10 m) = 6 by omega]; norm_num
  · rw [h]
    unfold dec
    push_cast
    rw [mul_assoc]
    congr 1
    rw [← zpow_natCast, ← zpow_add₀ (by norm_num)]
    congr 1
    omega

/-! ## whole numbers -/

theorem digitsN_zero (k : Nat) : digitsN k 0 = List.replicate k (byte '0') := by
  refine List.eq_replicate_iff.2 ⟨digitsN_length k 0, fun c hc => ?_⟩
  unfold digitsN at hc
  rw [List.mem_map] at hc
  obtain ⟨i, -, rfl⟩ := hc
  rw [Nat.zero_div]
  rfl

theorem fraction_zero (k : Nat) : fraction (digitsN k 0) = [] := by
  have : dropZeros (digitsN k 0) = [] := by
    rw [digitsN_zero]
    unfold dropZeros
    rw [List.reverse_replicate, List.reverse_eq_nil_iff]
    induction k with
    | zero => rfl
    | succ k ih => rw [List.replicate_succ, List.dropWhile_cons_of_pos (by simp)]; exact ih
  unfold fraction
  rw [if_pos this]

theorem put_int (i : Int) (h : |i| < 1000000) : putDouble ⟨decide (i < 0), .fin i⟩ = Json.decInt i := by
  by_cases h0 : i = 0
  · subst h0; decide +kernel
  · have hm0 : i.natAbs ≠ 0 := by omega
    have hm : i.natAbs < 1000000 := by rw [Int.abs_eq_natAbs] at h; omega
    have ha : |(i : ℚ)| = (i.natAbs : ℚ) := by rw [← Int.cast_abs, Int.abs_eq_natAbs]; rfl
    have hl : Nat.log 10 i.natAbs ≤ 5 := by
      have := Nat.log_lt_of_lt_pow hm0 (show i.natAbs < 10 ^ 6 by omega)
      omega
    have h1 := Nat.pow_log_le_self 10 hm0
    have h2 := Nat.lt_pow_succ_log_self (b := 10) (by norm_num) i.natAbs
    set m := i.natAbs with hmdef
    set L := Nat.log 10 m with hL
    have hsix : six (m : ℚ) = (m * 10 ^ (5 - L), (L : Int)) := by
      refine six_in ?_ ?_ ?_ ?_
      · calc 100000 = 10 ^ L * 10 ^ (5 - L) := by rw [← pow_add, Nat.add_sub_cancel' hl]; norm_num
          _ ≤ _ := Nat.mul_le_mul_right _ h1
      · calc _ < 10 ^ L.succ * 10 ^ (5 - L) := Nat.mul_lt_mul_of_pos_right h2 (by positivity)
          _ = 1000000 := by rw [← pow_add, show L.succ + (5 - L) = 6 by omega]; norm_num
      · rw [zpow_natCast]; exact_mod_cast h1
      · have : dec (m * 10 ^ (5 - L), (L : Int)) = m := by
          unfold dec
          push_cast
          rw [mul_assoc, ← zpow_natCast, ← zpow_add₀ (by norm_num)]
          rw [show ((5 - L : Nat) : Int) + ((L : Int) - 5) = 0 by omega, zpow_zero, mul_one]
        rw [this, sub_self, abs_zero]
        have := ten_pos ((L : Int) - 5)
        linarith
    unfold putDouble
    dsimp only
    rw [if_neg (show ¬ (i : ℚ) = 0 by exact_mod_cast h0), ha, hsix]
    dsimp only
    rw [if_neg (show ¬ ((L : Int) < -4 ∨ 6 ≤ (L : Int)) by omega), show (5 - (L : Int)).toNat = 5 - L by omega, Nat.mul_div_cancel _ (by positivity), Nat.mul_mod_left,
      fraction_zero, List.append_nil]
    unfold Json.decInt
    by_cases hn : i < 0
    · simp [hn, hmdef]
    · simp [hn, hmdef]

/-! ## points -/

theorem join_inj {c : Byte} : ∀ (as bs : List Str) (a b : Str), as.length = bs.length → (∀ x ∈ a :: as, c ∉ x) → (∀ x ∈ b :: bs, c ∉ x) →
    a ++ as.flatMap (fun x => c :: 32 :: x) = b ++ bs.flatMap (fun x => c :: 32 :: x) → a = b ∧ as = bs
  | [], [], a, b, _, _, _, h => by simpa using h
  | x :: as, y :: bs, a, b, hl, ha, hb, h => by
    have cut : ∀ (s t : Str), c ∉ s → (s ++ c :: t).takeWhile (fun d => decide (d ≠ c)) = s := fun s t hs =>
      takeWhile_pre (fun d hd => by
        rw [decide_eq_true_eq]
        rintro rfl
        exact hs hd) (fun d hd => by
        simp only [List.head?_cons, Option.mem_def, Option.some.injEq] at hd
        simp [← hd])
    simp only [List.flatMap_cons, List.cons_append] at h
    have e := congrArg (List.takeWhile (fun d => decide (d ≠ c))) h
    rw [cut a _ (ha a (by simp)), cut b _ (hb b (by simp))] at e
    subst e
    have h' := List.append_cancel_left h
    simp only [List.cons.injEq, true_and] at h'
    obtain ⟨e1, e2⟩ := join_inj as bs x y (by simpa using hl) (fun z hz => ha z (by simp only [List.mem_cons] at hz ⊢; exact .inr hz))
      (fun z hz => hb z (by simp only [List.mem_cons] at hz ⊢; exact .inr hz)) h'
    exact ⟨rfl, by rw [e1, e2]⟩

theorem lit_no_comma {l : Lit} (h : l.Ok) : byte ',' ∉ l.text := by
  have hs : ∀ s, byte ',' ∉ signText s := by
    intro s
    match s with
    | none => decide
    | some true => decide
    | some false => decide
  have hd : ∀ s : Str, (∀ c ∈ s, 48 ≤ c ∧ c ≤ 57) → byte ',' ∉ s := fun s hs hm => absurd (hs _ hm) (by decide)
  unfold Lit.text
  simp only [List.mem_append, not_or]
  refine ⟨⟨⟨⟨hs _, hd _ fun c hc => h.1 c (by simp [hc])⟩, ?_⟩, hd _ fun c hc => h.1 c (by simp [hc])⟩, ?_⟩
  · cases l.point <;> decide
  · cases he : l.exp with
    | none => simp
    | some x =>
      obtain ⟨e, s, d⟩ := x
      obtain ⟨h1, h2⟩ : (e = byte 'e' ∨ e = byte 'E') ∧ Spec.Digits d := h.2.2.2 (e, s, d) (by rw [he]; rfl)
      dsimp only
      simp only [List.mem_cons, List.mem_append, not_or]
      refine ⟨?_, hs s, hd d h2.2⟩
      rcases h1 with rfl | rfl <;> decide

theorem put_no_comma (d : F64) : byte ',' ∉ putDouble d := by
  obtain ⟨neg, v⟩ := d
  cases v with
  | nan => cases neg <;> decide
  | inf s => cases neg <;> cases s <;> decide
  | fin q => rw [← litD_text]; exact lit_no_comma (litD_ok neg q)

theorem print_inj {N : Nat} (p q : Fin (N + 1) → F64) : printPoint p = printPoint q ↔ ∀ i, putDouble (p i) = putDouble (q i) := by
  have e : ∀ p : Fin (N + 1) → F64, ((List.finRange N).flatMap fun i => bytes [',', ' '] ++ putDouble (p i.succ)) =
      ((List.finRange N).map fun i => putDouble (p i.succ)).flatMap (fun x => byte ',' :: 32 :: x) := by
    intro p
    rw [List.flatMap_map]
    rfl
  have hc : ∀ p : Fin (N + 1) → F64, ∀ x ∈ putDouble (p 0) :: ((List.finRange N).map fun i => putDouble (p i.succ)), byte ',' ∉ x := by
    intro p x hx
    rw [List.mem_cons, List.mem_map] at hx
    rcases hx with rfl | ⟨i, -, rfl⟩ <;> exact put_no_comma _
  unfold printPoint
  rw [e, e]
  constructor
  · intro h
    have h := List.append_cancel_right h
    rw [List.append_assoc, List.append_assoc] at h
    obtain ⟨h1, h2⟩ := join_inj _ _ _ _ (by simp) (hc p) (hc q) (List.append_cancel_left h)
    intro i
    refine Fin.cases h1 (fun i => ?_) i
    exact List.map_inj_left.1 h2 i (List.mem_finRange i)
  · intro h
    rw [h 0]
    congr 3
    exact List.map_congr_left fun i _ => h i.succ

/-! ## printed vectors -/

/-- the elements as they are written -/
theorem print_items (v : List F64) (hv : ∀ d ∈ v, ∃ q, d.val = .fin q ∧ IsDouble q) (hlen : (v.length : Int) ≤ INT_MAX)
    (hne : v ≠ []) : ∃ xs : List RItem, xs ≠ [] ∧ (∀ x ∈ xs, x.Ok) ∧ printVectorD v = .ok (byte '{' :: (rcommas xs ++ [byte '}'])) ∧
      List.Forall₂ (fun d x => castDouble (putDouble d) = .ok (readLit x.lit)) v xs := by
  have hs : Cont.Vector.size v = v.length := by
    rw [Cont.Vector.size, toInt_small (by unfold INT_MAX at hlen; omega)]
  let lit (d : F64) : Lit := match d.val with | .fin q => litD d.neg q | _ => litD d.neg 0
  have hlit : ∀ d ∈ v, (lit d).Ok ∧ (lit d).text = putDouble d ∧ |(lit d).value| ≤ (2 ^ 53 - 1) * 2 ^ 971 := by
    intro d hd
    obtain ⟨q, hq, hq'⟩ := hv d hd
    obtain ⟨neg, val⟩ := d
    dsimp only at hq
    subst hq
    exact ⟨litD_ok neg q, litD_text neg q, by
      show |(litD neg q).value| ≤ _
      rw [litD_abs]; exact written_le hq'⟩
  let item (p : Str) (d : F64) : RItem := ⟨p, lit d, []⟩
  have hok : ∀ p, Ws p → ∀ d ∈ v, (item p d).Ok := fun p hp d hd => ⟨hp, (hlit d hd).1, by simp [item, Ws], (hlit d hd).2.2⟩
  have hcast : ∀ p, ∀ d ∈ v, castDouble (putDouble d) = .ok (readLit (item p d).lit) := by
    intro p d hd
    have := castDouble_lit (w := []) (t := []) (by simp [Ws]) (hlit d hd).1 (by simp [Ends])
    rw [List.nil_append, List.append_nil, (hlit d hd).2.1] at this
    exact this
  have hblank : Ws [32] := by simp [Ws]
  have hnil : Ws [] := by simp [Ws]
  unfold printVectorD
  rw [hs]
  rcases List.eq_nil_or_concat v with rfl | ⟨u, x, rfl⟩
  · exact absurd rfl hne
  · rw [List.concat_eq_append] at *
    have hlast : Cont.Vector.last (u ++ [x]) = .ok x := by
      simp [Cont.Vector.last, Cont.Vector.emptyCheck, Stl.back]
    rw [if_neg (by simp; omega), hlast]
    cases u with
    | nil =>
      refine ⟨[item [] x], by simp, ?_, ?_, ?_⟩
      · intro y hy
        rw [List.mem_singleton] at hy
        rw [hy]; exact hok [] hnil x (by simp)
      · have := (hlit x (by simp)).2.1
        simp [rcommas, RItem.text, item, this, bytes]
      · exact List.Forall₂.cons (hcast [] x (by simp)) .nil
    | cons y u =>
      rw [if_neg (by simp; omega)]
      refine ⟨item [] y :: (u ++ [x]).map (item [32]), by simp, ?_, ?_, ?_⟩
      · intro z hz
        rw [List.mem_cons, List.mem_map] at hz
        rcases hz with rfl | ⟨i, hi, rfl⟩
        · exact hok [] hnil y (by simp)
        · exact hok [32] hblank i (by simp at hi ⊢; exact .inr hi)
      · have hcm : ∀ (u : List F64) (p : Str) (y : F64), (∀ d ∈ y :: u ++ [x], (lit d).text = putDouble d) →
            rcommas (item p y :: (u ++ [x]).map (item [32])) =
            p ++ ((y :: u).flatMap fun v => putDouble v ++ bytes [',', ' ']) ++ putDouble x := by
          intro u
          induction u with
          | nil =>
            intro p y ht
            have h1 := ht y (by simp)
            have h2 := ht x (by simp)
            simp [rcommas, RItem.text, item, bytes, byte, h1, h2]
          | cons z u ih =>
            intro p y ht
            rw [List.cons_append, List.map_cons, rcommas, ih [32] z (fun d hd => ht d (by
              simp only [List.cons_append, List.mem_cons] at hd ⊢; exact .inr hd))]
            · have h1 := ht y (by simp)
              simp [RItem.text, item, bytes, byte, h1]
            · simp
        have hdl : (y :: u ++ [x]).dropLast = y :: u := List.dropLast_concat
        rw [hdl, hcm u [] y fun d hd => (hlit d hd).2.1]
        simp [bytes]
      · refine List.Forall₂.cons (hcast [] y (by simp)) ?_
        rw [List.forall₂_map_right_iff]
        refine List.forall₂_same.2 fun d hd => ?_
        exact hcast [32] d (by simp at hd ⊢; exact .inr hd)

theorem trip_finite (d : F64) (h : ∃ q, d.val = .fin q ∧ IsDouble q) : ∃ d' : F64, castDouble (putDouble d) = .ok d' ∧
    (∃ q, d'.val = .fin q ∧ IsDouble q) ∧ castDouble (putDouble d') = .ok d' := by
  obtain ⟨neg, val⟩ := d
  obtain ⟨q, hq, hd⟩ := h
  dsimp only at hq
  subst hq
  have put : ∀ {q : ℚ}, IsDouble q → castDouble (putDouble ⟨neg, .fin q⟩) = .ok ⟨neg, .fin (if neg then -back q else back q)⟩ := by
    intro q hq
    have := cast_put neg hq (w := []) (t := []) (by simp [Ws]) (by simp [Ends])
    rwa [List.nil_append, List.append_nil] at this
  have hb := back_double hd
  refine ⟨_, put hd, ⟨_, rfl, ?_⟩, ?_⟩
  · cases neg
    · exact hb
    · exact Json.isDouble_neg hb
  · cases neg with
    | true => rw [if_pos rfl, put (Json.isDouble_neg hb), if_pos rfl, back_neg, back_back hd]
    | false => rw [if_neg (by simp), put hb, if_neg (by simp), back_back hd]

theorem vector_trip (v : List F64) (hv : ∀ d ∈ v, ∃ q, d.val = .fin q ∧ IsDouble q) (hlen : (v.length : Int) ≤ INT_MAX)
    (rest : Str) : ∃ t v', printVectorD v = .ok t ∧ readVectorD { rest := t ++ rest } = .ok (v', { back := t.reverse, rest := rest }) ∧
      List.Forall₂ (fun d d' => castDouble (putDouble d) = .ok d') v v' := by
  by_cases hne : v = []
  · subst hne
    exact ⟨bytes ['{', '}'], [], rfl, rfl, .nil⟩
  · obtain ⟨xs, h1, h2, h3, h4⟩ := print_items v hv hlen hne
    refine ⟨_, xs.map fun x => readLit x.lit, h3, ?_, ?_⟩
    · have := readVectorD_items [] (by simp [Ws]) xs h1 h2 rest
      simpa using this
    · rw [List.forall₂_map_right_iff]
      exact h4

end Stream
