import Verif.Model.JsonDouble
import Verif.Spec.JsonDouble
import Verif.Proof.JsonConv
import Verif.Proof.JsonExp
import Verif.Proof.JsonDump
import Verif.Proof.RandomDouble
import Verif.Proof.GeometryDouble

/-! # The numbers of JSON in binary64 -/

set_option exponentiation.threshold 2000

namespace Json
open Cpp Spec Rand.Spec

/-! ## rounding to nearest -/

theorem flPos_near_grid (x : ℚ) (n : Int) : |flPos x - x| ≤ |(n : ℚ) * 2 ^ lastBit x - x| := by
  have hp : (0 : ℚ) < 2 ^ lastBit x := two_zpow_pos _
  have h := roundTiesEven_near (x / 2 ^ lastBit x) n
  have key : ∀ a : ℚ, |a * 2 ^ lastBit x - x| = |a - x / 2 ^ lastBit x| * 2 ^ lastBit x := by
    intro a
    rw [← abs_of_pos hp, ← abs_mul, abs_of_pos hp, sub_mul, div_mul_cancel₀ _ hp.ne']
  unfold flPos
  rw [key, key]
  exact mul_le_mul_of_nonneg_right h hp.le

theorem flPos_near {x : ℚ} (hx : 0 ≤ x) {m k : Int} (hm : |m| ≤ 2 ^ 53) (hk : -1074 ≤ k) :
    |flPos x - x| ≤ |(m : ℚ) * 2 ^ k - x| := by
  rcases hx.eq_or_lt with rfl | hx
  · rw [flPos_zero, sub_zero, abs_zero]
    exact abs_nonneg _
  rcases le_or_gt (lastBit x) k with h | h
  · have := flPos_near_grid x (m * 2 ^ (k - lastBit x).toNat)
    have e : ((m * 2 ^ (k - lastBit x).toNat : Int) : ℚ) * 2 ^ lastBit x = m * 2 ^ k := by
      push_cast
      rw [← zpow_natCast, Int.toNat_of_nonneg (by omega), mul_assoc, ← zpow_add₀ (by norm_num)]
      congr 2; ring
    rwa [e] at this
  · have h1 := lastBit_le hx (by omega)
    have h2 : (m : ℚ) * 2 ^ k ≤ 2 ^ (lastBit x + 52) := by
      have hm' : (m : ℚ) ≤ 2 ^ (53 : Int) := by
        have : m ≤ 2 ^ 53 := (le_abs_self m).trans hm
        exact_mod_cast this
      calc (m : ℚ) * 2 ^ k ≤ 2 ^ (53 : Int) * 2 ^ k := mul_le_mul_of_nonneg_right hm' (two_zpow_pos k).le
        _ = 2 ^ (53 + k) := by rw [← zpow_add₀ (by norm_num)]
        _ ≤ _ := zpow_le_zpow_right₀ (by norm_num) (by omega)
    have h3 := flPos_near_grid x (2 ^ 52)
    have e : ((2 ^ 52 : Int) : ℚ) * 2 ^ lastBit x = 2 ^ (lastBit x + 52) := by
      rw [zpow_add₀ (by norm_num), mul_comm]
      norm_num
    rw [e] at h3
    refine h3.trans ?_
    rw [abs_sub_comm, abs_of_nonneg (by linarith), abs_sub_comm, abs_of_nonneg (by linarith)]
    linarith

theorem fl_near (x : ℚ) {m k : Int} (hm : |m| ≤ 2 ^ 53) (hk : -1074 ≤ k) : |fl x - x| ≤ |(m : ℚ) * 2 ^ k - x| := by
  unfold fl
  split_ifs with h
  · have := flPos_near (x := -x) (by linarith) (m := -m) (by rwa [abs_neg]) hk
    rw [← abs_neg, ← abs_neg ((m : ℚ) * 2 ^ k - x)]
    convert this using 2
    · ring
    · push_cast; ring
  · exact flPos_near (by linarith) hm hk

theorem fl_nearest {x : ℚ} (h : |fl x| < 2 ^ 1024) : Nearest x (fl x) :=
  ⟨Rand.fl_isDouble h, fun g hg => by
    obtain ⟨m, k, hm, hk, _, rfl⟩ := hg
    exact fl_near x hm.le hk⟩

theorem isDouble_le {q : ℚ} (h : IsDouble q) : |q| ≤ DBL_MAX := by
  obtain ⟨m, k, hm, _, hk, rfl⟩ := h
  have h1 : |(m : ℚ)| ≤ 2 ^ 53 - 1 := by
    have : |m| ≤ 2 ^ 53 - 1 := by omega
    exact_mod_cast this
  have h2 : (2 : ℚ) ^ k ≤ 2 ^ (971 : Int) := zpow_le_zpow_right₀ (by norm_num) hk
  have h3 : (0 : ℚ) < 2 ^ k := two_zpow_pos k
  rw [abs_mul, abs_of_pos h3]
  unfold DBL_MAX
  calc |(m : ℚ)| * 2 ^ k ≤ (2 ^ 53 - 1) * 2 ^ (971 : Int) := mul_le_mul h1 h2 h3.le (by norm_num)
    _ = _ := by norm_cast

theorem isDouble_max : IsDouble DBL_MAX := ⟨2 ^ 53 - 1, 971, by norm_num, by norm_num, by norm_num, by
  unfold DBL_MAX; norm_cast⟩

theorem isDouble_neg {q : ℚ} (h : IsDouble q) : IsDouble (-q) := by
  obtain ⟨m, k, h1, h2, h3, rfl⟩ := h
  exact ⟨-m, k, by rwa [abs_neg], h2, h3, by push_cast; ring⟩

theorem nearest_neg {x q : ℚ} (h : Nearest x q) : Nearest (-x) (-q) :=
  ⟨isDouble_neg h.1, fun g hg => by
    have := h.2 (-g) (isDouble_neg hg)
    rw [show -q - -x = -(q - x) by ring, abs_neg, show g - -x = -(-g - x) by ring, abs_neg]
    exact this⟩

/-- the magnitude read by `operator>>` -/
def readMag (x : ℚ) : ℚ := match Dbl.round x with
  | .fin r => r
  | _ => DBL_MAX

theorem readMag_nearest {x : ℚ} (hx : 0 ≤ x) : Nearest x (readMag x) := by
  unfold readMag Dbl.round
  by_cases h : 2 ^ 1024 ≤ |fl x|
  · rw [if_pos h]
    refine ⟨isDouble_max, fun g hg => ?_⟩
    have hle : DBL_MAX ≤ x := by
      by_contra hc
      rw [not_le] at hc
      have h1 := fl_mono hc.le
      have h2 : fl DBL_MAX = DBL_MAX := Rand.fl_of_isDouble isDouble_max
      rw [h2] at h1
      rw [abs_of_nonneg (fl_nonneg hx)] at h
      have h3 : DBL_MAX < 2 ^ 1024 := by unfold DBL_MAX; norm_num
      linarith
    have h1 := (abs_le.1 (isDouble_le hg)).2
    show |DBL_MAX - x| ≤ _
    rw [abs_of_nonpos (by linarith), abs_of_nonpos (by linarith)]
    linarith
  · rw [if_neg h]
    exact fl_nearest (not_le.1 h)

theorem readMag_nonneg {x : ℚ} (hx : 0 ≤ x) : 0 ≤ readMag x := by
  unfold readMag Dbl.round
  by_cases h : 2 ^ 1024 ≤ |fl x|
  · rw [if_pos h]
    show 0 ≤ DBL_MAX
    unfold DBL_MAX; norm_num
  · rw [if_neg h]
    exact fl_nonneg hx

theorem readMag_small {x : ℚ} (hx : |x| ≤ DBL_MAX) : readMag x = fl x := by
  unfold readMag
  rw [Rand.round_fin hx]

/-! ## reading a literal -/

/-- the double read for the part before the exponent -/
def mant64 (n : Number) : F64 :=
  ⟨n.neg, .fin (if n.neg then -readMag |mantVal n| else readMag |mantVal n|)⟩

theorem startsDecimal_digits {s t : Str} (h : Digits s) : startsDecimal (s ++ t) = true := by
  cases s with
  | nil => exact absurd rfl h.1
  | cons c s =>
    show (isDigit c || _) = true
    rw [(digit_iff c).2 (h.2 c (by simp))]
    rfl

theorem castDouble64_ok {n : Number} (h : n.Ok) : castDouble64 (mantissa n) = .ok (mant64 n) := by
  have hd : decimal (n.ip ++ (match n.frac with | none => [] | some f => byte '.' :: f)) =
      (nat n.ip : ℚ) + match n.frac with | none => 0 | some f => (nat f : ℚ) / 10 ^ f.length := by
    cases hf : n.frac with
    | none => simp [decimal_int h.1]
    | some f => exact decimal_ok h.1 (h.2.1 f (by rw [hf]; rfl))
  have hs := startsDecimal_digits (t := match n.frac with | none => [] | some f => byte '.' :: f) h.1
  have hm : |mantVal n| = decimal (n.ip ++ (match n.frac with | none => [] | some f => byte '.' :: f)) := by
    rw [hd]
    unfold mantVal
    cases n.frac with
    | none => cases n.neg <;> simp
    | some f =>
      have h0 : (0 : ℚ) ≤ (nat n.ip : ℚ) + (nat f : ℚ) / 10 ^ f.length := by positivity
      rw [abs_mul]
      dsimp only
      rw [abs_of_nonneg h0]
      cases n.neg <;> simp
  have ht : mantissa n = (if n.neg then [byte '-'] else []) ++
      (n.ip ++ (match n.frac with | none => [] | some f => byte '.' :: f)) := by
    unfold mantissa
    cases n.frac <;> simp
  unfold mant64
  rw [hm, ht]
  generalize (match n.frac with | none => [] | some f => byte '.' :: f) = fr at *
  cases hn : n.neg with
  | true =>
    show castDouble64 (byte '-' :: (n.ip ++ fr)) = _
    unfold castDouble64
    simp only [decide_true, if_true, hs]
    rfl
  | false =>
    cases hip : n.ip with
    | nil => exact absurd hip h.1.1
    | cons c t =>
      rw [hip] at hs
      show castDouble64 (c :: (t ++ fr)) = _
      unfold castDouble64
      have hc : decide (c = byte '-') = false := decide_eq_false (digit_not (h.1.2 c (by rw [hip]; simp))).1
      rw [List.cons_append] at hs
      simp only [hc, Bool.false_eq_true, if_false, hs, if_true]
      rfl

/-- an exponent is read as it is written -/
theorem castDouble64_int {sign : Bool} {d : Str} (hd : Digits d) (hi : IsInt (if sign then -(nat d : Int) else nat d)) :
    (castDouble64 ((if sign then [byte '-'] else []) ++ d) >>= F64.toInt) =
      .ok (if sign then -(nat d : Int) else nat d : Int) := by
  have hn : (⟨sign, d, none, none⟩ : Number).Ok := ⟨hd, by simp, by simp⟩
  have := castDouble64_ok hn
  have e : mantissa ⟨sign, d, none, none⟩ = (if sign then [byte '-'] else []) ++ d := by simp [mantissa]
  rw [e] at this
  rw [this]
  have hb : (nat d : Int) ≤ 2 ^ 31 := by
    unfold IsInt INT_MIN INT_MAX at hi
    cases sign <;> simp at hi <;> omega
  have hv : |mantVal ⟨sign, d, none, none⟩| = ((nat d : Int) : ℚ) := by
    unfold mantVal
    rw [abs_mul]
    cases sign <;> simp
  have hr : readMag ((nat d : Int) : ℚ) = ((nat d : Int) : ℚ) := by
    unfold readMag
    rw [Geo.round_int (by rw [abs_of_nonneg (by omega)]; omega)]
  unfold mant64
  rw [hv, hr]
  rw [Out.ok_bind]
  unfold F64.toInt
  dsimp only
  cases sign with
  | true =>
    simp only [if_true] at hi ⊢
    rw [← Int.cast_neg, Int.ceil_intCast, Int.floor_intCast, ite_self, int_ok hi]
  | false =>
    simp only [Bool.false_eq_true, if_false] at hi ⊢
    rw [Int.ceil_intCast, Int.floor_intCast, ite_self, int_ok hi]

theorem parseNumber64_plain {str : Str} {n : Number} (h : n.Ok) (he : n.exp = none) (hf : n.frac ≠ none) {off : Nat} {r : Str}
    (ha : At str off (n.text ++ r)) (hr : Delim r) :
    parseNumber64 str off = .ok (.dbl ((mant64 n).scale 0), off + n.text.length + if r = [] then 1 else 0) := by
  have htext : n.text = mantissa n := by unfold Number.text mantissa; rw [he]; cases n.frac <;> simp
  have hl := ha.len
  rw [List.length_append] at hl
  unfold parseNumber64
  rw [numGo_ok n.text ha (by rw [htext]; exact mantissa_chars h)
    (fun c hc => ⟨(delim_facts c (hr c hc)).1, (delim_facts c (hr c hc)).2.1⟩) (by omega)]
  simp only [Out.ok_bind, List.nil_append, Bool.false_or]
  have hc : ¬ (r.head?.getD 0 = byte 'E' ∨ r.head?.getD 0 = byte 'e') ∧ notEnd (r.head?.getD 0) = .ok false ∧
      (r.head?.getD 0 ≠ 0 ↔ r ≠ []) := by
    cases r with
    | nil => decide
    | cons c r =>
      have := delim_facts c (hr c rfl)
      exact ⟨this.2.2.1, this.2.2.2.1, by simp [this.2.2.2.2]⟩
  rw [if_neg hc.1, hc.2.1]
  simp only [Out.ok_bind, Bool.false_eq_true, if_false, ne_eq, not_true_eq_false, or_false]
  have hoff : (if r.head?.getD 0 ≠ 0 then off + n.text.length + 1 - 1 else off + n.text.length + 1) =
      off + n.text.length + if r = [] then 1 else 0 := by
    by_cases hr0 : r = []
    · rw [if_neg (by rw [hc.2.2]; simp [hr0]), if_pos hr0]
    · rw [if_pos (hc.2.2.2 hr0), if_neg hr0]; omega
  simp only [ne_eq] at hoff
  rw [hoff]
  rw [if_pos (by rw [decide_eq_true_eq, htext]; exact (mantissa_point h).2 hf), htext, castDouble64_ok h]
  simp

theorem parseNumber64_exp {str : Str} {n : Number} (h : n.Ok) {sign : Bool} {d : Str} (he : n.exp = some (some sign, d))
    (hi : IsInt (if sign then -(nat d : Int) else nat d)) {off : Nat} {r : Str} (ha : At str off (n.text ++ r)) (hr : Delim r) :
    ∃ o, parseNumber64 str off = .ok (.dbl ((mant64 n).scale (if sign then -(nat d : Int) else nat d)), o) := by
  have hd : Digits d := h.2.2 (some sign, d) (by rw [he]; rfl)
  let sc : Byte := if sign then byte '-' else byte '+'
  have htext : n.text = mantissa n ++ byte 'e' :: sc :: d := by
    unfold Number.text mantissa; rw [he]; cases n.frac <;> cases sign <;> simp [sc]
  rw [htext] at ha
  have ha1 : At str off (mantissa n ++ byte 'e' :: (sc :: (d ++ r))) := by simpa using ha
  have hl := ha1.len
  simp at hl
  unfold parseNumber64
  rw [numGo_ok (mantissa n) ha1 (mantissa_chars h) (by intro c hc; simp at hc; subst hc; decide) (by omega)]
  simp only [Out.ok_bind, List.nil_append, Bool.false_or, List.head?_cons, Option.getD_some]
  rw [if_pos (.inr trivial), if_neg (by omega)]
  have ha2 := ha1.append.cons.2
  rw [ha2.cons.1]
  simp only [Out.ok_bind]
  have hsc : (if sc = byte '-' then [sc] else []) = if sign then [byte '-'] else [] := by
    cases sign
    · simp only [sc]; decide
    · simp only [sc]; decide
  rw [hsc, expGo_ok d ha2.cons.2 hd.2 hr (by omega)]
  simp only [Out.ok_bind]
  have hcast := castDouble64_int hd hi
  obtain ⟨v, hv, hv'⟩ := Out.bind_eq_ok.1 hcast
  rw [hv]
  simp only [Out.ok_bind]
  rw [hv']
  simp only [Out.ok_bind]
  rw [if_pos (.inr (by simp [hd.1])), castDouble64_ok h]
  simp only [Out.ok_bind]
  exact ⟨_, rfl⟩

theorem load_of_parse {n : Number} (h : n.Ok) {w w' : Str} (hw : Ws w) (hw' : Ws w') {v : Num64}
    (hp : ∀ {str : Str} {off : Nat} {r : Str}, At str off (n.text ++ r) → Delim r → ∃ o, parseNumber64 str off = .ok (v, o)) :
    loadNumber (w ++ n.text ++ w') = .ok (some v) := by
  have hdel : Delim w' := by
    intro c hc
    cases w' with
    | nil => simp at hc
    | cons x w' => simp at hc; subst hc; exact .inl (hw' x (by simp))
  have ha : At (w ++ n.text ++ w') 0 (w ++ (n.text ++ w')) := by
    rw [← List.append_assoc]; exact At.zero _
  obtain ⟨c, t, e, hc⟩ := number_head h
  obtain ⟨o, ho⟩ := hp ha.append hdel
  unfold loadNumber
  rw [skip_ok ha hw (by
    rw [e]; exact nonSp_start (.inr (.inr (.inr (.inr (.inr (.inr hc))))))) ]
  simp only [Out.ok_bind]
  have ha1 := ha.append
  rw [show n.text ++ w' = c :: (t ++ w') by rw [e]; rfl] at ha1
  rw [ha1.cons.1]
  simp only [Out.ok_bind]
  rw [if_pos hc, ho]
  rfl

theorem load_plain {n : Number} (h : n.Ok) (he : n.exp = none) (hf : n.frac ≠ none) {w w' : Str} (hw : Ws w) (hw' : Ws w') :
    loadNumber (w ++ n.text ++ w') = .ok (some (.dbl ((mant64 n).scale 0))) :=
  load_of_parse h hw hw' fun ha hr => ⟨_, parseNumber64_plain h he hf ha hr⟩

theorem load_exp64 {n : Number} (h : n.Ok) {sign : Bool} {d : Str} (he : n.exp = some (some sign, d))
    (hi : IsInt (if sign then -(nat d : Int) else nat d)) {w w' : Str} (hw : Ws w) (hw' : Ws w') :
    loadNumber (w ++ n.text ++ w') = .ok (some (.dbl ((mant64 n).scale (if sign then -(nat d : Int) else nat d)))) :=
  load_of_parse h hw hw' fun ha hr => parseNumber64_exp h he hi ha hr

/-! ## values -/

theorem isDouble_round {q : ℚ} (h : IsDouble q) : Dbl.round q = .fin q := by
  rw [Rand.round_fin (isDouble_le h), Rand.fl_of_isDouble h]

theorem mantVal_sign (n : Number) : mantVal n = if n.neg then -|mantVal n| else |mantVal n| := by
  unfold mantVal
  rw [abs_mul]
  cases n.frac with
  | none => cases n.neg <;> simp
  | some f =>
    have h0 : (0 : ℚ) ≤ (nat n.ip : ℚ) + (nat f : ℚ) / 10 ^ f.length := by positivity
    dsimp only
    rw [abs_of_nonneg h0]
    cases n.neg <;> simp

theorem mant64_val (n : Number) : ∃ q, mant64 n = ⟨n.neg, .fin q⟩ ∧ Nearest (mantVal n) q ∧ |q| = readMag |mantVal n| := by
  have hp := readMag_nonneg (abs_nonneg (mantVal n))
  have hn := readMag_nearest (abs_nonneg (mantVal n))
  have hm := mantVal_sign n
  unfold mant64
  refine ⟨_, rfl, ?_, ?_⟩
  · rw [hm]
    cases n.neg with
    | true =>
      simp only [if_true, abs_neg, abs_abs]
      exact nearest_neg hn
    | false =>
      simp only [Bool.false_eq_true, if_false, abs_abs]
      exact hn
  · cases n.neg <;> simp [abs_of_nonneg hp]

theorem pow10_zero : pow10 0 = .fin 1 := by
  unfold pow10
  rw [zpow_zero]
  exact isDouble_round ⟨1, 0, by norm_num, by norm_num, by norm_num, by norm_num⟩

theorem scale_zero {neg : Bool} {q : ℚ} (h : IsDouble q) : F64.scale ⟨neg, .fin q⟩ 0 = ⟨neg, .fin q⟩ := by
  unfold F64.scale
  rw [pow10_zero]
  show F64.mk neg (Dbl.round (q * 1)) = _
  rw [mul_one, isDouble_round h]

theorem pow10_double {e : Nat} (h : e ≤ 22) : IsDouble ((10 : ℚ) ^ e) := by
  refine ⟨5 ^ e, e, ?_, by omega, by omega, ?_⟩
  · rw [abs_of_nonneg (by positivity)]
    calc (5 : Int) ^ e ≤ 5 ^ 22 := pow_le_pow_right₀ (by norm_num) h
      _ < 2 ^ 53 := by norm_num
  · rw [zpow_natCast]
    push_cast
    rw [← mul_pow]
    norm_num

theorem nearest_self {q r : ℚ} (h : Nearest q r) (hq : IsDouble q) : r = q := by
  have := h.2 q hq
  rw [sub_self, abs_zero] at this
  exact sub_eq_zero.1 (abs_nonpos_iff.1 this)

theorem round_nearest {x : ℚ} (h : |x| ≤ DBL_MAX) : ∃ q, Dbl.round x = .fin q ∧ Nearest x q := by
  refine ⟨fl x, Rand.round_fin h, fl_nearest ?_⟩
  rw [Rand.abs_fl]
  have h1 := fl_mono h
  rw [Rand.fl_of_isDouble isDouble_max] at h1
  have h3 : DBL_MAX < 2 ^ 1024 := by unfold DBL_MAX; norm_num
  linarith

theorem fl_rel {x : ℚ} (h : (2 : ℚ) ^ (-1022 : Int) ≤ |x|) : |fl x - x| ≤ 2 ^ (-53 : Int) * |x| := by
  unfold fl
  split_ifs with hx
  · rw [abs_of_neg hx] at h ⊢
    have := flPos_rel h
    rw [← abs_neg]
    convert this using 2
    ring
  · rw [abs_of_nonneg (not_lt.1 hx)] at h ⊢
    exact flPos_rel h

/-- three roundings -/
theorem scale_err {M : ℚ} {e : Int} {m : ℚ} (hm0 : (10 : ℚ) ^ (-300 : Int) ≤ |m|) (hm1 : |m| ≤ 10 ^ (300 : Int))
    (he0 : -300 ≤ e) (he1 : e ≤ 300) (hx0 : (10 : ℚ) ^ (-300 : Int) ≤ |m * 10 ^ e|) (hx1 : |m * 10 ^ e| ≤ 10 ^ (300 : Int))
    (hM : M = fl m) : ∃ q, Dbl.fin M * pow10 e = .fin q ∧ |q - m * 10 ^ e| ≤ 2 ^ (-51 : Int) * |m * 10 ^ e| := by
  have c1 : (2 : ℚ) ^ (-1022 : Int) ≤ 10 ^ (-300 : Int) / 2 := by norm_num
  have c2 : (10 : ℚ) ^ (300 : Int) * 2 ≤ DBL_MAX := by unfold DBL_MAX; norm_num
  have p0 : (10 : ℚ) ^ (-300 : Int) ≤ 10 ^ e := zpow_le_zpow_right₀ (by norm_num) he0
  have p1 : (10 : ℚ) ^ e ≤ 10 ^ (300 : Int) := zpow_le_zpow_right₀ (by norm_num) he1
  have pp : (0 : ℚ) < 10 ^ e := by positivity
  set T : ℚ := 10 ^ e with hT
  have a0 : (0 : ℚ) < 10 ^ (-300 : Int) := by positivity
  have a1 : (0 : ℚ) < 10 ^ (300 : Int) := by positivity
  have fl_rel' : ∀ x : ℚ, (10 : ℚ) ^ (-300 : Int) / 2 ≤ |x| → |fl x - x| ≤ 2 ^ (-53 : Int) * |x| :=
    fun x h => fl_rel (c1.trans h)
  generalize (10 : ℚ) ^ (-300 : Int) = L at *
  generalize (10 : ℚ) ^ (300 : Int) = H at *
  have r1 : |M - m| ≤ 2 ^ (-53 : Int) * |m| := by rw [hM]; exact fl_rel' m (by linarith)
  have r2 : |fl T - T| ≤ 2 ^ (-53 : Int) * |T| := fl_rel' T (by rw [abs_of_pos pp]; linarith)
  have hpow : pow10 e = .fin (fl T) := by
    unfold pow10
    exact Rand.round_fin (by
      rw [abs_of_pos pp]
      show T ≤ DBL_MAX
      linarith)
  have hu : (2 : ℚ) ^ (-53 : Int) = 1 / 9007199254740992 := by norm_num
  have hv : (2 : ℚ) ^ (-51 : Int) = 4 * (1 / 9007199254740992) := by norm_num
  rw [hu] at r1 r2
  rw [hv]
  generalize hz : (1 : ℚ) / 9007199254740992 = u at *
  have u0 : 0 < u := by rw [← hz]; norm_num
  have u1 : u ≤ 1 / 1000 := by rw [← hz]; norm_num
  set P := fl T
  -- the product
  have hMP : |M * P - m * T| ≤ (2 * u + u * u) * |m * T| := by
    have e1 : M * P - m * T = (M - m) * T + m * (P - T) + (M - m) * (P - T) := by ring
    have b1 : |(M - m) * T| ≤ u * |m * T| := by
      rw [abs_mul, abs_mul]
      calc _ ≤ u * |m| * |T| := mul_le_mul_of_nonneg_right r1 (abs_nonneg _)
        _ = _ := by ring
    have b2 : |m * (P - T)| ≤ u * |m * T| := by
      rw [abs_mul, abs_mul]
      calc _ ≤ |m| * (u * |T|) := mul_le_mul_of_nonneg_left r2 (abs_nonneg _)
        _ = _ := by ring
    have b3 : |(M - m) * (P - T)| ≤ u * u * |m * T| := by
      rw [abs_mul, abs_mul]
      calc _ ≤ (u * |m|) * (u * |T|) := mul_le_mul r1 r2 (abs_nonneg _) (by positivity)
        _ = _ := by ring
    rw [e1]
    calc _ ≤ |(M - m) * T| + |m * (P - T)| + |(M - m) * (P - T)| := by
          refine (abs_add_le _ _).trans ?_
          linarith [abs_add_le ((M - m) * T) (m * (P - T))]
      _ ≤ _ := by linarith
  set x := m * T with hx
  have hx2 : 0 < |x| := by linarith
  have huu : u * u ≤ u / 1000 := by nlinarith
  have hlow : |x| / 2 ≤ |M * P| := by
    have := abs_sub_abs_le_abs_sub x (M * P)
    rw [abs_sub_comm] at this
    have h1 : (2 * u + u * u) * |x| ≤ 1 / 2 * |x| := mul_le_mul_of_nonneg_right (by linarith) hx2.le
    linarith
  have hhigh : |M * P| ≤ (1 + (2 * u + u * u)) * |x| := by
    have := abs_sub_abs_le_abs_sub (M * P) x
    linarith
  have hhigh2 : |M * P| ≤ DBL_MAX := by
    have h1 : (1 + (2 * u + u * u)) * |x| ≤ 2 * |x| := mul_le_mul_of_nonneg_right (by linarith) hx2.le
    linarith
  have r3 : |fl (M * P) - M * P| ≤ u * |M * P| := by
    have := fl_rel' (M * P) (by linarith)
    rwa [hu] at this
  refine ⟨fl (M * P), ?_, ?_⟩
  · rw [hpow]
    exact Rand.round_fin hhigh2
  · have e2 : fl (M * P) - x = (fl (M * P) - M * P) + (M * P - x) := by ring
    rw [e2]
    refine (abs_add_le _ _).trans ?_
    have h5 : u * |M * P| ≤ u * ((1 + (2 * u + u * u)) * |x|) := mul_le_mul_of_nonneg_left hhigh u0.le
    have h6 : u * ((1 + (2 * u + u * u)) * |x|) + (2 * u + u * u) * |x| ≤ 4 * u * |x| := by
      have h7 : u * (1 + (2 * u + u * u)) + (2 * u + u * u) ≤ 4 * u := by nlinarith
      calc _ = (u * (1 + (2 * u + u * u)) + (2 * u + u * u)) * |x| := by ring
        _ ≤ _ := mul_le_mul_of_nonneg_right h7 hx2.le
    linarith

/-! ## writing -/

theorem roundEven_unique {x : ℚ} {n : Int} (h : |x - n| < 1 / 2) : roundEven x = n := by
  have h1 := roundEven_close x
  have h2 : |(roundEven x : ℚ) - n| < 1 := by
    have := abs_add_le ((roundEven x : ℚ) - x) (x - n)
    rw [sub_add_sub_cancel, abs_sub_comm (roundEven x : ℚ) x] at this
    linarith
  have h3 : |roundEven x - n| < 1 := by exact_mod_cast h2
  rw [abs_lt] at h3
  omega

/-- the number of millionths printed for the magnitude `a` -/
def millionths (a : ℚ) : Nat := (roundEven (a * 1000000)).toNat

theorem millionths_close {a : ℚ} (h : 0 ≤ a) : |a - (millionths a : ℚ) / 1000000| ≤ 1 / 2000000 := by
  have h0 : 0 ≤ a * 1000000 := by positivity
  have hc := roundEven_close (a * 1000000)
  have hni : ((roundEven (a * 1000000)) : ℚ) = (millionths a : ℚ) := by
    have : ((roundEven (a * 1000000)).toNat : Int) = roundEven (a * 1000000) := Int.toNat_of_nonneg (roundEven_nonneg h0)
    unfold millionths
    exact_mod_cast this.symm
  rw [hni, abs_le] at hc
  rw [abs_le]
  constructor <;> linarith [hc.1, hc.2]

theorem millionths_unique {a : ℚ} {n : Nat} (h : |a - (n : ℚ) / 1000000| < 1 / 2000000) : millionths a = n := by
  have : roundEven (a * 1000000) = (n : Int) := by
    apply roundEven_unique
    have e : a * 1000000 - ((n : Int) : ℚ) = (a - (n : ℚ) / 1000000) * 1000000 := by push_cast; ring
    rw [e, abs_mul, abs_of_pos (show (0 : ℚ) < 1000000 by norm_num)]
    linarith
  unfold millionths
  rw [this]
  rfl

/-- the literal of `n` millionths -/
def numMill (neg : Bool) (n : Nat) : Number := ⟨neg, decNat (n / 1000000), some (dec6 (n % 1000000)), none⟩

theorem numMill_ok (neg : Bool) (n : Nat) : (numMill neg n).Ok :=
  ⟨decNat_digits _, by simp [numMill, dec6_digits], by simp [numMill]⟩

theorem numMill_text (neg : Bool) (q : ℚ) : (numMill neg (millionths |q|)).text = (F64.mk neg (.fin q)).toText := by
  unfold Number.text numMill F64.toText millionths
  simp

theorem numMill_value (neg : Bool) (n : Nat) : mantVal (numMill neg n) = (if neg then -1 else 1) * ((n : ℚ) / 1000000) := by
  unfold mantVal numMill
  simp only [decNat_nat, dec6_nat (Nat.mod_lt n (show 0 < 1000000 by omega))]
  congr 1
  have hl : (dec6 (n % 1000000)).length = 6 := by simp [dec6]
  rw [hl]
  have := Nat.div_add_mod n 1000000
  have h2 : (n : ℚ) = 1000000 * ((n / 1000000 : Nat) : ℚ) + ((n % 1000000 : Nat) : ℚ) := by exact_mod_cast this.symm
  rw [h2]
  ring

/-- dumped and loaded again -/
theorem load_toText (neg : Bool) (q : ℚ) {w w' : Str} (hw : Ws w) (hw' : Ws w') :
    loadNumber (w ++ (F64.mk neg (.fin q)).toText ++ w') =
      .ok (some (.dbl ⟨neg, .fin (if neg then -readMag ((millionths |q| : ℚ) / 1000000) else
        readMag ((millionths |q| : ℚ) / 1000000))⟩)) := by
  rw [← numMill_text, load_plain (numMill_ok _ _) rfl (by simp [numMill]) hw hw']
  obtain ⟨r, hr, hr', _⟩ := mant64_val (numMill neg (millionths |q|))
  rw [hr, scale_zero hr'.1, ← hr]
  unfold mant64
  rw [numMill_value, abs_mul, abs_of_nonneg (show (0 : ℚ) ≤ (millionths |q| : ℚ) / 1000000 by positivity)]
  cases neg <;> simp [numMill]

/-- small numbers are rounded to a multiple of `2^-20` or finer -/
theorem fl_close {y : ℚ} (h0 : 0 ≤ y) (h : y ≤ 2 ^ 33) : |fl y - y| ≤ 1 / 2 ^ 21 := by
  have hc := roundTiesEven_close (y * 2 ^ 20)
  set j := roundTiesEven (y * 2 ^ 20)
  have hj0 : 0 ≤ j := roundTiesEven_nonneg (by positivity)
  have hj1 : j ≤ 2 ^ 53 := roundTiesEven_le (by push_cast; linarith)
  have := fl_near y (m := j) (k := -20) (by rw [abs_of_nonneg hj0]; exact hj1) (by norm_num)
  refine this.trans ?_
  have e : (j : ℚ) * 2 ^ (-20 : Int) - y = -((y * 2 ^ 20 - j) / 2 ^ 20) := by
    rw [show (2 : ℚ) ^ (-20 : Int) = 1 / 2 ^ 20 by norm_num]
    ring
  rw [e, abs_neg, abs_div, abs_of_pos (show (0 : ℚ) < 2 ^ 20 by norm_num), div_le_iff₀ (by norm_num)]
  calc _ ≤ (1 : ℚ) / 2 := hc
    _ = _ := by norm_num

/-- doubles from `2^33` on are multiples of `2^-19` -/
theorem big_grid {r : ℚ} (h : IsDouble r) (hr : 2 ^ 33 ≤ r) : ∃ i : Int, r = i / 2 ^ 19 := by
  obtain ⟨m, k, hm, _, _, rfl⟩ := h
  rcases le_or_gt (-19) k with hk | hk
  · refine ⟨m * 2 ^ (k + 19).toNat, ?_⟩
    push_cast
    rw [← zpow_natCast, Int.toNat_of_nonneg (by omega), zpow_add₀ (by norm_num)]
    rw [mul_div_assoc, mul_div_assoc]
    norm_num
  · exfalso
    have h2 : (2 : ℚ) ^ k ≤ 2 ^ (-20 : Int) := zpow_le_zpow_right₀ (by norm_num) (by omega)
    have h3 : (m : ℚ) < 2 ^ 53 := by exact_mod_cast (abs_lt.1 hm).2
    have h4 : (0 : ℚ) < 2 ^ k := two_zpow_pos k
    have : (m : ℚ) * 2 ^ k < 2 ^ 53 * 2 ^ (-20 : Int) := by
      calc (m : ℚ) * 2 ^ k < 2 ^ 53 * 2 ^ k := mul_lt_mul_of_pos_right h3 h4
        _ ≤ _ := mul_le_mul_of_nonneg_left h2 (by norm_num)
    have e : (2 : ℚ) ^ 53 * 2 ^ (-20 : Int) = 2 ^ 33 := by norm_num
    linarith

/-- from `2^33` on six places suffice -/
theorem big_survives {a : ℚ} (h : IsDouble a) (ha : 2 ^ 33 ≤ a) : readMag ((millionths a : ℚ) / 1000000) = a := by
  have ha0 : 0 ≤ a := le_trans (by norm_num) ha
  have hc := millionths_close ha0
  have hN := readMag_nearest (x := (millionths a : ℚ) / 1000000) (by positivity)
  rcases ha.eq_or_lt with he | hl
  · have : millionths a = 2 ^ 33 * 1000000 := by
      rw [← he]
      unfold millionths
      have e : (2 : ℚ) ^ 33 * 1000000 = ((2 ^ 33 * 1000000 : Int) : ℚ) := by norm_num
      have e2 : roundEven (((2 ^ 33 * 1000000 : Int)) : ℚ) = 2 ^ 33 * 1000000 := roundEven_unique (by
        rw [sub_self, abs_zero]; norm_num)
      rw [e, e2]
      rfl
    rw [this] at hN ⊢
    have e : ((2 ^ 33 * 1000000 : Nat) : ℚ) / 1000000 = a := by rw [← he]; norm_num
    rw [e] at hN ⊢
    exact nearest_self hN h
  · generalize hy : (millionths a : ℚ) / 1000000 = y at *
    obtain ⟨hd, hn⟩ := hN
    have h1 := hn a h
    generalize readMag y = r at *
    have h2 : |r - a| ≤ 1 / 1000000 := by
      have := abs_add_le (r - y) (y - a)
      rw [sub_add_sub_cancel, abs_sub_comm y a] at this
      linarith
    obtain ⟨i, hi⟩ := big_grid h ha
    have hbig : 2 ^ 33 + 1 / 2 ^ 19 ≤ a := by
      rw [hi] at hl ⊢
      rw [lt_div_iff₀ (by norm_num)] at hl
      have h3 : ((2 ^ 33 * 2 ^ 19 : Int) : ℚ) < i := by push_cast; norm_num at hl ⊢; exact hl
      have h4 : (2 ^ 33 * 2 ^ 19 : Int) + 1 ≤ i := by exact_mod_cast h3
      have h5 : ((2 ^ 33 * 2 ^ 19 + 1 : Int) : ℚ) ≤ i := by exact_mod_cast h4
      rw [le_div_iff₀ (by norm_num)]
      push_cast at h5
      linarith
    have hr : 2 ^ 33 ≤ r := by
      have := (abs_le.1 h2).1
      have e : (1 : ℚ) / 1000000 ≤ 1 / 2 ^ 19 := by norm_num
      linarith
    obtain ⟨j, hj⟩ := big_grid hd hr
    rw [hi, hj] at h2 ⊢
    rw [← sub_div, abs_div, abs_of_pos (show (0 : ℚ) < 2 ^ 19 by norm_num), div_le_iff₀ (by norm_num)] at h2
    have h6 : |((j - i : Int) : ℚ)| < 1 := by
      push_cast
      exact lt_of_le_of_lt h2 (by norm_num)
    have h7 : |j - i| < 1 := by exact_mod_cast h6
    have h8 : j = i := by
      rw [abs_lt] at h7
      omega
    rw [h8]

theorem readMag_close {y : ℚ} (h0 : 0 ≤ y) (h : y ≤ 2 ^ 33) : |readMag y - y| ≤ 1 / 2 ^ 21 := by
  rw [readMag_small (by
    rw [abs_of_nonneg h0]
    refine h.trans ?_
    unfold DBL_MAX; norm_num)]
  exact fl_close h0 h

/-- the number of millionths is stable -/
theorem millionths_stable {n : Nat} (h : (n : ℚ) / 1000000 ≤ 2 ^ 33) : millionths (readMag ((n : ℚ) / 1000000)) = n := by
  apply millionths_unique
  exact lt_of_le_of_lt (readMag_close (by positivity) h) (by norm_num)

theorem millionths_le {a : ℚ} (h0 : 0 ≤ a) (h : a ≤ 2 ^ 33) : (millionths a : ℚ) / 1000000 ≤ 2 ^ 33 := by
  have hc := millionths_close h0
  rw [abs_le] at hc
  have h1 : (millionths a : ℚ) < ((2 ^ 33 * 1000000 + 1 : Nat) : ℚ) := by
    push_cast
    linarith [hc.1]
  have h2 : millionths a < 2 ^ 33 * 1000000 + 1 := by exact_mod_cast h1
  have h3 : millionths a ≤ 2 ^ 33 * 1000000 := by omega
  have h4 : (millionths a : ℚ) ≤ ((2 ^ 33 * 1000000 : Nat) : ℚ) := by exact_mod_cast h3
  push_cast at h4
  linarith

theorem stable {a : ℚ} (h : IsDouble a) (h0 : 0 ≤ a) : millionths (readMag ((millionths a : ℚ) / 1000000)) = millionths a := by
  rcases le_total (2 ^ 33) a with ha | ha
  · rw [big_survives h ha]
  · exact millionths_stable (millionths_le h0 ha)

theorem readMag_ge {y : ℚ} (h : 2 ^ 33 ≤ y) : 2 ^ 33 ≤ readMag y := by
  have hN := readMag_nearest (x := y) (le_trans (by norm_num) h)
  have hd : IsDouble (2 ^ 33 : ℚ) := ⟨1, 33, by norm_num, by norm_num, by norm_num, by norm_num⟩
  have h1 := hN.2 _ hd
  rw [abs_of_nonpos (by linarith : (2 : ℚ) ^ 33 - y ≤ 0)] at h1
  have := (abs_le.1 h1).1
  linarith

/-- what was read from at most six places survives -/
theorem millionths_survive (n : Nat) : readMag ((millionths (readMag ((n : ℚ) / 1000000)) : ℚ) / 1000000) = readMag ((n : ℚ) / 1000000) := by
  rcases le_total ((n : ℚ) / 1000000) (2 ^ 33) with h | h
  · rw [millionths_stable h]
  · exact big_survives (readMag_nearest (by positivity)).1 (readMag_ge h)

end Json
