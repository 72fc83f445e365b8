import Verif.Proof.Decimal
import Verif.Proof.DoubleText

/-! # Doubles in texts: property C168 -/

set_option exponentiation.threshold 2000

namespace Stream.Props
open Cpp Spec Rand.Spec
open Json.Spec (Nearest SignBit)
open Json (F64)

deriving instance DecidableEq for IStream

/-- **C168, reading.**  From a decimal number with white space before it and anything behind it that does not go on with the
number, `stringCast<double>` reads a nearest `double`; the sign is that of the text, also for zero. -/
theorem C168_read (l : Lit) (h : l.Ok) (w t : Str) (hw : Ws w) (ht : Ends t) :
    ∃ q, castDouble (w ++ l.text ++ t) = .ok ⟨l.neg, .fin q⟩ ∧ Nearest l.value q := by
  obtain ⟨q, h1, h2⟩ := readLit_nearest l
  refine ⟨q, ?_, h2⟩
  rw [castDouble_lit hw h ht, ← h1]
  rfl

/-- -12.50E+1 -/
def sampleLit : Lit := ⟨some true, bytes ['1', '2'], true, bytes ['5', '0'], some (byte 'E', some false, bytes ['1'])⟩

example : sampleLit.Ok ∧ sampleLit.text = bytes ['-', '1', '2', '.', '5', '0', 'E', '+', '1'] ∧ sampleLit.value = -125 ∧
    Ws [32, 10] ∧ Ends (bytes [',', '1']) :=
  ⟨by decide, by decide, by decide +kernel, by decide, by decide⟩
example : castDouble ([32, 10] ++ sampleLit.text ++ bytes [',', '1']) = .ok ⟨true, .fin (-125)⟩ := by decide +kernel
-- `.5`, `7.` and `1e-400`, which is nearest to 0
example : castDouble (bytes ['.', '5']) = .ok ⟨false, .fin (1 / 2)⟩ ∧ castDouble (bytes ['7', '.']) = .ok ⟨false, .fin 7⟩ ∧
    castDouble (bytes ['-', '1', 'e', '-', '4', '0', '0']) = .ok ⟨true, .fin 0⟩ := by decide +kernel

/-- **C168, writing and reading, what holds.**  A finite `double` that is written and read again keeps its sign and becomes a
nearest `double` to a number whose relative distance is at most 5/1000000; after that, writing and reading it does not change
it any more. -/
theorem C168_trip_partial (neg : Bool) (q : ℚ) (h : IsDouble q) (hs : SignBit neg q) (w t : Str) (hw : Ws w) (ht : Ends t) :
    ∃ r, castDouble (w ++ putDouble ⟨neg, .fin q⟩ ++ t) = .ok ⟨neg, .fin r⟩ ∧ SignBit neg r ∧
      (∃ y, |y - q| ≤ 5 / 1000000 * |q| ∧ Nearest y r) ∧
      castDouble (w ++ putDouble ⟨neg, .fin r⟩ ++ t) = .ok ⟨neg, .fin r⟩ := by
  have hb := back_nonneg q
  have hN : Nearest (written q) (back q) := by
    have := Json.readMag_nearest (written_nonneg q)
    rwa [Json.readMag_small (by rw [abs_of_nonneg (written_nonneg q)]; exact written_le h)] at this
  have hc := written_close q
  refine ⟨_, cast_put neg h hw ht, ?_, ?_, ?_⟩
  · unfold SignBit
    cases neg <;> simp [hb]
  · cases neg with
    | true =>
      have hq : q ≤ 0 := hs
      refine ⟨-written q, ?_, ?_⟩
      · rw [abs_of_nonpos hq] at hc ⊢
        rw [← abs_neg]
        convert hc using 2
        ring
      · rw [if_pos rfl]
        exact Json.nearest_neg hN
    | false =>
      have hq : 0 ≤ q := hs
      refine ⟨written q, ?_, ?_⟩
      · rw [abs_of_nonneg hq] at hc ⊢
        exact hc
      · rw [if_neg (by simp)]
        exact hN
  · cases neg with
    | true =>
      rw [if_pos rfl, cast_put true (Json.isDouble_neg (back_double h)) hw ht, if_pos rfl, back_neg, back_back h]
    | false =>
      rw [if_neg (by simp), cast_put false (back_double h) hw ht, if_neg (by simp), back_back h]

-- -2/3 is written as -0.666667
example : IsDouble (-(6004799503160661 / 2 ^ 53)) ∧ SignBit true (-(6004799503160661 / 2 ^ 53)) ∧
    putDouble ⟨true, .fin (-(6004799503160661 / 2 ^ 53))⟩ = bytes ['-', '0', '.', '6', '6', '6', '6', '6', '7'] :=
  ⟨⟨-6004799503160661, -53, by norm_num, by norm_num, by norm_num, by norm_num⟩, by decide +kernel, by decide +kernel⟩

/-- **C168, six digits.**  What was read from a number with at most six significant digits in the range of `double` is not
changed by writing and reading it. -/
theorem C168_six_partial (l : Lit) (h : l.Ok) (m k : Int) (hv : l.value = m * 10 ^ k) (hm : |m| < 1000000)
    (hr : |l.value| ≤ (2 ^ 53 - 1) * 2 ^ 971) (w t : Str) (hw : Ws w) (ht : Ends t) :
    ∃ d : F64, castDouble l.text = .ok d ∧ castDouble (w ++ putDouble d ++ t) = .ok d := by
  have hload := castDouble_lit (w := []) (t := []) (by simp [Ws]) h (by simp [Ends])
  rw [List.nil_append, List.append_nil, Json.readMag_small (by rw [abs_abs]; exact hr)] at hload
  refine ⟨_, hload, ?_⟩
  have key : back (fl |l.value|) = fl |l.value| ∧ IsDouble (fl |l.value|) := by
    refine ⟨?_, fl_max (abs_nonneg _) hr⟩
    rcases (abs_nonneg l.value).eq_or_lt with h0 | h0
    · rw [← h0, fl_zero]
      unfold back written
      rw [if_pos rfl, fl_zero]
    · obtain ⟨n, e, h1, h2, h3⟩ := six_digits h0 (m := m.natAbs) (k := k) (by rw [Int.abs_eq_natAbs] at hm; omega) (by
        rw [hv, abs_mul, abs_of_pos (show (0 : ℚ) < 10 ^ k by positivity), ← Int.cast_abs, Int.abs_eq_natAbs]
        rfl)
      rw [h3]
      rw [h3] at hr
      exact back_six h1 h2 hr
  cases hn : l.neg with
  | true => rw [if_pos rfl, cast_put true (Json.isDouble_neg key.2) hw ht, if_pos rfl, back_neg, key.1]
  | false => rw [if_neg (by simp), cast_put false key.2 hw ht, if_neg (by simp), key.1]

/-- 0.1 -/
def tenthLit : Lit := ⟨none, bytes ['0'], true, bytes ['1'], none⟩

example : tenthLit.Ok ∧ tenthLit.value = (1 : Int) * 10 ^ (-1 : Int) ∧ |tenthLit.value| ≤ (2 ^ 53 - 1) * 2 ^ 971 ∧
    castDouble tenthLit.text = .ok ⟨false, .fin (3602879701896397 / 2 ^ 55)⟩ ∧
    putDouble ⟨false, .fin (3602879701896397 / 2 ^ 55)⟩ = bytes ['0', '.', '1'] :=
  ⟨by decide, by decide +kernel, by decide +kernel, by decide +kernel, by decide +kernel⟩

/-- **C168, whole numbers.**  A whole number below a million is written as an `int` is, in decimal. -/
theorem C168_int_partial (i : Int) (h : |i| < 1000000) : putDouble ⟨decide (i < 0), .fin i⟩ = BigNum.Spec.decimal i := by
  rw [← Json.decInt_decimal]; exact put_int i h

example : |(-120 : Int)| < 1000000 ∧ putDouble ⟨true, .fin (-120)⟩ = bytes ['-', '1', '2', '0'] := by decide +kernel

/-- **C168, refuted.**  `double`s are written with six digits only: 0.1 + 0.2 and 0.3 are written alike, 1234567 becomes
1.23457e+06, which is read as 1234570; infinity is written as `inf`, which is read as 0; reading a Vector with it in it ends
the program or, if it is not the first element, makes the program use a variable without a value. -/
theorem C168_refuted :
    (putDouble ⟨false, .fin (1351079888211149 / 2 ^ 52)⟩ = bytes ['0', '.', '3'] ∧
      putDouble ⟨false, .fin (5404319552844595 / 2 ^ 54)⟩ = bytes ['0', '.', '3']) ∧
    (putDouble ⟨false, .fin 1234567⟩ = bytes ['1', '.', '2', '3', '4', '5', '7', 'e', '+', '0', '6'] ∧
      castDouble (putDouble ⟨false, .fin 1234567⟩) = .ok ⟨false, .fin 1234570⟩) ∧
    castDouble (putDouble ⟨false, .inf false⟩) = .ok ⟨false, .fin 0⟩ ∧
    (∃ t, printVectorD [⟨false, .inf false⟩] = .ok t ∧ readVectorD { rest := t } = .exit) ∧
    (∃ t, printVectorD [⟨false, .fin 1⟩, ⟨false, .inf false⟩] = .ok t ∧ readVectorD { rest := t } = .ub) := by
  refine ⟨⟨by decide +kernel, by decide +kernel⟩, ⟨by decide +kernel, by decide +kernel⟩, by decide +kernel,
    ⟨bytes ['{', 'i', 'n', 'f', '}'], by decide +kernel, by decide +kernel⟩,
    ⟨bytes ['{', '1', ',', ' ', 'i', 'n', 'f', '}'], by decide +kernel, by decide +kernel⟩⟩

/-! ## vectors -/

/-- **C168, reading vectors.**  From `{`, numbers in the range of `double` separated by commas, and `}`, with white space between
them and anything behind them, `>>` reads nearest `double`s to these numbers and leaves what follows. -/
theorem C168_vector_read (a : Str) (ha : Ws a) (xs : List RItem) (hne : xs ≠ []) (h : ∀ x ∈ xs, x.Ok) (rest : Str) :
    ∃ v, readVectorD { rest := a ++ byte '{' :: (rcommas xs ++ byte '}' :: rest) } =
        .ok (v, { back := (a ++ byte '{' :: (rcommas xs ++ [byte '}'])).reverse, rest := rest }) ∧
      List.Forall₂ RItem.Read xs v := by
  refine ⟨_, readVectorD_items a ha xs hne h rest, ?_⟩
  rw [List.forall₂_map_right_iff, List.forall₂_same]
  exact fun x _ => readLit_nearest x.lit

example : ∀ x ∈ [(⟨[], sampleLit, [32]⟩ : RItem), ⟨[10], tenthLit, []⟩], x.Ok := by
  intro x hx
  simp only [List.mem_cons, List.not_mem_nil, or_false] at hx
  rcases hx with rfl | rfl
  · exact ⟨by decide, by decide, by decide, by decide +kernel⟩
  · exact ⟨by decide, by decide, by decide, by decide +kernel⟩
example : readVectorD { rest := byte '{' :: (rcommas [(⟨[], sampleLit, [32]⟩ : RItem), ⟨[10], tenthLit, []⟩] ++ [byte '}', 65]) } =
    .ok ([⟨true, .fin (-125)⟩, ⟨false, .fin (3602879701896397 / 2 ^ 55)⟩],
      ⟨bytes ['}', '1', '.', '0', '\n', ',', ' ', '1', '+', 'E', '0', '5', '.', '2', '1', '-', '{'], [65], false, false⟩) := by
  decide +kernel

/-- **C168, wrong texts.**  If the numbers are followed by the end of the text, or by a character that is no white space, no comma,
no `}` and does not go on with the number, the program is ended. -/
theorem C168_vector_end (a : Str) (ha : Ws a) (xs : List RItem) (hne : xs ≠ []) (h : ∀ x ∈ xs, x.Ok) :
    readVectorD { rest := a ++ byte '{' :: rcommas xs } = .exit ∧
    ∀ (c : Byte) (_ : ¬ Ws [c]) (_ : Ends [c]) (_ : c ≠ byte ',') (_ : c ≠ byte '}') (t : Str),
      readVectorD { rest := a ++ byte '{' :: (rcommas xs ++ c :: t) } = .exit := by
  constructor
  · have := readVectorD_bad a ha xs hne h [] (by intro c hc; simp at hc) (by intro c hc; simp at hc)
    rwa [List.append_nil] at this
  · intro c h1 h2 h3 h4 t
    refine readVectorD_bad a ha xs hne h (c :: t) (fun d hd => h2 d (by simpa using hd)) fun d hd => ?_
    simp only [List.head?_cons, Option.mem_def, Option.some.injEq] at hd
    subst hd
    refine ⟨?_, h3, h4⟩
    by_contra hc
    exact h1 fun d hd => by
      rw [List.mem_singleton] at hd
      subst hd
      exact (isWs_iff _).1 (by simpa using hc)

example : readVectorD { rest := byte '{' :: rcommas [(⟨[], sampleLit, [32]⟩ : RItem), ⟨[10], tenthLit, []⟩] } = .exit := by
  decide +kernel
example : ¬ Ws [byte ';'] ∧ Ends [byte ';'] ∧ byte ';' ≠ byte ',' ∧ byte ';' ≠ byte '}' ∧
    readVectorD { rest := byte '{' :: (rcommas [(⟨[], sampleLit, [32]⟩ : RItem)] ++ [byte ';', byte '}']) } = .exit := by
  decide +kernel

/-- **C168, vectors, what holds.**  A Vector of finite `double`s that is written and read again has as many elements, each of them
what `stringCast` reads from the text of the old one; after that, writing and reading does not change the Vector any more. -/
theorem C168_vector_partial (v : List F64) (hv : ∀ d ∈ v, ∃ q, d.val = .fin q ∧ IsDouble q) (hlen : (v.length : Int) ≤ INT_MAX)
    (rest : Str) : ∃ t v', printVectorD v = .ok t ∧ readVectorD { rest := t ++ rest } = .ok (v', { back := t.reverse, rest := rest }) ∧
      List.Forall₂ (fun d d' => castDouble (putDouble d) = .ok d') v v' ∧
      ∃ t', printVectorD v' = .ok t' ∧ readVectorD { rest := t' ++ rest } = .ok (v', { back := t'.reverse, rest := rest }) := by
  obtain ⟨t, v', h1, h2, h3⟩ := vector_trip v hv hlen rest
  refine ⟨t, v', h1, h2, h3, ?_⟩
  have hall : ∀ {v v' : List F64}, List.Forall₂ (fun d d' => castDouble (putDouble d) = .ok d') v v' →
      (∀ d ∈ v, ∃ q, d.val = .fin q ∧ IsDouble q) →
      ∀ d' ∈ v', (∃ q, d'.val = .fin q ∧ IsDouble q) ∧ castDouble (putDouble d') = .ok d' := by
    intro v v' h
    induction h with
    | nil => intro _ d' hd'; simp at hd'
    | cons h _ ih =>
      intro hv d' hd'
      rcases List.mem_cons.1 hd' with rfl | hd'
      · obtain ⟨d'', e1, e2, e3⟩ := trip_finite _ (hv _ List.mem_cons_self)
        rw [h] at e1
        cases e1
        exact ⟨e2, e3⟩
      · exact ih (fun d hd => hv d (by simp [hd])) d' hd'
  have hv' := hall h3 hv
  obtain ⟨t', v'', e1, e2, e3⟩ := vector_trip v' (fun d hd => (hv' d hd).1) (by rw [← h3.length_eq]; exact hlen) rest
  have : v'' = v' := by
    have hid : ∀ {a b : List F64}, List.Forall₂ (fun d d' => castDouble (putDouble d) = .ok d') a b →
        (∀ d ∈ a, castDouble (putDouble d) = .ok d) → b = a := by
      intro a b h
      induction h with
      | nil => intro _; rfl
      | cons h _ ih =>
        intro ha
        rw [ih fun d hd => ha d (by simp [hd])]
        have := ha _ List.mem_cons_self
        rw [h] at this
        cases this
        rfl
    exact hid e3 fun d hd => (hv' d hd).2
  rw [this] at e2
  exact ⟨t', e1, e2⟩

example : (∀ d ∈ [(⟨false, .fin (1 / 2)⟩ : F64), ⟨true, .fin (-1234567)⟩], ∃ q, d.val = .fin q ∧ IsDouble q) ∧
    printVectorD [⟨false, .fin (1 / 2)⟩, ⟨true, .fin (-1234567)⟩] =
      .ok (bytes ['{', '0', '.', '5', ',', ' ', '-', '1', '.', '2', '3', '4', '5', '7', 'e', '+', '0', '6', '}']) := by
  refine ⟨?_, by decide +kernel⟩
  intro d hd
  simp only [List.mem_cons, List.not_mem_nil, or_false] at hd
  rcases hd with rfl | rfl
  · exact ⟨_, rfl, 1, -1, by norm_num, by norm_num, by norm_num, by norm_num⟩
  · exact ⟨_, rfl, -1234567, 0, by norm_num, by norm_num, by norm_num, by norm_num⟩

/-- **C168, points.**  Two points are written alike exactly if the coordinates of the one are written as those of the other. -/
theorem C168_point {N : Nat} (p q : Fin (N + 1) → F64) :
    printPoint p = printPoint q ↔ ∀ i, putDouble (p i) = putDouble (q i) := print_inj p q

example : printPoint (N := 1) ![⟨false, .fin (1 / 2)⟩, ⟨true, .fin (-3)⟩] = bytes ['(', '0', '.', '5', ',', ' ', '-', '3', ')'] := by
  decide +kernel

end Stream.Props
