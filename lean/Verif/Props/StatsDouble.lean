import Verif.Proof.StatsDouble
import Verif.Proof.GeometryDouble
import Mathlib.Tactic.IntervalCases

/-! # Properties C109–C112: statistics in binary64 -/

namespace Stats
open Cpp

/-! ### C109: the variance of `int`s -/

/-- C109: when no `int` overflows, the array version of `variance` returns a finite number that is not
negative and that is zero exactly if all elements are equal; it is close to the exact variance if the sum of
the squares is at most 2^53; `stddev` is finite, not negative, and zero exactly if all elements are equal. -/
theorem C109_int_variance (arr : List Int) (size : Int) (h0 : 0 < size) (h : size ≤ arr.length)
    (hi : size ≤ INT_MAX) :
    let xs := arr.take size.toNat
    (∀ x ∈ xs, IsInt (x * x)) → PartialSums xs →
    ∃ q : ℚ, varianceInt arr size = .ok (Dbl.fin q) ∧ 0 ≤ q ∧ (q = 0 ↔ ∀ x ∈ xs, ∀ y ∈ xs, x = y) ∧
      ((xs.map fun x => x * x).sum ≤ 2 ^ 53 →
        |q - Spec.variance (cast xs)| ≤ ((xs.map fun x => x * x).sum : Int) / (size : ℚ) / 2 ^ 50) ∧
      ∃ r : ℚ, stddevInt Rand.Libm.dbl.sqrt arr size = .ok (.fin r) ∧ 0 ≤ r ∧
        (r = 0 ↔ ∀ x ∈ xs, ∀ y ∈ xs, x = y) := by
  intro xs hq hs
  have hl : (xs.length : Int) = size := len_take arr h0.le h
  have hI : INT_MAX = 2147483647 := rfl
  obtain ⟨v, hv⟩ : ∃ v : Dbl, varianceInt arr size = .ok v := by
    rw [varianceInt_eq arr h0.le h]
    obtain ⟨r, h1, _⟩ := sqLoop_eq xs hq (by omega)
    have hz : ((0 : Int) : Dbl) = .fin 0 := by decide +kernel
    unfold sqLoop at h1
    rw [hz, h1, Out.ok_bind]
    unfold meanCont
    rw [sumI_eq xs hs]
    exact ⟨_, rfl⟩
  obtain ⟨_, hT, r, hr, h2, h3, h5, h6, hb⟩ := varianceInt_val arr h0 h hi v hv
  have hz : varOf r xs.sum size = 0 ↔ ∀ x ∈ xs, ∀ y ∈ xs, x = y := by
    constructor
    · intro he
      by_contra hne
      have := varOf_pos xs size hl hi hq hT r h5 h6 hne
      linarith
    · exact varOf_zero xs size h0 hl hT hq r h5
  have hn : 0 ≤ varOf r xs.sum size := by
    by_cases he : ∀ x ∈ xs, ∀ y ∈ xs, x = y
    · exact (hz.2 he).ge
    · exact (varOf_pos xs size hl hi hq hT r h5 h6 he).le
  refine ⟨varOf r xs.sum size, by rw [hv, hr], hn, hz, fun hS => ?_, ?_⟩
  · rw [h5 hS]
    have hne : cast xs ≠ [] := by
      apply cast_ne
      intro he
      rw [he] at hl
      simp at hl
      omega
    have e1 : ((cast xs).map fun x => x ^ 2).sum = (((xs.map fun x => x * x).sum : Int) : ℚ) := by
      clear * -
      induction xs with
      | nil => simp [cast]
      | cons x xs ih =>
        simp only [cast, List.map_cons, List.sum_cons] at *
        rw [ih]
        push_cast
        ring
    have e2 : ((cast xs).length : ℚ) = size := by
      rw [show (cast xs).length = xs.length by simp [cast]]
      exact_mod_cast hl
    have := varOf_err xs size h0 hl hi
    rwa [variance_shift _ hne, Spec.mean, e1, ← sum_cast, e2, ← pow_two]
  · obtain ⟨t, ht, ht0, htz⟩ := sqrt_small hn (fl_idem _) hb
    refine ⟨t, ?_, ht0, htz.trans hz⟩
    unfold stddevInt
    rw [hv, hr, Out.ok_bind, ht]

/-- C109: in all other cases `variance` of an `int` array has undefined behaviour. -/
theorem C109_defined (arr : List Int) (size : Int) (h0 : 0 < size) (h : size ≤ arr.length) (hi : size ≤ INT_MAX) :
    let xs := arr.take size.toNat
    (∃ v : Dbl, varianceInt arr size = .ok v) ↔ (∀ x ∈ xs, IsInt (x * x)) ∧ PartialSums xs := by
  intro xs
  constructor
  · rintro ⟨v, hv⟩
    refine ⟨(varianceInt_val arr h0 h hi v hv).1, ?_⟩
    rw [varianceInt_eq arr h0.le h] at hv
    obtain ⟨_, _, hv⟩ := Out.bind_eq_ok.1 hv
    obtain ⟨_, hm, _⟩ := Out.bind_eq_ok.1 hv
    obtain ⟨T, hT, _⟩ := Out.bind_eq_ok.1 hm
    exact partialSums_of_ok xs T hT
  · rintro ⟨hq, hs⟩
    obtain ⟨q, hv, _⟩ := C109_int_variance arr size h0 h hi hq hs
    exact ⟨_, hv⟩

example : PartialSums [46340, -46340, 46339] ∧ ∀ x ∈ [46340, -46340, 46339], IsInt (x * x) := by
  refine ⟨?_, by decide⟩
  intro k hk
  have : k < 4 := by simp at hk; omega
  interval_cases k <;> decide
example : varianceInt (D := Dbl) [1, 2, 3, 4] 4 = .ok (.fin (5 / 4)) ∧
    varianceInt (D := Dbl) [46340, 46340] 2 = .ok (.fin 0) ∧
    varianceInt (D := Dbl) [46341, 46340] 2 = .ub := by decide +kernel

/-- C109 refuted: the array version and the container version of `variance` of the same `int`s differ. -/
theorem C109_container_refuted : ∃ a b : ℚ,
    varianceInt [46340, 46340, 46339] 3 = .ok (Dbl.fin a) ∧
    varianceCont .int [46340, 46340, 46339] = .ok (Dbl.fin b) ∧ a ≠ b ∧
    Spec.variance (cast [46340, 46340, 46339]) = 2 / 9 ∧ |b - 2 / 9| < 1 / 2 ^ 50 ∧ 1 / 2 ^ 25 < |a - 2 / 9| :=
  ⟨233017 / 1048576, 2001599834386887 / 9007199254740992, by decide +kernel⟩

/-! ### C110: variances of `double`s are never negative and never NaN -/

/-- C110: for finite elements, the variances and standard deviations are numbers that are not negative, or plus
infinity: never NaN. -/
theorem C110_nonneg (xs : List Dbl) (hf : ∀ x ∈ xs, ∃ q, x = Dbl.fin q) (hl : xs.length < 2 ^ 31) (unsigned : Bool) :
    (xs ≠ [] → ∃ v, varianceCont .double xs = .ok v ∧ Nonneg v ∧
      ∃ d, stddevCont Rand.Libm.dbl.sqrt .double xs = .ok d ∧ Nonneg d) ∧
    (2 ≤ xs.length → ∃ v, sampleVarianceCont .double unsigned xs = .ok v ∧ Nonneg v ∧
      ∃ d, sampleStddevCont Rand.Libm.dbl.sqrt .double unsigned xs = .ok d ∧ Nonneg d) := by
  have hz : ((0 : Int) : Dbl) = .fin 0 := by decide +kernel
  have hcast : ∀ n : Int, 0 < n → n < 2 ^ 31 → ((n : Int) : Dbl) = .fin n := by
    intro n hn hn'
    exact cast_dbl (by rw [abs_of_pos hn]; omega)
  have hmean : xs ≠ [] → ∃ m, meanCont (.double : Elem Dbl Dbl) xs = .ok m ∧ NotNan m := by
    intro hne
    have hp := List.length_pos_iff.2 hne
    unfold meanCont sumCont Elem.double
    rw [foldlM_ok (fun a b => a + b), Out.ok_bind, hz, hcast _ (by omega) (by omega)]
    exact ⟨_, rfl, notNan_div (notNan_sum xs hf _ (.inl ⟨0, rfl⟩)) (by exact_mod_cast hp)⟩
  have hsq : ∀ m, NotNan m → Nonneg (squaresCont (.double : Elem Dbl Dbl) m xs) := by
    intro m hm
    unfold squaresCont Elem.double
    rw [hz]
    exact nonneg_squares xs hf m _ hm (.inl ⟨0, le_rfl, rfl⟩)
  have fin : ∀ (n : Int) (m : Dbl), 0 < n → n < 2 ^ 31 → NotNan m →
      Nonneg (squaresCont (.double : Elem Dbl Dbl) m xs / ((n : Int) : Dbl)) := by
    intro n m hn hn' hm
    rw [hcast n hn hn']
    exact nonneg_div (hsq m hm) (by exact_mod_cast hn)
  constructor
  · intro hne
    have hp := List.length_pos_iff.2 hne
    obtain ⟨m, hm, hmn⟩ := hmean hne
    have hv : varianceCont .double xs =
        .ok (squaresCont (.double : Elem Dbl Dbl) m xs / ((xs.length : Int) : Dbl)) := by
      unfold varianceCont
      rw [hm, Out.ok_bind]
    have hN := fin xs.length m (by omega) (by omega) hmn
    refine ⟨_, hv, hN, _, ?_, nonneg_sqrt hN⟩
    unfold stddevCont
    rw [hv, Out.ok_bind]
  · intro h2
    have hne : xs ≠ [] := by rintro rfl; simp at h2
    obtain ⟨m, hm, hmn⟩ := hmean hne
    have hv : sampleVarianceCont .double unsigned xs =
        .ok (squaresCont (.double : Elem Dbl Dbl) m xs / ((sizeMinusOne unsigned xs.length : Int) : Dbl)) := by
      unfold sampleVarianceCont
      rw [hm, Out.ok_bind]
    have e : sizeMinusOne unsigned xs.length = (xs.length : Int) - 1 := by
      unfold sizeMinusOne
      split_ifs
      · omega
      · rfl
    have hN := fin (sizeMinusOne unsigned xs.length) m (by omega) (by omega) hmn
    refine ⟨_, hv, hN, _, ?_, nonneg_sqrt hN⟩
    unfold sampleStddevCont
    rw [hv, Out.ok_bind]

/-- C110: the same for arrays. -/
theorem C110_array (arr : List Dbl) (size : Int) (h0 : 0 < size) (h : size ≤ arr.length) (hi : size ≤ INT_MAX)
    (hf : ∀ x ∈ arr.take size.toNat, ∃ q, x = Dbl.fin q) :
    (∃ v, varianceDouble arr size = .ok v ∧ Nonneg v ∧
      ∃ d, stddevDouble Rand.Libm.dbl.sqrt arr size = .ok d ∧ Nonneg d) ∧
    (2 ≤ size → ∃ v, sampleVarianceArr .double arr size = .ok v ∧ Nonneg v ∧
      ∃ d, sampleStddevArr Rand.Libm.dbl.sqrt .double arr size = .ok d ∧ Nonneg d) := by
  have hl := len_take arr h0.le h
  have hI : INT_MAX = 2147483647 := rfl
  have hne : arr.take size.toNat ≠ [] := by
    intro he
    rw [he] at hl
    simp at hl
    omega
  obtain ⟨h1, h2⟩ := C110_nonneg _ hf (by omega) false
  unfold stddevDouble sampleStddevArr
  rw [varianceDouble_eq arr h0.le h]
  refine ⟨h1 hne, fun hs => ?_⟩
  rw [sampleVarianceArr_eq _ arr h0.le h hi false (by simp)]
  exact h2 (by omega)

example : varianceCont (D := Dbl) .double [.fin (2 ^ 1000), .fin 0] = .ok (.inf false) ∧
    varianceCont (D := Dbl) .double [.fin 1, .fin 2, .fin 4] = .ok (.fin (875699927544263 / 562949953421312)) := by
  decide +kernel

/-- the double nearest to one tenth -/
def tenth : ℚ := 3602879701896397 / 2 ^ 55

/-- C110 refuted: the variance of three equal numbers need not be zero. -/
theorem C110_equal_refuted :
    fl tenth = tenth ∧ varianceCont .double [.fin tenth, .fin tenth, .fin tenth] = .ok (Dbl.fin (1 / 2 ^ 112)) := by
  decide +kernel

/-! ### C111: accuracy of sums and means -/

/-- C111: the sum of finite doubles is off by at most n · 2^-52 times the sum of the absolute values, and the mean
accordingly. -/
theorem C111_sum (xs : List ℚ) (hd : ∀ x ∈ xs, fl x = x) (hne : xs ≠ []) (hl : xs.length < 2 ^ 31)
    (hb : (xs.map abs).sum ≤ 2 ^ 1000) :
    ∃ q m, sumCont (D := Dbl) .double (xs.map .fin) = .ok (.fin q) ∧ meanCont .double (xs.map .fin) = .ok (Dbl.fin m) ∧
      |q - xs.sum| ≤ xs.length / 2 ^ 52 * (xs.map abs).sum ∧
      |m - Spec.mean xs| ≤ (xs.length + 1) / 2 ^ 52 * ((xs.map abs).sum / xs.length) + 2 ^ (-1075 : Int) := by
  obtain ⟨q, h1, h2, h3⟩ := sum_err xs hd (by omega) hb
  have hz : ((0 : Int) : Dbl) = .fin 0 := by decide +kernel
  have hp := List.length_pos_iff.2 hne
  have hs : sumCont (D := Dbl) .double (xs.map .fin) = .ok (.fin q) := by
    unfold sumCont Elem.double
    rw [foldlM_ok (fun a b => a + b), hz, h1]
  have hn1 : (1 : ℚ) ≤ xs.length := by exact_mod_cast hp
  have ha : |xs.sum| ≤ (xs.map abs).sum := by
    clear * -
    induction xs with
    | nil => simp
    | cons y ys ih =>
      simp only [List.sum_cons, List.map_cons]
      exact (abs_add_le _ _).trans (by linarith)
  have ha0 : 0 ≤ (xs.map abs).sum := (abs_nonneg _).trans ha
  have hku : (xs.length : ℚ) * (2 * u) ≤ 1 := by
    have : (xs.length : ℚ) ≤ 2 ^ 31 := by exact_mod_cast hl.le
    calc (xs.length : ℚ) * (2 * u) ≤ 2 ^ 31 * (2 * u) := by
          apply mul_le_mul_of_nonneg_right this; have := u_pos; linarith
      _ ≤ 1 := by unfold u; norm_num
  have hq : |q| ≤ 2 * (xs.map abs).sum := by
    have h4 : |q| ≤ |q - xs.sum| + |xs.sum| := by
      have := abs_add_le (q - xs.sum) xs.sum
      rwa [sub_add_cancel] at this
    have h5 := mul_le_mul_of_nonneg_right hku ha0
    linarith
  have hqn : |q / xs.length| ≤ 2 * ((xs.map abs).sum / xs.length) := by
    rw [abs_div, Nat.abs_cast, ← mul_div_assoc]
    gcongr
  refine ⟨q, fl (q / xs.length), hs, ?_, ?_, ?_⟩
  · unfold meanCont
    rw [hs, Out.ok_bind, List.length_map, cast_dbl (by rw [abs_of_pos (by omega)]; omega)]
    show Out.ok (Dbl.fin q / Dbl.fin (((xs.length : Int) : ℚ))) = _
    rw [Int.cast_natCast, div_dbl (by linarith), Rand.round_fin]
    refine le_trans hqn (le_trans ?_ maxDouble_ge')
    have : (xs.map abs).sum / xs.length ≤ (xs.map abs).sum := div_le_self ha0 hn1
    generalize (2 : ℚ) ^ 1000 = B at *
    linarith
  · refine h3.trans (le_of_eq ?_)
    unfold u
    ring
  · have he := Geo.fl_err (q / xs.length)
    rw [show (2 : ℚ) ^ (-53 : Int) = u by unfold u; rw [zpow_neg, one_div, zpow_ofNat]] at he
    have h7 : |fl (q / xs.length) - Spec.mean xs| ≤ |fl (q / xs.length) - q / xs.length| + |q / xs.length - Spec.mean xs| := by
      have := abs_add_le (fl (q / xs.length) - q / xs.length) (q / xs.length - Spec.mean xs)
      rwa [sub_add_sub_cancel] at this
    have h8 : |q / xs.length - Spec.mean xs| ≤ xs.length * (2 * u) * ((xs.map abs).sum / xs.length) := by
      rw [Spec.mean, ← sub_div, abs_div, Nat.abs_cast, ← mul_div_assoc]
      gcongr
    have h9 := mul_le_mul_of_nonneg_left hqn u_pos.le
    have e : ((xs.length : ℚ) + 1) / 2 ^ 52 * ((xs.map abs).sum / xs.length) =
        xs.length * (2 * u) * ((xs.map abs).sum / xs.length) + u * (2 * ((xs.map abs).sum / xs.length)) := by
      unfold u; ring
    rw [e]
    generalize (2 : ℚ) ^ (-1075 : Int) = B at *
    linarith

/-- C111: a NaN, or infinities of both signs, among the numbers make the sum and the mean NaN. -/
theorem C111_nan (xs : List Dbl) (h : .nan ∈ xs ∨ (.inf true ∈ xs ∧ .inf false ∈ xs)) :
    sumCont (D := Dbl) .double xs = .ok .nan ∧ meanCont .double xs = .ok (Dbl.nan : Dbl) := by
  have n1 : ∀ y : Dbl, Dbl.nan + y = .nan := by intro y; cases y <;> rfl
  have n2 : ∀ y : Dbl, y + Dbl.nan = .nan := by intro y; cases y <;> rfl
  have hnan : ∀ (ys : List Dbl), ys.foldl (fun a b => a + b) Dbl.nan = .nan := by
    intro ys
    induction ys with
    | nil => rfl
    | cons y ys ih => rw [List.foldl_cons, n1, ih]
  have hmem : ∀ (ys : List Dbl) (s : Dbl), .nan ∈ ys → ys.foldl (fun a b => a + b) s = .nan := by
    intro ys
    induction ys with
    | nil => intro s h; cases h
    | cons y ys ih =>
      intro s h
      rw [List.foldl_cons]
      rcases List.mem_cons.1 h with h | h
      · rw [← h, n2, hnan]
      · exact ih _ h
  have hinf : ∀ (ys : List Dbl) (b : Bool), .inf (!b) ∈ ys → ys.foldl (fun a b => a + b) (Dbl.inf b) = .nan := by
    intro ys
    induction ys with
    | nil => intro b h; cases h
    | cons y ys ih =>
      intro b h
      rw [List.foldl_cons]
      rcases List.mem_cons.1 h with h | h'
      · rw [← h, show Dbl.inf b + Dbl.inf (!b) = .nan by cases b <;> rfl, hnan]
      · cases y with
        | nan => rw [n2, hnan]
        | fin q => exact ih b h'
        | inf c =>
          by_cases hc : b = c
          · rw [show Dbl.inf b + Dbl.inf c = .inf b by rw [hc]; cases c <;> rfl]
            exact ih b h'
          · rw [show Dbl.inf b + Dbl.inf c = .nan by revert hc; cases b <;> cases c <;> simp <;> rfl, hnan]
  have hboth : ∀ (ys : List Dbl) (s : Dbl), .inf true ∈ ys → .inf false ∈ ys →
      ys.foldl (fun a b => a + b) s = .nan := by
    intro ys
    induction ys with
    | nil => intro s h; cases h
    | cons y ys ih =>
      intro s h1 h2
      rw [List.foldl_cons]
      rcases List.mem_cons.1 h1 with h | h
      · subst h
        have h3 : Dbl.inf false ∈ ys := (List.mem_cons.1 h2).resolve_left (by simp)
        cases s with
        | nan => rw [n1, hnan]
        | fin q => exact hinf ys true h3
        | inf c => cases c
                   · exact hnan ys
                   · exact hinf ys true h3
      · rcases List.mem_cons.1 h2 with h' | h'
        · subst h'
          cases s with
          | nan => rw [n1, hnan]
          | fin q => exact hinf ys false h
          | inf c => cases c
                     · exact hinf ys false h
                     · exact hnan ys
        · exact ih _ h h'
  have hs : sumCont (D := Dbl) .double xs = .ok .nan := by
    unfold sumCont Elem.double
    rw [foldlM_ok (fun a b => a + b)]
    rcases h with h | h
    · rw [hmem xs _ h]
    · rw [hboth xs _ h.1 h.2]
  refine ⟨hs, ?_⟩
  unfold meanCont
  rw [hs, Out.ok_bind]
  show Out.ok (Dbl.nan / _) = _
  congr 1

example : sumCont (D := Dbl) .double [.inf false, .fin 3, .inf true, .fin 2] = .ok .nan := by decide +kernel

/-- C111: whole numbers are added exactly as long as their absolute values add up to at most 2^53. -/
theorem C111_whole (xs : List Int) (hb : (xs.map abs).sum ≤ 2 ^ 53) :
    sumCont (D := Dbl) .double (xs.map fun x : Int => .fin x) = .ok (.fin xs.sum) := by
  have hz : ((0 : Int) : Dbl) = .fin 0 := by decide +kernel
  unfold sumCont Elem.double
  rw [foldlM_ok (fun a b => a + b), hz, sum_exact xs hb]

example : (([2 ^ 52, -5, 7] : List Int).map abs).sum ≤ 2 ^ 53 := by decide
example : fl tenth = tenth ∧ ([tenth, -3, tenth].map abs).sum ≤ 2 ^ 3 := by decide +kernel

/-- C111 refuted: the order of the elements matters, the mean of equal numbers need not be that number, and the
mean of two large numbers is infinite. -/
theorem C111_refuted :
    sumCont (D := Dbl) .double [.fin (2 ^ 53), .fin 1, .fin (-2 ^ 53)] = .ok (.fin 0) ∧
    sumCont (D := Dbl) .double [.fin (2 ^ 53), .fin (-2 ^ 53), .fin 1] = .ok (.fin 1) ∧
    meanCont (D := Dbl) .double [.fin tenth, .fin tenth, .fin tenth] = .ok (.fin (tenth + 1 / 2 ^ 56)) ∧
    meanCont (D := Dbl) .double [.fin (2 ^ 1023), .fin (2 ^ 1023)] = .ok (.inf false) := by
  decide +kernel

/-! ### C112: sizes that are not positive -/

/-- C112: for a negative size all functions return zero, as documented.  Missing: the sample variance for
INT_MIN, see the refutation.  (The model does not tell -0 from 0.) -/
theorem C112_negative_partial (arr : List Dbl) (iarr : List Int) (size : Int) (h : size < 0) (hi : INT_MIN ≤ size) :
    sumArr (D := Dbl) .double arr size = .ok (.fin 0) ∧ sumArr (D := Dbl) .int iarr size = .ok 0 ∧
    meanArr .double arr size = .ok (Dbl.fin 0) ∧ meanArr .int iarr size = .ok (Dbl.fin 0) ∧
    varianceDouble arr size = .ok (Dbl.fin 0) ∧ varianceInt iarr size = .ok (Dbl.fin 0) ∧
    stddevDouble Rand.Libm.dbl.sqrt arr size = .ok (.fin 0) ∧ stddevInt Rand.Libm.dbl.sqrt iarr size = .ok (.fin 0) ∧
    (INT_MIN < size →
      sampleVarianceArr .double arr size = .ok (Dbl.fin 0) ∧ sampleVarianceArr .int iarr size = .ok (Dbl.fin 0) ∧
      sampleStddevArr Rand.Libm.dbl.sqrt .double arr size = .ok (.fin 0) ∧
      sampleStddevArr Rand.Libm.dbl.sqrt .int iarr size = .ok (.fin 0)) := by
  have hM : INT_MIN = -2147483648 := rfl
  have hI : INT_MAX = 2147483647 := rfl
  have hz : ((0 : Int) : Dbl) = .fin 0 := by decide +kernel
  have hc : ∀ n : Int, n < 0 → -2147483649 ≤ n → Dbl.fin 0 / ((n : Int) : Dbl) = .fin 0 := by
    intro n hn hn'
    rw [cast_dbl (by rw [abs_of_neg hn]; omega), div_dbl (by exact_mod_cast hn.ne), zero_div]
    decide +kernel
  have hm1 : Dbl.fin 0 - Dbl.fin 0 * Dbl.fin 0 = .fin 0 := by decide +kernel
  have hsq : Rand.Libm.dbl.sqrt (.fin 0) = .fin 0 := by
    obtain ⟨r, h1, _, h2⟩ := sqrt_small (q := 0) le_rfl fl_zero (by norm_num)
    rw [h1, h2.2 rfl]
  have s1 : sumArr (D := Dbl) .double arr size = .ok (.fin 0) := by
    unfold sumArr; rw [forArr_nonpos _ h.le]; exact congrArg Out.ok hz
  have s2 : sumArr (D := Dbl) .int iarr size = .ok 0 := by
    unfold sumArr; rw [forArr_nonpos _ h.le]; rfl
  have m1 : meanArr .double arr size = .ok (Dbl.fin 0) := by
    unfold meanArr; rw [s1, Out.ok_bind]; exact congrArg Out.ok (hc size h (by omega))
  have m2 : meanArr .int iarr size = .ok (Dbl.fin 0) := by
    unfold meanArr; rw [s2, Out.ok_bind]
    show Out.ok (((0 : Int) : Dbl) / _) = _
    rw [hz, hc size h (by omega)]
  have v1 : varianceDouble arr size = .ok (Dbl.fin 0) := by
    unfold varianceDouble
    rw [m1, Out.ok_bind, forArr_nonpos _ h.le, Out.ok_bind, hz, hc size h (by omega)]
  have v2 : varianceInt iarr size = .ok (Dbl.fin 0) := by
    unfold varianceInt
    rw [forArr_nonpos _ h.le, Out.ok_bind, m2, Out.ok_bind, hz, hc size h (by omega), hm1]
  refine ⟨s1, s2, m1, m2, v1, v2, ?_, ?_, fun hlt => ?_⟩
  · unfold stddevDouble; rw [v1, Out.ok_bind, hsq]
  · unfold stddevInt; rw [v2, Out.ok_bind, hsq]
  · have w1 : sampleVarianceArr .double arr size = .ok (Dbl.fin 0) := by
      unfold sampleVarianceArr
      rw [m1, Out.ok_bind, forArr_nonpos _ h.le, Out.ok_bind, int_ok ⟨by omega, by omega⟩, Out.ok_bind, hz,
        hc _ (by omega) (by omega)]
    have w2 : sampleVarianceArr .int iarr size = .ok (Dbl.fin 0) := by
      unfold sampleVarianceArr
      rw [m2, Out.ok_bind, forArr_nonpos _ h.le, Out.ok_bind, int_ok ⟨by omega, by omega⟩, Out.ok_bind, hz,
        hc _ (by omega) (by omega)]
    refine ⟨w1, w2, ?_, ?_⟩
    · unfold sampleStddevArr; rw [w1, Out.ok_bind, hsq]
    · unfold sampleStddevArr; rw [w2, Out.ok_bind, hsq]

/-- C112 refuted for INT_MIN: `size - 1` overflows. -/
theorem C112_int_min_refuted (arr : List Dbl) : sampleVarianceArr .double arr INT_MIN = .ub := by
  unfold sampleVarianceArr meanArr sumArr
  rw [forArr_nonpos _ (by decide), Out.ok_bind, Out.ok_bind, forArr_nonpos _ (by decide), Out.ok_bind]
  rfl

/-- C112: size 0 and empty containers: the sum is 0; the mean, the variance and the standard deviation are NaN;
the sample variance is 0.  The sample variance of a single element is NaN. -/
theorem C112_empty (arr : List Dbl) (unsigned : Bool) (q : ℚ) (hq : fl q = q) (hq' : |q| ≤ 2 ^ 1000) :
    sumArr (D := Dbl) .double arr 0 = .ok (.fin 0) ∧ meanArr .double arr 0 = .ok Dbl.nan ∧
    varianceDouble arr 0 = .ok Dbl.nan ∧ stddevDouble Rand.Libm.dbl.sqrt arr 0 = .ok Dbl.nan ∧
    sampleVarianceArr .double arr 0 = .ok (Dbl.fin 0) ∧
    meanCont .double [] = .ok Dbl.nan ∧ varianceCont .double [] = .ok Dbl.nan ∧
    sampleVarianceCont .double unsigned [] = .ok (Dbl.fin 0) ∧
    sampleVarianceArr .double [.fin q] 1 = .ok Dbl.nan := by
  have hz : ((0 : Int) : Dbl) = .fin 0 := by decide +kernel
  have h00 : Dbl.fin 0 / Dbl.fin 0 = .nan := by decide +kernel
  have s1 : sumArr (D := Dbl) .double arr 0 = .ok (.fin 0) := by
    unfold sumArr; rw [forArr_nonpos _ le_rfl]; exact congrArg Out.ok hz
  have m1 : meanArr .double arr 0 = .ok Dbl.nan := by
    unfold meanArr; rw [s1, Out.ok_bind, hz]; exact congrArg Out.ok h00
  have v1 : varianceDouble arr 0 = .ok Dbl.nan := by
    unfold varianceDouble
    rw [m1, Out.ok_bind, forArr_nonpos _ le_rfl, Out.ok_bind, hz, h00]
  refine ⟨s1, m1, v1, ?_, ?_, by decide +kernel, by decide +kernel, ?_, ?_⟩
  · unfold stddevDouble; rw [v1, Out.ok_bind]; rfl
  · unfold sampleVarianceArr
    rw [m1, Out.ok_bind, forArr_nonpos _ le_rfl, Out.ok_bind, int_ok (by decide), Out.ok_bind]
    decide +kernel
  · cases unsigned <;> decide +kernel
  · have h1 : ((1 : Int) : Dbl) = .fin 1 := by decide +kernel
    have r1 : Dbl.round q = .fin q := by rw [Geo.round_fin hq', hq]
    have hm : meanArr .double [.fin q] 1 = .ok (Dbl.fin q) := by
      unfold meanArr sumArr
      rw [forArr_eq _ _ (by simp)]
      simp only [Int.toNat_one, List.take_succ_cons, List.take_zero, List.foldlM_cons, List.foldlM_nil]
      unfold Elem.double
      show Out.ok ((((0 : Int) : Dbl) + .fin q) / ((1 : Int) : Dbl)) = _
      rw [hz, h1, add_dbl, zero_add, r1, div_dbl one_ne_zero, div_one, r1]
    unfold sampleVarianceArr
    rw [hm, Out.ok_bind, forArr_eq _ _ (by simp)]
    simp only [Int.toNat_one, List.take_succ_cons, List.take_zero, List.foldlM_cons, List.foldlM_nil]
    show Out.ok ((((0 : Int) : Dbl) + (Dbl.fin q - .fin q) * (Dbl.fin q - .fin q)) / ((0 : Int) : Dbl)) = _
    rw [sub_dbl, sub_self]
    decide +kernel

/-- C112: a size beyond the end of the array is undefined behaviour. -/
theorem C112_too_long (arr : List Dbl) (iarr : List Int) (size : Int) :
    ((arr.length : Int) < size → sumArr (D := Dbl) .double arr size = .ub ∧ meanArr (D := Dbl) .double arr size = .ub ∧
      varianceDouble arr size = .ub ∧ sampleVarianceArr (D := Dbl) .double arr size = .ub) ∧
    ((iarr.length : Int) < size → sumArr (D := Dbl) .int iarr size = .ub ∧
      varianceInt (D := Dbl) iarr size = .ub ∧ sampleVarianceArr (D := Dbl) .int iarr size = .ub) := by
  constructor
  · intro h
    have s : sumArr (D := Dbl) .double arr size = .ub := forArr_ub arr size h _ (fun s x => .inl ⟨_, rfl⟩) _
    have m : meanArr (D := Dbl) .double arr size = .ub := by unfold meanArr; rw [s]; rfl
    refine ⟨s, m, ?_, ?_⟩
    · unfold varianceDouble; rw [m]; rfl
    · unfold sampleVarianceArr; rw [m]; rfl
  · intro h
    have hi : ∀ a : Int, (∃ t, int a = .ok t) ∨ int a = .ub := by
      intro a
      unfold int
      split_ifs
      · exact .inl ⟨_, rfl⟩
      · exact .inr rfl
    have s : sumArr (D := Dbl) .int iarr size = .ub := forArr_ub iarr size h _ (fun s x => hi _) _
    have m : meanArr (D := Dbl) .int iarr size = .ub := by unfold meanArr; rw [s]; rfl
    refine ⟨s, ?_, ?_⟩
    · unfold varianceInt
      rw [forArr_ub iarr size h]
      · rfl
      · intro s x
        rcases hi (x * x) with ⟨t, ht⟩ | ht <;> rw [ht]
        · exact .inl ⟨_, rfl⟩
        · exact .inr rfl
    · unfold sampleVarianceArr; rw [m]; rfl

example : INT_MIN < -3 ∧ fl tenth = tenth ∧ |tenth| ≤ 2 ^ 1000 := by decide +kernel

end Stats
