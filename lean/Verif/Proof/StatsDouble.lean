import Verif.Proof.Stats
import Verif.Proof.RandomDouble
import Verif.Proof.DoubleReal
import Verif.Model.RandomCont
import Mathlib.Tactic.GCongr

/-! # Lemmas about the statistics in binary64 -/

namespace Stats
open Cpp

/-- the relative error of one rounding -/
def u : ℚ := 1 / 2 ^ 53

theorem u_pos : 0 < u := by unfold u; norm_num
theorem u_le : u ≤ 1 / 4 := by unfold u; norm_num

theorem fl_rel {x : ℚ} (h : 1 / 2 ^ 200 ≤ x) : |fl x - x| ≤ u * x := by
  have hx0 : (0 : ℚ) ≤ x := le_trans (by positivity) h
  have hn : (2 : ℚ) ^ (-1022 : Int) ≤ 1 / 2 ^ 200 := by
    rw [show (1 : ℚ) / 2 ^ 200 = 2 ^ (-200 : Int) by rw [zpow_neg, one_div, zpow_ofNat]]
    exact zpow_le_zpow_right₀ (by norm_num) (by norm_num)
  have := flPos_rel (x := x) (hn.trans h)
  rw [show (2 : ℚ) ^ (-53 : Int) = u by unfold u; rw [zpow_neg, one_div, zpow_ofNat]] at this
  unfold fl
  rwa [if_neg (not_lt.2 hx0)]

theorem fl_intZ {a : Int} (h : |a| ≤ 2 ^ 53) : fl (a : ℚ) = a := by
  have := fl_exact (k := 0) h (by norm_num)
  simpa using this

theorem maxDouble_ge : (2 : ℚ) ^ 200 ≤ Rand.maxDouble := by
  unfold Rand.maxDouble
  calc (2 : ℚ) ^ 200 ≤ 1 * 2 ^ 971 := by rw [one_mul]; exact pow_le_pow_right₀ (by norm_num) (by norm_num)
    _ ≤ _ := by gcongr; norm_num

theorem maxDouble_ge' : 4 * (2 : ℚ) ^ 1000 ≤ Rand.maxDouble := by
  unfold Rand.maxDouble
  rw [show (2 : ℚ) ^ 1000 = 2 ^ 29 * 2 ^ 971 by rw [← pow_add], ← mul_assoc]
  apply mul_le_mul_of_nonneg_right _ (by positivity)
  norm_num

theorem round_small {x : ℚ} (h : |x| ≤ 2 ^ 200) : Dbl.round x = .fin (fl x) :=
  Rand.round_fin (h.trans maxDouble_ge)

theorem cast_dbl {a : Int} (h : |a| ≤ 2 ^ 53) : ((a : Int) : Dbl) = .fin a := by
  show Dbl.round (a : ℚ) = _
  have h' : |(a : ℚ)| ≤ 2 ^ 53 := by exact_mod_cast h
  rw [round_small (h'.trans (pow_le_pow_right₀ (by norm_num) (by norm_num))), fl_intZ h]

theorem div_dbl {a b : ℚ} (hb : b ≠ 0) : Dbl.fin a / Dbl.fin b = Dbl.round (a / b) := by
  show Dbl.div _ _ = _
  unfold Dbl.div
  dsimp only
  rw [if_neg hb]

theorem mul_dbl (a b : ℚ) : Dbl.fin a * Dbl.fin b = Dbl.round (a * b) := by
  show Dbl.mul _ _ = _
  unfold Dbl.mul
  rfl
theorem add_dbl (a b : ℚ) : Dbl.fin a + Dbl.fin b = Dbl.round (a + b) := by
  show Dbl.add _ _ = _
  unfold Dbl.add
  rfl
theorem sub_dbl (a b : ℚ) : Dbl.fin a - Dbl.fin b = Dbl.round (a - b) := by
  show Dbl.round (a + -b) = _
  rw [sub_eq_add_neg]

/-! ### Spread of integers -/

/-- `n Σ x² - (Σ x)²` is at least `n - 1` if the integers are not all equal -/
theorem spread (xs : List Int) (h : ¬ ∀ x ∈ xs, ∀ y ∈ xs, x = y) :
    (xs.length : Int) - 1 ≤ xs.length * (xs.map fun x => x * x).sum - xs.sum * xs.sum := by
  induction xs with
  | nil => simp at h
  | cons z xs ih =>
    have key : ∀ ys : List Int, (ys.map fun x => (x - z) * (x - z)).sum =
        (ys.map fun x => x * x).sum - 2 * z * ys.sum + ys.length * (z * z) := by
      intro ys
      induction ys with
      | nil => simp
      | cons y ys ih => simp only [List.map_cons, List.sum_cons, ih, List.length_cons]; push_cast; ring
    have hnn : ∀ ys : List Int, 0 ≤ (ys.map fun x => (x - z) * (x - z)).sum := by
      intro ys
      induction ys with
      | nil => simp
      | cons y ys ih => simp only [List.map_cons, List.sum_cons]; nlinarith [mul_self_nonneg (y - z)]
    have hstep : ((z :: xs).length : Int) * ((z :: xs).map fun x => x * x).sum - (z :: xs).sum * (z :: xs).sum =
        (xs.length * (xs.map fun x => x * x).sum - xs.sum * xs.sum) + (xs.map fun x => (x - z) * (x - z)).sum := by
      rw [key]
      simp only [List.map_cons, List.sum_cons, List.length_cons]
      push_cast
      ring
    rw [hstep]
    by_cases he : ∀ x ∈ xs, ∀ y ∈ xs, x = y
    · cases xs with
      | nil => simp at h
      | cons a ys =>
        have hrep : ∀ x ∈ a :: ys, x = a := fun x hx => he x hx a (by simp)
        have haz : a ≠ z := by
          intro haz
          apply h
          intro x hx y hy
          have h1 : ∀ t ∈ z :: a :: ys, t = z := by
            intro t ht
            rcases List.mem_cons.1 ht with rfl | ht
            · rfl
            · rw [hrep t ht, haz]
          rw [h1 x hx, h1 y hy]
        obtain ⟨n, hn⟩ : ∃ n, a :: ys = List.replicate n a := ⟨_, List.eq_replicate_iff.2 ⟨rfl, hrep⟩⟩
        rw [hn]
        simp only [List.length_cons, List.length_replicate, List.map_replicate, List.sum_replicate, nsmul_eq_mul]
        have hd : 1 ≤ (a - z) * (a - z) := by
          have : a - z ≠ 0 := by omega
          rcases lt_or_gt_of_ne this with h1 | h1 <;> nlinarith
        push_cast
        nlinarith
    · have h1 := ih he
      have h2 : 1 ≤ (xs.map fun x => (x - z) * (x - z)).sum := by
        have hex : ∃ x ∈ xs, x ≠ z := by
          by_contra hc
          push Not at hc
          exact he fun x hx y hy => (hc x hx).trans (hc y hy).symm
        obtain ⟨x, hx, hxz⟩ := hex
        clear hstep h1 he ih h
        induction xs with
        | nil => simp at hx
        | cons y ys ih =>
          simp only [List.map_cons, List.sum_cons]
          rcases List.mem_cons.1 hx with rfl | hx
          · have := hnn ys
            have hd : 1 ≤ (x - z) * (x - z) := by
              have : x - z ≠ 0 := by omega
              rcases lt_or_gt_of_ne this with h1 | h1 <;> nlinarith
            omega
          · have := ih hx
            nlinarith [mul_self_nonneg (y - z)]
      rw [List.length_cons]
      push_cast
      omega

theorem sum_sq_ge (xs : List Int) : xs.sum * xs.sum ≤ xs.length * (xs.map fun x => x * x).sum := by
  by_cases h : ∀ x ∈ xs, ∀ y ∈ xs, x = y
  · cases xs with
    | nil => simp
    | cons a ys =>
      have hrep : a :: ys = List.replicate (ys.length + 1) a :=
        List.eq_replicate_iff.2 ⟨rfl, fun x hx => h x hx a (by simp)⟩
      rw [hrep]
      simp only [List.length_replicate, List.map_replicate, List.sum_replicate, nsmul_eq_mul]
      apply le_of_eq
      ring
  · have := spread xs h
    cases xs with
    | nil => simp
    | cons a ys =>
      rw [List.length_cons] at this ⊢
      push_cast at this ⊢
      have h0 : (0 : Int) ≤ ys.length := by positivity
      omega

/-! ### The sum of the squares -/

/-- the loop of `variance(const int*, int)` -/
def sqLoop (xs : List Int) (s : Dbl) : Out Dbl :=
  xs.foldlM (fun (s : Dbl) x => do
    let p ← int (x * x)
    Out.ok (s + ((p : Int) : Dbl))) s

theorem sqLoop_int (xs : List Int) (s t : Dbl) (h : sqLoop xs s = .ok t) : ∀ x ∈ xs, IsInt (x * x) := by
  induction xs generalizing s with
  | nil => simp
  | cons x xs ih =>
    unfold sqLoop at h
    rw [List.foldlM_cons] at h
    obtain ⟨s', h1, h2⟩ := Out.bind_eq_ok.1 h
    obtain ⟨p, hp, _⟩ := Out.bind_eq_ok.1 h1
    intro y hy
    rcases List.mem_cons.1 hy with rfl | hy
    · exact (int_eq_ok.1 hp).1
    · exact ih s' h2 y hy

theorem sqLoop_eq (xs : List Int) (hq : ∀ x ∈ xs, IsInt (x * x)) (hl : xs.length ≤ 2 ^ 31) :
    ∃ r : ℚ, sqLoop xs (Dbl.fin 0) = .ok (.fin r) ∧ fl r = r ∧ 0 ≤ r ∧ r ≤ xs.length * 2 ^ 31 ∧
      (((xs.map fun x => x * x).sum : Int) ≤ 2 ^ 53 → r = ((xs.map fun x => x * x).sum : Int)) ∧
      (2 ^ 53 ≤ ((xs.map fun x => x * x).sum : Int) → 2 ^ 53 ≤ r) := by
  induction xs using List.reverseRecOn with
  | nil => exact ⟨0, rfl, fl_zero, le_rfl, by simp, by simp, by simp⟩
  | append_singleton xs x ih =>
    rw [List.length_append, List.length_singleton] at hl
    obtain ⟨r, h1, h2, h3, h4, h5, h6⟩ := ih (fun y hy => hq y (by simp [hy])) (by omega)
    have hxi := hq x (by simp)
    have hx0 : 0 ≤ x * x := mul_self_nonneg x
    have hx1 : x * x ≤ 2 ^ 31 := by
      have := hxi.2
      have hI : INT_MAX = 2147483647 := rfl
      omega
    have hS0 : 0 ≤ ((xs.map fun x => x * x).sum : Int) := by
      apply List.sum_nonneg
      intro y hy
      obtain ⟨z, _, rfl⟩ := List.mem_map.1 hy
      exact mul_self_nonneg z
    have hx0' : (0 : ℚ) ≤ ((x * x : Int) : ℚ) := by exact_mod_cast hx0
    have hx1' : ((x * x : Int) : ℚ) ≤ 2 ^ 31 := by exact_mod_cast hx1
    have hn : ((xs.length : Nat) : ℚ) + 1 ≤ 2 ^ 31 := by exact_mod_cast hl
    have hb : r + ((x * x : Int) : ℚ) ≤ ((xs.length : Nat) + 1 : ℚ) * 2 ^ 31 := by linarith
    have hbig : ((xs.length : Nat) + 1 : ℚ) * 2 ^ 31 ≤ 2 ^ 62 := by
      calc ((xs.length : Nat) + 1 : ℚ) * 2 ^ 31 ≤ 2 ^ 31 * 2 ^ 31 := by gcongr
        _ = 2 ^ 62 := by norm_num
    have hsmall : |r + ((x * x : Int) : ℚ)| ≤ 2 ^ 200 := by
      rw [abs_of_nonneg (by linarith)]
      exact (hb.trans hbig).trans (pow_le_pow_right₀ (by norm_num) (by norm_num))
    have hcast : ((x * x : Int) : Dbl) = .fin ((x * x : Int) : ℚ) :=
      cast_dbl (by rw [abs_of_nonneg hx0]; exact hx1.trans (by norm_num))
    refine ⟨fl (r + ((x * x : Int) : ℚ)), ?_, fl_idem _, fl_nonneg (by linarith), ?_, ?_, ?_⟩
    · unfold sqLoop
      rw [List.foldlM_append]
      unfold sqLoop at h1
      rw [h1, Out.ok_bind, List.foldlM_cons, int_ok hxi, Out.ok_bind, Out.ok_bind, List.foldlM_nil, hcast, add_dbl,
        round_small hsmall]
      rfl
    · have e1 : fl (((xs.length : Nat) + 1 : ℚ) * 2 ^ 31) = ((xs.length : Nat) + 1 : ℚ) * 2 ^ 31 := by
        have := fl_exact (m := (xs.length : Int) + 1) (k := 31) (by rw [abs_of_nonneg (by omega)]; omega) (by norm_num)
        push_cast at this
        exact_mod_cast this
      have := fl_mono hb
      rw [e1] at this
      rw [List.length_append, List.length_singleton, Nat.cast_add, Nat.cast_one]
      exact this
    · intro hs
      simp only [List.map_append, List.map_cons, List.map_nil, List.sum_append, List.sum_cons, List.sum_nil,
        add_zero] at hs ⊢
      have := h5 (by omega)
      rw [this, ← Int.cast_add, fl_intZ (by rw [abs_of_nonneg (by omega)]; exact hs)]
    · intro hs
      simp only [List.map_append, List.map_cons, List.map_nil, List.sum_append, List.sum_cons, List.sum_nil,
        add_zero] at hs
      have e53 : fl ((2 : ℚ) ^ 53) = 2 ^ 53 := by
        have := fl_intZ (a := 2 ^ 53) (by norm_num)
        exact_mod_cast this
      have hge : (2 : ℚ) ^ 53 ≤ r + ((x * x : Int) : ℚ) := by
        rcases le_total ((xs.map fun x => x * x).sum : Int) (2 ^ 53) with hc | hc
        · rw [h5 hc]
          exact_mod_cast hs
        · linarith [h6 hc]
      have := fl_mono hge
      rwa [e53] at this

theorem sum_int_range (xs : List Int) (T : Int) (h : sumCont (D := Dbl) .int xs = .ok T) :
    T = xs.sum ∧ IsInt T := by
  have key : ∀ (ys : List Int) (s t : Int), IsInt s → ys.foldlM (fun s x => int (s + x)) s = .ok t →
      t = s + ys.sum ∧ IsInt t := by
    intro ys
    induction ys with
    | nil =>
      intro s t hs h
      cases h
      simpa using hs
    | cons y ys ih =>
      intro s t _ h
      rw [List.foldlM_cons] at h
      obtain ⟨s', h1, h2⟩ := Out.bind_eq_ok.1 h
      obtain ⟨h3, h4⟩ := int_eq_ok.1 h1
      obtain ⟨e1, e2⟩ := ih s' t (h4 ▸ h3) h2
      exact ⟨by rw [e1, ← h4, List.sum_cons]; ring, e2⟩
  obtain ⟨h1, h2⟩ := key xs 0 T (by decide) h
  exact ⟨by rw [h1, zero_add], h2⟩

/-! ### Variance of integers -/

theorem rel_div {a b : ℚ} (h : |a - b| ≤ u * b) : (1 - u) * b ≤ a ∧ a ≤ (1 + u) * b := by
  have := abs_le.1 h
  constructor <;> linarith [this.1, this.2]

/-- a positive multiple of the least double is not rounded to 0 -/
theorem fl_pos_of_doubles {a b : ℚ} (ha : fl a = a) (hb : fl b = b) (h : b < a) : 0 < fl (a - b) := by
  obtain ⟨m, k, _, hk, hm⟩ := fl_repr a
  obtain ⟨m', k', _, hk', hm'⟩ := fl_repr b
  rw [ha] at hm
  rw [hb] at hm'
  have e1 : a = ((m * 2 ^ (k + 1074).toNat : Int) : ℚ) * 2 ^ (-1074 : Int) := by
    rw [hm]
    push_cast
    rw [mul_assoc, ← zpow_natCast, ← zpow_add₀ (by norm_num)]
    congr 2
    omega
  have e2 : b = ((m' * 2 ^ (k' + 1074).toNat : Int) : ℚ) * 2 ^ (-1074 : Int) := by
    rw [hm']
    push_cast
    rw [mul_assoc, ← zpow_natCast, ← zpow_add₀ (by norm_num)]
    congr 2
    omega
  generalize m * 2 ^ (k + 1074).toNat = x at e1
  generalize m' * 2 ^ (k' + 1074).toNat = y at e2
  have hp : (0 : ℚ) < 2 ^ (-1074 : Int) := by positivity
  have hxy : y < x := by
    rw [e1, e2] at h
    have := lt_of_mul_lt_mul_right h hp.le
    exact_mod_cast this
  have hge : (2 : ℚ) ^ (-1074 : Int) ≤ a - b := by
    rw [e1, e2, ← sub_mul]
    have : (1 : ℚ) ≤ (x : ℚ) - y := by
      have : y + 1 ≤ x := hxy
      have : ((y + 1 : Int) : ℚ) ≤ x := by exact_mod_cast this
      push_cast at this
      linarith
    nlinarith
  have h1 : fl ((2 : ℚ) ^ (-1074 : Int)) = 2 ^ (-1074 : Int) := by
    have := fl_exact (m := 1) (k := -1074) (by norm_num) (by norm_num)
    simpa using this
  have := fl_mono hge
  rw [h1] at this
  linarith

/-- what the array version of `variance` computes from the sum of squares `r` and the sum `T` -/
def varOf (r : ℚ) (T n : Int) : ℚ := fl (fl (r / n) - fl (fl ((T : ℚ) / n) * fl ((T : ℚ) / n)))

theorem varianceInt_val (arr : List Int) {size : Int} (h0 : 0 < size) (h : size ≤ arr.length) (hi : size ≤ INT_MAX)
    (v : Dbl) (hv : varianceInt arr size = .ok v) :
    let xs := arr.take size.toNat
    (∀ x ∈ xs, IsInt (x * x)) ∧ IsInt xs.sum ∧
    ∃ r : ℚ, v = .fin (varOf r xs.sum size) ∧ fl r = r ∧ 0 ≤ r ∧
      (((xs.map fun x => x * x).sum : Int) ≤ 2 ^ 53 → r = ((xs.map fun x => x * x).sum : Int)) ∧
      (2 ^ 53 ≤ ((xs.map fun x => x * x).sum : Int) → 2 ^ 53 ≤ r) ∧ varOf r xs.sum size ≤ 2 ^ 62 := by
  intro xs
  have hI : INT_MAX = 2147483647 := rfl
  have hM : INT_MIN = -2147483648 := rfl
  have hl : (xs.length : Int) = size := len_take arr h0.le h
  rw [varianceInt_eq arr h0.le h] at hv
  obtain ⟨s, hs, hv⟩ := Out.bind_eq_ok.1 hv
  have hz : ((0 : Int) : Dbl) = .fin 0 := by decide +kernel
  rw [hz] at hs
  have hs' : sqLoop xs (.fin 0) = .ok s := hs
  have hq := sqLoop_int xs _ _ hs'
  obtain ⟨r, h1, h2, h3, h4, h5, h6⟩ := sqLoop_eq xs hq (by omega)
  rw [h1] at hs'
  cases hs'
  obtain ⟨m, hm, hv⟩ := Out.bind_eq_ok.1 hv
  obtain ⟨T, hT, hm⟩ := Out.bind_eq_ok.1 hm
  cases hm
  obtain ⟨rfl, hTi⟩ := sum_int_range xs T hT
  suffices hsuf : _ ∧ varOf r xs.sum size ≤ 2 ^ 62 from ⟨hq, hTi, r, hsuf.1, h2, h3, h5, h6, hsuf.2⟩
  have hn : ((size : Int) : Dbl) = .fin size := cast_dbl (by rw [abs_of_pos h0]; omega)
  have hTb : |xs.sum| ≤ 2 ^ 31 := by rw [abs_le]; have := hTi.1; have := hTi.2; omega
  have hTc : ((xs.sum : Int) : Dbl) = .fin xs.sum := cast_dbl (hTb.trans (by norm_num))
  have hn0 : (size : ℚ) ≠ 0 := by exact_mod_cast h0.ne'
  have hn1 : (1 : ℚ) ≤ size := by exact_mod_cast h0
  have p200 : ∀ k : Nat, k ≤ 200 → (2 : ℚ) ^ k ≤ 2 ^ 200 := fun k hk => pow_le_pow_right₀ (by norm_num) hk
  have hr62 : r ≤ 2 ^ 62 := by
    refine h4.trans ?_
    have : (xs.length : ℚ) ≤ 2 ^ 31 := by
      have : (xs.length : Int) ≤ 2 ^ 31 := by omega
      exact_mod_cast this
    calc (xs.length : ℚ) * 2 ^ 31 ≤ 2 ^ 31 * 2 ^ 31 := by gcongr
      _ = 2 ^ 62 := by norm_num
  have hA0 : 0 ≤ r / size := div_nonneg h3 (by linarith)
  have hA1 : r / size ≤ 2 ^ 62 := (div_le_self h3 hn1).trans hr62
  have f62 : fl ((2 : ℚ) ^ 62) = 2 ^ 62 := by
    have := fl_exact (m := 1) (k := 62) (by norm_num) (by norm_num)
    simpa using this
  have f31 : fl ((2 : ℚ) ^ 31) = 2 ^ 31 := by
    have := fl_exact (m := 1) (k := 31) (by norm_num) (by norm_num)
    simpa using this
  have hA : Dbl.fin r / ((size : Int) : Dbl) = .fin (fl (r / size)) := by
    rw [hn, div_dbl hn0, round_small]
    rw [abs_of_nonneg hA0]
    exact hA1.trans (p200 62 (by norm_num))
  have hfA0 : 0 ≤ fl (r / size) := fl_nonneg hA0
  have hfA1 : fl (r / size) ≤ 2 ^ 62 := by have := fl_mono hA1; rwa [f62] at this
  have hTq : |(xs.sum : ℚ) / size| ≤ 2 ^ 31 := by
    rw [abs_div, abs_of_pos (show (0 : ℚ) < size by linarith)]
    refine (div_le_self (abs_nonneg _) hn1).trans ?_
    exact_mod_cast hTb
  have hfm : |fl ((xs.sum : ℚ) / size)| ≤ 2 ^ 31 := by
    rw [Rand.abs_fl]
    have := fl_mono hTq
    rwa [f31] at this
  have hm : ((xs.sum : Int) : Dbl) / ((size : Int) : Dbl) = .fin (fl ((xs.sum : ℚ) / size)) := by
    rw [hn, hTc, div_dbl hn0, round_small (hTq.trans (p200 31 (by norm_num)))]
  have hmm : fl ((xs.sum : ℚ) / size) * fl ((xs.sum : ℚ) / size) ≤ 2 ^ 62 := by
    have := mul_le_mul hfm hfm (abs_nonneg _) (by positivity)
    rw [abs_mul_abs_self] at this
    calc _ ≤ _ := this
      _ = _ := by norm_num
  have hfmm : fl (fl ((xs.sum : ℚ) / size) * fl ((xs.sum : ℚ) / size)) ≤ 2 ^ 62 := by
    have := fl_mono hmm
    rwa [f62] at this
  have hfmm0 : 0 ≤ fl (fl ((xs.sum : ℚ) / size) * fl ((xs.sum : ℚ) / size)) := fl_nonneg (mul_self_nonneg _)
  have hfinal : Dbl.fin r / ((size : Int) : Dbl) -
      ((xs.sum : Int) : Dbl) / ((size : Int) : Dbl) * (((xs.sum : Int) : Dbl) / ((size : Int) : Dbl)) =
      .fin (varOf r xs.sum size) := by
    rw [hA, hm, mul_dbl, round_small, sub_dbl, round_small]
    · rfl
    · rw [abs_le]
      have := p200 62 (by norm_num)
      constructor <;> linarith
    · rw [abs_of_nonneg (mul_self_nonneg _)]
      exact hmm.trans (p200 62 (by norm_num))
  have hbound : varOf r xs.sum size ≤ 2 ^ 62 := by
    rw [← f62]
    exact fl_mono (by linarith)
  refine ⟨?_, hbound⟩
  have e := Out.ok.inj hv
  rw [← e]
  have hc : (Elem.int : Elem Int Dbl).conv xs.sum = ((xs.sum : Int) : Dbl) := rfl
  rw [hc, hl]
  exact hfinal

theorem sum_le_mul (xs : List Int) (B : Int) (h : ∀ x ∈ xs, x * x ≤ B) :
    (xs.map fun x => x * x).sum ≤ xs.length * B := by
  induction xs with
  | nil => simp
  | cons x xs ih =>
    simp only [List.map_cons, List.sum_cons, List.length_cons]
    have h1 := ih fun y hy => h y (by simp [hy])
    have h2 := h x (by simp)
    push_cast
    linarith

/-- the square of the rounded mean, rounded -/
theorem mean_sq (T n : Int) (hn : 0 < n) (hn' : n ≤ 2 ^ 31) :
    (1 - u) ^ 3 * ((T : ℚ) / n) ^ 2 ≤ fl (fl ((T : ℚ) / n) * fl ((T : ℚ) / n)) ∧
    fl (fl ((T : ℚ) / n) * fl ((T : ℚ) / n)) ≤ (1 + u) ^ 3 * ((T : ℚ) / n) ^ 2 := by
  have hu := u_le
  have hu0 := u_pos
  have hnq : (0 : ℚ) < n := by exact_mod_cast hn
  have habs : fl ((T : ℚ) / n) * fl ((T : ℚ) / n) = fl |(T : ℚ) / n| * fl |(T : ℚ) / n| := by
    rw [← Rand.abs_fl, abs_mul_abs_self]
  have hsq : ((T : ℚ) / n) ^ 2 = |(T : ℚ) / n| ^ 2 := (sq_abs _).symm
  rw [habs, hsq]
  rcases eq_or_ne T 0 with rfl | hT
  · simp [fl_zero]
  have ht : (1 : ℚ) / 2 ^ 31 ≤ |(T : ℚ) / n| := by
    rw [abs_div, abs_of_pos hnq]
    have h1 : (1 : ℚ) ≤ |(T : ℚ)| := by
      have : (1 : Int) ≤ |T| := Int.one_le_abs hT
      exact_mod_cast this
    have h2 : (n : ℚ) ≤ 2 ^ 31 := by exact_mod_cast hn'
    gcongr
  generalize |(T : ℚ) / n| = t at ht ⊢
  have ht0 : (0 : ℚ) < t := lt_of_lt_of_le (by norm_num) ht
  obtain ⟨a1, a2⟩ := rel_div (fl_rel (x := t) (le_trans (by norm_num) ht))
  have a0 : 0 < (1 - u) * t := mul_pos (by linarith) ht0
  have b1 : ((1 - u) * t) * ((1 - u) * t) ≤ fl t * fl t := mul_le_mul a1 a1 a0.le (a0.le.trans a1)
  have b2 : fl t * fl t ≤ ((1 + u) * t) * ((1 + u) * t) := mul_le_mul a2 a2 (a0.le.trans a1) (by positivity)
  have c0 : (1 : ℚ) / 2 ^ 200 ≤ fl t * fl t := by
    refine le_trans ?_ b1
    have : (1 : ℚ) / 2 ^ 32 ≤ (1 - u) * t := by
      calc (1 : ℚ) / 2 ^ 32 ≤ (3 / 4) * (1 / 2 ^ 31) := by norm_num
        _ ≤ (1 - u) * t := by
          apply mul_le_mul _ ht (by norm_num) (by linarith)
          linarith
    calc (1 : ℚ) / 2 ^ 200 ≤ (1 / 2 ^ 32) * (1 / 2 ^ 32) := by norm_num
      _ ≤ _ := mul_le_mul this this (by norm_num) a0.le
  obtain ⟨c1, c2⟩ := rel_div (fl_rel c0)
  constructor
  · calc (1 - u) ^ 3 * t ^ 2 = (1 - u) * (((1 - u) * t) * ((1 - u) * t)) := by ring
      _ ≤ (1 - u) * (fl t * fl t) := mul_le_mul_of_nonneg_left b1 (by linarith)
      _ ≤ _ := c1
  · calc fl (fl t * fl t) ≤ (1 + u) * (fl t * fl t) := c2
      _ ≤ (1 + u) * (((1 + u) * t) * ((1 + u) * t)) := mul_le_mul_of_nonneg_left b2 (by linarith)
      _ = _ := by ring

/-- The computed variance of integers is positive unless they are all equal. -/
theorem varOf_pos (xs : List Int) (n : Int) (hn : (xs.length : Int) = n) (hi : n ≤ INT_MAX)
    (hq : ∀ x ∈ xs, IsInt (x * x)) (hT : IsInt xs.sum) (r : ℚ)
    (h5 : ((xs.map fun x => x * x).sum : Int) ≤ 2 ^ 53 → r = ((xs.map fun x => x * x).sum : Int))
    (h6 : 2 ^ 53 ≤ ((xs.map fun x => x * x).sum : Int) → 2 ^ 53 ≤ r)
    (hne : ¬ ∀ x ∈ xs, ∀ y ∈ xs, x = y) : 0 < varOf r xs.sum n := by
  have hI : INT_MAX = 2147483647 := rfl
  have hM : INT_MIN = -2147483648 := rfl
  have hn2 : 2 ≤ n := by
    match xs, hne, hn with
    | [], hne, _ => simp at hne
    | [x], hne, _ => simp at hne
    | x :: y :: ys, _, hn => rw [List.length_cons, List.length_cons] at hn; push_cast at hn; omega
  unfold varOf
  apply fl_pos_of_doubles (fl_idem _) (fl_idem _)
  obtain ⟨_, hB⟩ := mean_sq xs.sum n (by omega) (by omega)
  have hTb : |xs.sum| ≤ 2 ^ 31 := by rw [abs_le]; have := hT.1; have := hT.2; omega
  have hnq : (0 : ℚ) < n := by exact_mod_cast (by omega : 0 < n)
  have hnq2 : (2 : ℚ) ≤ n := by exact_mod_cast hn2
  have hT2 : ((xs.sum : Int) : ℚ) ^ 2 ≤ 2 ^ 62 := by
    rw [← sq_abs]
    have : |((xs.sum : Int) : ℚ)| ≤ 2 ^ 31 := by exact_mod_cast hTb
    calc |((xs.sum : Int) : ℚ)| ^ 2 ≤ (2 ^ 31) ^ 2 := by gcongr
      _ = 2 ^ 62 := by norm_num
  refine lt_of_le_of_lt hB ?_
  have hspread := spread xs hne
  have hSle := sum_le_mul xs (2 ^ 31) fun x hx => by have := (hq x hx).2; omega
  rw [hn] at hspread hSle
  have hCS : xs.sum * xs.sum ≤ n * (xs.map fun x => x * x).sum := by omega
  rcases le_total ((xs.map fun x => x * x).sum : Int) (2 ^ 53) with hc | hc
  · rw [h5 hc]
    generalize ((xs.map fun x => x * x).sum : Int) = S at *
    generalize xs.sum = T at *
    have hS1 : 1 ≤ S := by
      by_contra hcon
      have : n * S ≤ 0 := by nlinarith
      nlinarith [mul_self_nonneg T]
    have hS1q : (1 : ℚ) ≤ S := by exact_mod_cast hS1
    have hsp : (n : ℚ) - 1 ≤ n * S - T ^ 2 := by
      have : ((n - 1 : Int) : ℚ) ≤ ((n * S - T * T : Int) : ℚ) := by exact_mod_cast hspread
      push_cast at this
      linarith [sq (T : ℚ)]
    have hA : (1 - u) * ((S : ℚ) / n) ≤ fl ((S : ℚ) / n) := by
      refine (rel_div (fl_rel (x := (S : ℚ) / n) ?_)).1
      have : (n : ℚ) ≤ 2 ^ 31 := by exact_mod_cast (by omega : n ≤ 2 ^ 31)
      calc (1 : ℚ) / 2 ^ 200 ≤ 1 / 2 ^ 31 := by norm_num
        _ ≤ 1 / (n : ℚ) := one_div_le_one_div_of_le hnq this
        _ ≤ (S : ℚ) / n := by gcongr
    refine lt_of_lt_of_le ?_ hA
    have e1 : (1 + u) ^ 3 * ((T : ℚ) / n) ^ 2 = ((1 + u) ^ 3 * T ^ 2) / n ^ 2 := by field_simp
    have e2 : (1 - u) * ((S : ℚ) / n) = ((1 - u) * (n * S)) / n ^ 2 := by field_simp
    rw [e1, e2, div_lt_div_iff_of_pos_right (by positivity)]
    have hT0 : (0 : ℚ) ≤ (T : ℚ) ^ 2 := sq_nonneg _
    have h7 : (1 + u) ^ 3 * (T : ℚ) ^ 2 - (1 - u) * T ^ 2 ≤ 5 / 2 ^ 53 * T ^ 2 := by
      rw [← sub_mul]
      apply mul_le_mul_of_nonneg_right _ hT0
      unfold u
      norm_num
    have h8 : (5 : ℚ) / 2 ^ 53 * T ^ 2 < (1 - u) * (n - 1) := by
      have hu9 : (9 : ℚ) / 10 ≤ 1 - u := by unfold u; norm_num
      rcases le_or_gt n 4096 with hn4 | hn4
      · have hn4q : (n : ℚ) ≤ 4096 := by exact_mod_cast hn4
        have h9 : (T : ℚ) ^ 2 ≤ n * (n * 2 ^ 31) := by
          have a : T * T ≤ n * (n * 2 ^ 31) := hCS.trans (by gcongr)
          have : ((T * T : Int) : ℚ) ≤ ((n * (n * 2 ^ 31) : Int) : ℚ) := by exact_mod_cast a
          push_cast at this
          linarith [sq (T : ℚ)]
        have h10 : (T : ℚ) ^ 2 ≤ n * (4096 * 2 ^ 31) := h9.trans (by gcongr)
        have h11 : (5 : ℚ) / 2 ^ 53 * (T : ℚ) ^ 2 ≤ (n : ℚ) / 100 := by
          calc (5 : ℚ) / 2 ^ 53 * (T : ℚ) ^ 2 ≤ 5 / 2 ^ 53 * ((n : ℚ) * (4096 * 2 ^ 31)) := by gcongr
            _ = (n : ℚ) * (5 / 2 ^ 10) := by ring
            _ ≤ (n : ℚ) / 100 := by linarith
        have : (9 : ℚ) / 10 * (n - 1) ≤ (1 - u) * (n - 1) := mul_le_mul_of_nonneg_right hu9 (by linarith)
        linarith
      · have hn4q : (4097 : ℚ) ≤ n := by exact_mod_cast hn4
        have h11 : (5 : ℚ) / 2 ^ 53 * T ^ 2 ≤ 2560 := by
          calc (5 : ℚ) / 2 ^ 53 * (T : ℚ) ^ 2 ≤ 5 / 2 ^ 53 * 2 ^ 62 := by gcongr
            _ = 2560 := by norm_num
        have : (9 : ℚ) / 10 * (n - 1) ≤ (1 - u) * (n - 1) := mul_le_mul_of_nonneg_right hu9 (by linarith)
        linarith
    have h12 : (1 - u) * ((T : ℚ) ^ 2 + (n - 1)) ≤ (1 - u) * (n * S) :=
      mul_le_mul_of_nonneg_left (by linarith) (by unfold u; norm_num)
    nlinarith
  · have hr53 := h6 hc
    have hn22 : (2 : ℚ) ^ 22 ≤ n := by
      have : (2 : Int) ^ 22 ≤ n := by omega
      exact_mod_cast this
    have hn31 : (n : ℚ) ≤ 2 ^ 31 := by exact_mod_cast (by omega : n ≤ 2 ^ 31)
    have f22 : fl ((2 : ℚ) ^ 22) = 2 ^ 22 := by
      have := fl_exact (m := 1) (k := 22) (by norm_num) (by norm_num)
      simpa using this
    have hA : (2 : ℚ) ^ 22 ≤ fl (r / n) := by
      rw [← f22]
      apply fl_mono
      rw [le_div_iff₀ hnq]
      calc (2 : ℚ) ^ 22 * n ≤ 2 ^ 22 * 2 ^ 31 := by gcongr
        _ = 2 ^ 53 := by norm_num
        _ ≤ r := hr53
    refine lt_of_lt_of_le ?_ hA
    rw [div_pow]
    have h13 : ((xs.sum : Int) : ℚ) ^ 2 / n ^ 2 ≤ 2 ^ 62 / (2 ^ 22) ^ 2 := by gcongr
    calc (1 + u) ^ 3 * (((xs.sum : Int) : ℚ) ^ 2 / n ^ 2) ≤ (1 + u) ^ 3 * (2 ^ 62 / (2 ^ 22) ^ 2) := by
          gcongr
          unfold u
          norm_num
      _ < 2 ^ 22 := by unfold u; norm_num

/-- The computed variance of equal integers is 0. -/
theorem varOf_zero (xs : List Int) (n : Int) (hn0 : 0 < n) (hn : (xs.length : Int) = n)
    (hT : IsInt xs.sum) (hq : ∀ x ∈ xs, IsInt (x * x)) (r : ℚ)
    (h5 : ((xs.map fun x => x * x).sum : Int) ≤ 2 ^ 53 → r = ((xs.map fun x => x * x).sum : Int))
    (he : ∀ x ∈ xs, ∀ y ∈ xs, x = y) : varOf r xs.sum n = 0 := by
  have hI : INT_MAX = 2147483647 := rfl
  have hM : INT_MIN = -2147483648 := rfl
  obtain ⟨a, ha⟩ : ∃ a, a ∈ xs := by
    cases xs with
    | nil => simp at hn; omega
    | cons a ys => exact ⟨a, by simp⟩
  have hrep : xs = List.replicate xs.length a := List.eq_replicate_iff.2 ⟨rfl, fun x hx => he x hx a ha⟩
  have hsum : xs.sum = n * a := by
    rw [hrep, List.sum_replicate, nsmul_eq_mul, hn]
  have hsq : (xs.map fun x => x * x).sum = n * (a * a) := by
    conv_lhs => rw [hrep]
    rw [List.map_replicate, List.sum_replicate, nsmul_eq_mul, hn]
  have haq := hq a ha
  have haa : a * a ≤ 2 ^ 31 := by have := haq.2; omega
  have haa0 : 0 ≤ a * a := mul_self_nonneg a
  have hab : |a| ≤ 2 ^ 16 := by
    rw [abs_le]
    constructor <;> nlinarith
  have hTb : |n * a| ≤ 2 ^ 31 := by rw [← hsum, abs_le]; have := hT.1; have := hT.2; omega
  have hS : n * (a * a) ≤ 2 ^ 53 := by
    have : |n * a| * |a| ≤ 2 ^ 31 * 2 ^ 16 := mul_le_mul hTb hab (abs_nonneg _) (by norm_num)
    rw [← abs_mul] at this
    have h2 := le_abs_self (n * a * a)
    nlinarith
  rw [hsq] at h5
  have hnq : (n : ℚ) ≠ 0 := by exact_mod_cast hn0.ne'
  rw [h5 hS, hsum]
  unfold varOf
  have e1 : (((n * a : Int)) : ℚ) / n = ((a : Int) : ℚ) := by push_cast; field_simp
  have e2 : (((n * (a * a) : Int)) : ℚ) / n = ((a * a : Int) : ℚ) := by push_cast; field_simp
  rw [e1, e2, fl_intZ (hab.trans (by norm_num)), ← Int.cast_mul,
    fl_intZ (by rw [abs_of_nonneg haa0]; exact haa.trans (by norm_num)), sub_self, fl_zero]

/-- relative error of rounding the difference of two doubles -/
theorem fl_double_rel {a : ℚ} {m : Int} (h : a = m * 2 ^ (-1074 : Int)) : |fl a - a| ≤ u * |a| := by
  have hn : (2 : ℚ) ^ (-1022 : Int) = 2 ^ 52 * 2 ^ (-1074 : Int) := by
    rw [← zpow_natCast, ← zpow_add₀ (by norm_num)]
    norm_num
  rcases le_or_gt |m| (2 ^ 53) with hm | hm
  · rw [h, fl_exact hm (by norm_num), sub_self, abs_zero]
    exact mul_nonneg u_pos.le (abs_nonneg _)
  · have key : ∀ x : ℚ, 2 ^ (-1022 : Int) ≤ x → |fl x - x| ≤ u * x := by
      intro x hx
      have hx0 : (0 : ℚ) ≤ x := le_trans (by positivity) hx
      have := flPos_rel (x := x) hx
      rw [show (2 : ℚ) ^ (-53 : Int) = u by unfold u; rw [zpow_neg, one_div, zpow_ofNat]] at this
      unfold fl
      rwa [if_neg (not_lt.2 hx0)]
    have hge : (2 : ℚ) ^ (-1022 : Int) ≤ |a| := by
      rw [h, abs_mul, abs_of_pos (show (0 : ℚ) < 2 ^ (-1074 : Int) by positivity), hn]
      have : (2 : ℚ) ^ 53 < |(m : ℚ)| := by exact_mod_cast hm
      apply mul_le_mul_of_nonneg_right _ (by positivity)
      linarith
    rcases le_total 0 a with h0 | h0
    · rw [abs_of_nonneg h0] at hge ⊢
      exact key a hge
    · rw [abs_of_nonpos h0] at hge ⊢
      have := key (-a) hge
      rw [fl_neg] at this
      rw [show fl a - a = -(-fl a - -a) by ring, abs_neg]
      exact this

/-- every double is a multiple of the least one -/
theorem double_mul {a : ℚ} (h : fl a = a) : ∃ m : Int, a = m * 2 ^ (-1074 : Int) := by
  obtain ⟨m, k, _, hk, hm⟩ := fl_repr a
  refine ⟨m * 2 ^ (k + 1074).toNat, ?_⟩
  rw [← h, hm]
  push_cast
  rw [mul_assoc, ← zpow_natCast, ← zpow_add₀ (by norm_num)]
  congr 2
  omega

theorem fl_add_rel {a b : ℚ} (ha : fl a = a) (hb : fl b = b) : |fl (a + b) - (a + b)| ≤ u * |a + b| := by
  obtain ⟨m, hm⟩ := double_mul ha
  obtain ⟨m', hm'⟩ := double_mul hb
  exact fl_double_rel (m := m + m') (by rw [hm, hm']; push_cast; ring)

theorem fl_sub_rel {a b : ℚ} (ha : fl a = a) (hb : fl b = b) : |fl (a - b) - (a - b)| ≤ u * |a - b| := by
  obtain ⟨m, hm⟩ := double_mul ha
  obtain ⟨m', hm'⟩ := double_mul hb
  exact fl_double_rel (m := m - m') (by rw [hm, hm']; push_cast; ring)

/-- The error of the computed variance of integers. -/
theorem varOf_err (xs : List Int) (n : Int) (hn0 : 0 < n) (hn : (xs.length : Int) = n) (hi : n ≤ INT_MAX) :
    |varOf ((xs.map fun x => x * x).sum : Int) xs.sum n -
      (((xs.map fun x => x * x).sum : Int) / (n : ℚ) - ((xs.sum : ℚ) / n) ^ 2)| ≤
      ((xs.map fun x => x * x).sum : Int) / (n : ℚ) / 2 ^ 50 := by
  have hI : INT_MAX = 2147483647 := rfl
  have hnq : (0 : ℚ) < n := by exact_mod_cast hn0
  have hCS := sum_sq_ge xs
  rw [hn] at hCS
  have hS0 : 0 ≤ ((xs.map fun x => x * x).sum : Int) := by
    apply List.sum_nonneg
    intro y hy
    obtain ⟨z, _, rfl⟩ := List.mem_map.1 hy
    exact mul_self_nonneg z
  obtain ⟨hB1, hB2⟩ := mean_sq xs.sum n hn0 (by omega)
  generalize ((xs.map fun x => x * x).sum : Int) = S at *
  generalize xs.sum = T at *
  have hS0q : (0 : ℚ) ≤ S := by exact_mod_cast hS0
  have hA : |fl ((S : ℚ) / n) - S / n| ≤ u * (S / n) := by
    rcases eq_or_lt_of_le hS0 with h | h
    · rw [← h]; simp [fl_zero]
    · refine fl_rel ?_
      have : (n : ℚ) ≤ 2 ^ 31 := by exact_mod_cast (by omega : n ≤ 2 ^ 31)
      have hS1 : (1 : ℚ) ≤ S := by exact_mod_cast h
      calc (1 : ℚ) / 2 ^ 200 ≤ 1 / 2 ^ 31 := by norm_num
        _ ≤ 1 / (n : ℚ) := one_div_le_one_div_of_le hnq this
        _ ≤ (S : ℚ) / n := by gcongr
  obtain ⟨hA1, hA2⟩ := abs_le.1 hA
  have hmS : ((T : ℚ) / n) ^ 2 ≤ S / n := by
    rw [div_pow, div_le_div_iff₀ (by positivity) hnq]
    have : ((T * T : Int) : ℚ) ≤ ((n * S : Int) : ℚ) := by exact_mod_cast hCS
    push_cast at this
    nlinarith
  have hm0 : (0 : ℚ) ≤ ((T : ℚ) / n) ^ 2 := sq_nonneg _
  have hD := fl_sub_rel (a := fl ((S : ℚ) / n)) (b := fl (fl ((T : ℚ) / n) * fl ((T : ℚ) / n))) (fl_idem _) (fl_idem _)
  unfold varOf
  generalize fl ((S : ℚ) / n) = A at *
  generalize fl (fl ((T : ℚ) / n) * fl ((T : ℚ) / n)) = B at *
  generalize (S : ℚ) / n = σ at *
  generalize ((T : ℚ) / n) ^ 2 = μ at *
  generalize fl (A - B) = W at *
  have c1 : (1 - u) ^ 3 ≥ 1 - 3 * u := by unfold u; norm_num
  have c2 : (1 + u) ^ 3 ≤ 1 + 3 * u + u / 2 := by unfold u; norm_num
  have hu0 := u_pos
  have hB : |B - μ| ≤ 7 / 2 * u * σ := by
    rw [abs_le]
    constructor
    · have := mul_le_mul_of_nonneg_right c1 hm0
      nlinarith
    · have := mul_le_mul_of_nonneg_right c2 hm0
      nlinarith
  obtain ⟨hB3, hB4⟩ := abs_le.1 hB
  have hAB : |A - B| ≤ 2 * σ := by
    have hu4 := u_le
    have : u * σ ≤ 1 / 16 * σ := mul_le_mul_of_nonneg_right (by unfold u; norm_num) (hm0.trans hmS)
    rw [abs_le]
    constructor <;> linarith
  obtain ⟨hD1, hD2⟩ := abs_le.1 (hD.trans (mul_le_mul_of_nonneg_left hAB hu0.le))
  have e : σ / 2 ^ 50 = 8 * (u * σ) := by unfold u; ring
  rw [e, abs_le]
  have : 0 ≤ u * σ := mul_nonneg hu0.le (hm0.trans hmS)
  constructor <;> linarith

/-! ### Sums of doubles -/

theorem sum_err (xs : List ℚ) (hd : ∀ x ∈ xs, fl x = x) (hl : xs.length ≤ 2 ^ 31)
    (hb : (xs.map abs).sum ≤ 2 ^ 1000) :
    ∃ q, (xs.map Dbl.fin).foldl (fun a b => a + b) (Dbl.fin 0) = .fin q ∧ fl q = q ∧
      |q - xs.sum| ≤ xs.length * (2 * u) * (xs.map abs).sum := by
  induction xs using List.reverseRecOn with
  | nil => exact ⟨0, rfl, fl_zero, by simp⟩
  | append_singleton xs x ih =>
    rw [List.length_append, List.length_singleton] at hl
    simp only [List.map_append, List.map_cons, List.map_nil, List.sum_append, List.sum_cons, List.sum_nil,
      add_zero] at hb ⊢
    have hx0 := abs_nonneg x
    obtain ⟨q, h1, h2, h3⟩ := ih (fun y hy => hd y (by simp [hy])) (by omega) (by linarith)
    have ha : |xs.sum| ≤ (xs.map abs).sum := by
      clear ih h1 h2 h3 hb hl hd
      induction xs with
      | nil => simp
      | cons y ys ih =>
        simp only [List.sum_cons, List.map_cons]
        exact (abs_add_le _ _).trans (by linarith)
    have ha0 : 0 ≤ (xs.map abs).sum := (abs_nonneg _).trans ha
    have hku : (xs.length : ℚ) * (2 * u) ≤ 1 := by
      have : (xs.length : ℚ) ≤ 2 ^ 31 := by exact_mod_cast (by omega : xs.length ≤ 2 ^ 31)
      calc (xs.length : ℚ) * (2 * u) ≤ 2 ^ 31 * (2 * u) := by
            apply mul_le_mul_of_nonneg_right this; have := u_pos; linarith
        _ ≤ 1 := by unfold u; norm_num
    have hq : |q| ≤ 2 * (xs.map abs).sum := by
      have h4 : |q| ≤ |q - xs.sum| + |xs.sum| := by
        have := abs_add_le (q - xs.sum) xs.sum
        rwa [sub_add_cancel] at this
      have h5 := mul_le_mul_of_nonneg_right hku ha0
      linarith
    refine ⟨fl (q + x), ?_, fl_idem _, ?_⟩
    · rw [List.foldl_append, h1]
      simp only [List.foldl_cons, List.foldl_nil]
      rw [add_dbl, Rand.round_fin]
      have h6 := abs_add_le q x
      refine le_trans ?_ maxDouble_ge'
      generalize (2 : ℚ) ^ 1000 = B at *
      linarith
    · clear hb ih
      have hr := fl_add_rel h2 (hd x (by simp))
      generalize (xs.map abs).sum = a at *
      generalize xs.sum = s at *
      rw [List.length_append, List.length_singleton, Nat.cast_add, Nat.cast_one]
      have hk0 : (0 : ℚ) ≤ xs.length := Nat.cast_nonneg _
      generalize (xs.length : ℚ) = k at *
      have h7 : |fl (q + x) - (s + x)| ≤ |fl (q + x) - (q + x)| + |q - s| := by
        have := abs_add_le (fl (q + x) - (q + x)) (q - s)
        rwa [show fl (q + x) - (q + x) + (q - s) = fl (q + x) - (s + x) by ring] at this
      have h8 : |q + x| ≤ |q - s| + (a + |x|) := by
        have := abs_add_le (q - s) (s + x)
        rw [show q - s + (s + x) = q + x by ring] at this
        have := abs_add_le s x
        linarith
      have hu0 := u_pos
      have h9 : u * |q + x| ≤ u * (k * (2 * u) * a + (a + |x|)) :=
        mul_le_mul_of_nonneg_left (by linarith) hu0.le
      have h10 : k * (2 * u) * a ≤ 1 * a := mul_le_mul_of_nonneg_right hku ha0
      have h11 : u * (k * (2 * u) * a + (a + |x|)) ≤ u * (1 * a + (a + |x|)) :=
        mul_le_mul_of_nonneg_left (by linarith) hu0.le
      have h12 : 0 ≤ u * |x| := mul_nonneg hu0.le hx0
      have hk1 : 0 ≤ k * (2 * u) * |x| := mul_nonneg (mul_nonneg hk0 (by linarith)) hx0
      nlinarith

/-- integers up to 2^53 are added exactly -/
theorem sum_exact (xs : List Int) (hb : (xs.map abs).sum ≤ 2 ^ 53) :
    (xs.map fun x : Int => Dbl.fin x).foldl (fun a b => a + b) (Dbl.fin 0) = .fin xs.sum := by
  induction xs using List.reverseRecOn with
  | nil => simp
  | append_singleton xs x ih =>
    simp only [List.map_append, List.map_cons, List.map_nil, List.sum_append, List.sum_cons, List.sum_nil,
      add_zero] at hb ⊢
    have ha : ∀ ys : List Int, |ys.sum| ≤ (ys.map abs).sum := by
      intro ys
      induction ys with
      | nil => simp
      | cons y ys ih =>
        simp only [List.sum_cons, List.map_cons]
        exact (abs_add_le _ _).trans (by linarith)
    have hx0 := abs_nonneg x
    have hs : |xs.sum + x| ≤ 2 ^ 53 := (abs_add_le _ _).trans (by linarith [ha xs])
    rw [List.foldl_append, ih (by omega)]
    simp only [List.foldl_cons, List.foldl_nil]
    rw [add_dbl, ← Int.cast_add]
    exact cast_dbl hs

/-! ### Variance of doubles -/

/-- not NaN -/
def NotNan (x : Dbl) : Prop := (∃ q, x = .fin q) ∨ ∃ b, x = .inf b

theorem notNan_round (x : ℚ) : NotNan (Dbl.round x) := by
  unfold Dbl.round
  split_ifs
  · exact .inr ⟨_, rfl⟩
  · exact .inl ⟨_, rfl⟩

theorem nonneg_round {x : ℚ} (h : 0 ≤ x) : Nonneg (Dbl.round x) := by
  unfold Dbl.round
  split_ifs
  · right
    simp [not_lt.2 h]
  · exact .inl ⟨_, fl_nonneg h, rfl⟩

theorem notNan_add {x : Dbl} (h : NotNan x) (q : ℚ) : NotNan (x + .fin q) := by
  rcases h with ⟨p, rfl⟩ | ⟨b, rfl⟩
  · rw [add_dbl]; exact notNan_round _
  · exact .inr ⟨b, rfl⟩

theorem notNan_sub {x : Dbl} (h : NotNan x) (q : ℚ) : NotNan (.fin q - x) := by
  rcases h with ⟨p, rfl⟩ | ⟨b, rfl⟩
  · rw [sub_dbl]; exact notNan_round _
  · exact .inr ⟨!b, rfl⟩

theorem notNan_div {x : Dbl} (h : NotNan x) {n : ℚ} (hn : 0 < n) : NotNan (x / .fin n) := by
  rcases h with ⟨p, rfl⟩ | ⟨b, rfl⟩
  · rw [div_dbl hn.ne']; exact notNan_round _
  · exact .inr ⟨_, rfl⟩

theorem nonneg_sq {x : Dbl} (h : NotNan x) : Nonneg (x * x) := by
  rcases h with ⟨p, rfl⟩ | ⟨b, rfl⟩
  · rw [mul_dbl]; exact nonneg_round (mul_self_nonneg p)
  · right
    show Dbl.inf (b ^^ b) = _
    rw [Bool.xor_self]

theorem nonneg_add {x y : Dbl} (hx : Nonneg x) (hy : Nonneg y) : Nonneg (x + y) := by
  rcases hx with ⟨p, hp, rfl⟩ | rfl <;> rcases hy with ⟨q, hq, rfl⟩ | rfl
  · rw [add_dbl]; exact nonneg_round (add_nonneg hp hq)
  · exact .inr rfl
  · exact .inr rfl
  · exact .inr rfl

theorem nonneg_div {x : Dbl} (h : Nonneg x) {n : ℚ} (hn : 0 < n) : Nonneg (x / .fin n) := by
  rcases h with ⟨p, hp, rfl⟩ | rfl
  · rw [div_dbl hn.ne']; exact nonneg_round (div_nonneg hp hn.le)
  · right
    show Dbl.inf (false ^^ decide (n < 0)) = _
    simp [not_lt.2 hn.le]

theorem notNan_sum (xs : List Dbl) (hf : ∀ x ∈ xs, ∃ q, x = Dbl.fin q) (s : Dbl) (hs : NotNan s) :
    NotNan (xs.foldl (fun a b => a + b) s) := by
  induction xs generalizing s with
  | nil => exact hs
  | cons x xs ih =>
    obtain ⟨q, rfl⟩ := hf x (by simp)
    exact ih (fun y hy => hf y (by simp [hy])) _ (notNan_add hs q)

theorem nonneg_squares (xs : List Dbl) (hf : ∀ x ∈ xs, ∃ q, x = Dbl.fin q) (m s : Dbl) (hm : NotNan m)
    (hs : Nonneg s) : Nonneg (xs.foldl (fun s x => s + (x - m) * (x - m)) s) := by
  induction xs generalizing s with
  | nil => exact hs
  | cons x xs ih =>
    obtain ⟨q, rfl⟩ := hf x (by simp)
    exact ih (fun y hy => hf y (by simp [hy])) _ (nonneg_add hs (nonneg_sq (notNan_sub hm q)))

/-! ### Square roots -/

theorem nonneg_sqrt {x : Dbl} (h : Nonneg x) : Nonneg (Rand.Libm.dbl.sqrt x) := by
  rcases h with ⟨q, hq, rfl⟩ | rfl
  · show Nonneg (if q < 0 then .nan else Dbl.round (Real.sqrt (q : ℝ)))
    rw [if_neg (not_lt.2 hq)]
    have h0 := Real.sqrt_nonneg (q : ℝ)
    unfold Dbl.round
    split_ifs
    · right
      simp [not_lt.2 h0]
    · exact .inl ⟨_, fl_nonneg h0, rfl⟩
  · exact .inr rfl

theorem sqrt_small {q : ℚ} (h0 : 0 ≤ q) (hd : fl q = q) (hb : q ≤ 2 ^ 62) :
    ∃ r : ℚ, Rand.Libm.dbl.sqrt (.fin q) = .fin r ∧ 0 ≤ r ∧ (r = 0 ↔ q = 0) := by
  have hs0 := Real.sqrt_nonneg (q : ℝ)
  have hb' : Real.sqrt (q : ℝ) ≤ ((2 ^ 31 : ℚ) : ℝ) := by
    apply Real.sqrt_le_iff.2
    refine ⟨by norm_num, ?_⟩
    have : (q : ℝ) ≤ ((2 ^ 62 : ℚ) : ℝ) := by exact_mod_cast hb
    refine this.trans (le_of_eq ?_)
    norm_num
  have f31 : fl ((2 : ℚ) ^ 31) = 2 ^ 31 := by
    have := fl_exact (m := 1) (k := 31) (by norm_num) (by norm_num)
    simpa using this
  have hf0 : 0 ≤ fl (Real.sqrt (q : ℝ)) := fl_nonneg hs0
  have hf1 : fl (Real.sqrt (q : ℝ)) ≤ 2 ^ 31 := by
    have := fl_mono hb'
    rwa [fl_cast, f31] at this
  refine ⟨fl (Real.sqrt (q : ℝ)), ?_, hf0, ?_, ?_⟩
  · show (if q < 0 then .nan else Dbl.round (Real.sqrt (q : ℝ))) = _
    rw [if_neg (not_lt.2 h0)]
    unfold Dbl.round
    rw [if_neg]
    rw [abs_of_nonneg hf0, not_le]
    exact hf1.trans_lt (pow_lt_pow_right₀ (by norm_num) (by norm_num))
  · intro hr
    by_contra hne
    have hpos : 0 < q := lt_of_le_of_ne h0 (Ne.symm hne)
    obtain ⟨m, hm⟩ := double_mul hd
    have hp : (0 : ℚ) < 2 ^ (-1074 : Int) := by positivity
    have hm1 : (1 : ℚ) ≤ m := by
      have : 0 < (m : ℚ) := by
        by_contra hc
        push Not at hc
        have := mul_nonpos_of_nonpos_of_nonneg hc hp.le
        linarith
      have : 0 < m := by exact_mod_cast this
      exact_mod_cast this
    have hq1 : (2 : ℚ) ^ (-1074 : Int) ≤ q := by
      rw [hm]
      have := mul_le_mul_of_nonneg_right hm1 hp.le
      rwa [one_mul] at this
    have hs : ((2 ^ (-537 : Int) : ℚ) : ℝ) ≤ Real.sqrt (q : ℝ) := by
      apply Real.le_sqrt_of_sq_le
      have : ((2 ^ (-1074 : Int) : ℚ) : ℝ) ≤ (q : ℝ) := by exact_mod_cast hq1
      refine le_trans (le_of_eq ?_) this
      push_cast
      rw [← zpow_natCast, ← zpow_mul]
      norm_num
    have := fl_mono hs
    rw [fl_cast, hr] at this
    have e := fl_exact (m := 1) (k := -537) (by norm_num) (by norm_num)
    rw [Int.cast_one, one_mul] at e
    rw [e] at this
    have hp' : (0 : ℚ) < 2 ^ (-537 : Int) := by positivity
    linarith
  · intro hq
    rw [hq]
    simp [fl_zero]

/-- the partial sums of a sum that is defined are `int`s -/
theorem partialSums_of_ok {D : Type} [IntCast D] (xs : List Int) (T : Int) (h : sumCont (D := D) .int xs = .ok T) :
    PartialSums xs := by
  have key : ∀ (ys : List Int) (s t : Int), IsInt s → ys.foldlM (fun s x => int (s + x)) s = .ok t →
      ∀ k, IsInt (s + (ys.take k).sum) := by
    intro ys
    induction ys with
    | nil =>
      intro s t hs _ k
      simpa using hs
    | cons y ys ih =>
      intro s t hs h k
      rw [List.foldlM_cons] at h
      obtain ⟨s', h1, h2⟩ := Out.bind_eq_ok.1 h
      obtain ⟨hi, rfl⟩ := int_eq_ok.1 h1
      cases k with
      | zero => simpa using hs
      | succ k =>
        rw [List.take_succ_cons, List.sum_cons, ← add_assoc]
        exact ih _ _ hi h2 k
  intro k _
  have := key xs 0 T (by decide) h k
  rwa [zero_add] at this

end Stats
