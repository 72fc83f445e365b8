import Verif.Model.Double
import Mathlib.Tactic.Linarith
import Mathlib.Tactic.FieldSimp
import Mathlib.Tactic.Positivity
import Mathlib.Algebra.Order.Field.Power
import Mathlib.Tactic.NormNum

/-! # Lemmas about binary64 arithmetic -/

namespace Cpp

section
variable {K : Type} [Field K] [LinearOrder K] [IsStrictOrderedRing K] [FloorRing K]

theorem roundTiesEven_int (n : Int) : roundTiesEven (n : K) = n := by
  unfold roundTiesEven
  simp

omit [IsStrictOrderedRing K] in
theorem roundTiesEven_floor (x : K) : roundTiesEven x = ⌊x⌋ ∨ roundTiesEven x = ⌊x⌋ + 1 := by
  unfold roundTiesEven
  dsimp only
  split
  · exact .inl rfl
  · split
    · exact .inr rfl
    · split
      · exact .inl rfl
      · exact .inr rfl

theorem roundTiesEven_close (x : K) : |x - roundTiesEven x| ≤ 1 / 2 := by
  have h1 := Int.floor_le x
  have h2 := Int.lt_floor_add_one x
  unfold roundTiesEven
  dsimp only
  split
  · rw [abs_le]; constructor <;> linarith
  · split
    · rw [abs_le]; push_cast; constructor <;> linarith
    · split
      · rw [abs_le]; constructor <;> linarith
      · rw [abs_le]; push_cast; constructor <;> linarith

theorem roundTiesEven_mono {x y : K} (h : x ≤ y) : roundTiesEven x ≤ roundTiesEven y := by
  have hf := Int.floor_mono h
  rcases lt_or_eq_of_le hf with hlt | heq
  · rcases roundTiesEven_floor x with hx | hx <;> rcases roundTiesEven_floor y with hy | hy <;> omega
  · unfold roundTiesEven
    dsimp only
    rw [heq]
    split_ifs <;> first | omega | (exfalso; linarith)

theorem roundTiesEven_nonneg {x : K} (h : 0 ≤ x) : 0 ≤ roundTiesEven x := by
  have := roundTiesEven_mono h
  have h0 : roundTiesEven (0 : K) = 0 := by simpa using roundTiesEven_int (K := K) 0
  omega

theorem roundTiesEven_le {x : K} {n : Int} (h : x ≤ n) : roundTiesEven x ≤ n := by
  simpa [roundTiesEven_int] using roundTiesEven_mono h

theorem le_roundTiesEven {x : K} {n : Int} (h : n ≤ x) : n ≤ roundTiesEven x := by
  simpa [roundTiesEven_int] using roundTiesEven_mono h

omit [IsStrictOrderedRing K] in
theorem lastBit_ge (x : K) : -1074 ≤ lastBit x := le_max_right _ _

theorem two_zpow_pos (e : Int) : (0 : K) < 2 ^ e := by positivity

theorem lt_lastBit (x : K) : x < 2 ^ (lastBit x + 53) := by
  have h1 := Int.lt_zpow_succ_log_self (b := 2) (by norm_num) x
  have h2 : Int.log 2 x + 1 ≤ lastBit x + 53 := by
    have : Int.log 2 x - 52 ≤ lastBit x := le_max_left _ _
    omega
  calc x < ((2 : ℕ) : K) ^ (Int.log 2 x + 1) := h1
    _ = (2 : K) ^ (Int.log 2 x + 1) := by norm_num
    _ ≤ 2 ^ (lastBit x + 53) := zpow_le_zpow_right₀ (by norm_num) h2

theorem lastBit_le {x : K} (h : 0 < x) (h' : -1074 < lastBit x) : 2 ^ (lastBit x + 52) ≤ x := by
  have h1 := Int.zpow_log_le_self (b := 2) (by norm_num) h
  have h2 : lastBit x + 52 = Int.log 2 x := by
    unfold lastBit at *
    omega
  rw [h2]
  simpa using h1

theorem lastBit_mono {x y : K} (h0 : 0 < x) (h : x ≤ y) : lastBit x ≤ lastBit y :=
  max_le_max (by have := Int.log_mono_right (b := 2) h0 h; omega) le_rfl

theorem flPos_zero : flPos (0 : K) = 0 := by
  have h0 : roundTiesEven (0 : K) = 0 := by simpa using roundTiesEven_int (K := K) 0
  simp [flPos, h0]

theorem flPos_nonneg {x : K} (h : 0 ≤ x) : 0 ≤ flPos x := by
  unfold flPos
  have : 0 ≤ roundTiesEven (x / 2 ^ lastBit x) :=
    roundTiesEven_nonneg (div_nonneg h (two_zpow_pos _).le)
  have h' : (0 : ℚ) ≤ roundTiesEven (x / 2 ^ lastBit x) := by exact_mod_cast this
  positivity

theorem flPos_mono {x y : K} (h0 : 0 ≤ x) (h : x ≤ y) : flPos x ≤ flPos y := by
  rcases eq_or_lt_of_le h0 with h0 | h0
  · rw [← h0, flPos_zero]; exact flPos_nonneg (h0 ▸ h)
  have hy : 0 < y := lt_of_lt_of_le h0 h
  rcases eq_or_lt_of_le (lastBit_mono h0 h) with he | he
  · unfold flPos
    rw [he]
    have : roundTiesEven (x / 2 ^ lastBit y) ≤ roundTiesEven (y / 2 ^ lastBit y) :=
      roundTiesEven_mono (div_le_div_of_nonneg_right h (two_zpow_pos _).le)
    have h' : (roundTiesEven (x / 2 ^ lastBit y) : ℚ) ≤ roundTiesEven (y / 2 ^ lastBit y) := by
      exact_mod_cast this
    exact mul_le_mul_of_nonneg_right h' (two_zpow_pos _).le
  · have h1 : flPos x ≤ 2 ^ (lastBit x + 53) := by
      unfold flPos
      have hx := lt_lastBit x
      have : roundTiesEven (x / 2 ^ lastBit x) ≤ 2 ^ 53 := by
        apply roundTiesEven_le
        rw [div_le_iff₀ (two_zpow_pos _)]
        rw [zpow_add₀ (by norm_num)] at hx
        push_cast
        calc x ≤ _ := hx.le
          _ = _ := by rw [mul_comm]; norm_num
      have h' : (roundTiesEven (x / 2 ^ lastBit x) : ℚ) ≤ 2 ^ 53 := by exact_mod_cast this
      calc _ ≤ (2 : ℚ) ^ 53 * 2 ^ lastBit x := mul_le_mul_of_nonneg_right h' (two_zpow_pos _).le
        _ = _ := by rw [zpow_add₀ (by norm_num), mul_comm]; norm_num
    have h2 : 2 ^ (lastBit y + 52) ≤ flPos y := by
      unfold flPos
      have hb := lastBit_le hy (by have := lastBit_ge x; omega)
      have : 2 ^ 52 ≤ roundTiesEven (y / 2 ^ lastBit y) := by
        apply le_roundTiesEven
        rw [le_div_iff₀ (two_zpow_pos _)]
        rw [zpow_add₀ (by norm_num)] at hb
        push_cast
        calc _ = _ := by rw [mul_comm]; norm_num
          _ ≤ y := hb
      have h' : (2 : ℚ) ^ 52 ≤ roundTiesEven (y / 2 ^ lastBit y) := by exact_mod_cast this
      calc _ = (2 : ℚ) ^ 52 * 2 ^ lastBit y := by rw [zpow_add₀ (by norm_num), mul_comm]; norm_num
        _ ≤ _ := mul_le_mul_of_nonneg_right h' (two_zpow_pos _).le
    refine h1.trans (le_trans ?_ h2)
    exact zpow_le_zpow_right₀ (by norm_num) (by omega)

theorem fl_mono {x y : K} (h : x ≤ y) : fl x ≤ fl y := by
  unfold fl
  split
  · split
    · exact neg_le_neg (flPos_mono (by linarith) (by linarith))
    · have h1 := flPos_nonneg (x := -x) (by linarith)
      have h2 := flPos_nonneg (x := y) (by linarith)
      linarith
  · rw [if_neg (by linarith)]
    exact flPos_mono (by linarith) h

theorem fl_zero : fl (0 : K) = 0 := by simp [fl, flPos_zero]

theorem fl_nonneg {x : K} (h : 0 ≤ x) : 0 ≤ fl x := by
  have := fl_mono h
  rwa [fl_zero] at this

theorem fl_neg (x : K) : fl (-x) = -fl x := by
  unfold fl
  rcases lt_trichotomy x 0 with h | h | h
  · rw [if_neg (by linarith), if_pos h]; simp
  · subst h; simp [flPos_zero]
  · rw [if_pos (by linarith), if_neg (by linarith)]; simp

/-- Numbers below half of the least positive double become zero. -/
theorem fl_tiny {x : K} (h0 : 0 ≤ x) (h : x < 2 ^ (-1075 : Int)) : fl x = 0 := by
  rcases eq_or_lt_of_le h0 with h0 | h0
  · rw [← h0, fl_zero]
  have hl : lastBit x = -1074 := by
    unfold lastBit
    apply max_eq_right
    have h1 := Int.zpow_log_le_self (b := 2) (by norm_num) h0
    have h2 : ((2 : ℕ) : K) ^ Int.log 2 x < (2 : K) ^ (-1075 : Int) := lt_of_le_of_lt h1 h
    have h3 : Int.log 2 x < -1075 := by
      rw [Nat.cast_ofNat] at h2
      exact (zpow_lt_zpow_iff_right₀ (by norm_num : (1 : K) < 2)).1 h2
    omega
  unfold fl flPos
  rw [if_neg (by linarith), hl]
  have : roundTiesEven (x / 2 ^ (-1074 : Int)) = 0 := by
    have hlt : x / 2 ^ (-1074 : Int) < 1 / 2 := by
      rw [div_lt_iff₀ (two_zpow_pos _)]
      calc x < _ := h
        _ = _ := by
          rw [show (-1075 : Int) = -1 + -1074 by norm_num, zpow_add₀ (by norm_num)]
          norm_num
    have hfl : ⌊x / 2 ^ (-1074 : Int)⌋ = 0 := by
      rw [Int.floor_eq_iff]
      have := div_pos h0 (two_zpow_pos (K := K) (-1074))
      constructor
      · simpa using this.le
      · push_cast; linarith
    unfold roundTiesEven
    dsimp only
    rw [hfl, if_pos (by simpa using hlt)]
  rw [this]
  simp

end

/-- Representable numbers (unbounded above) are not changed. -/
theorem flPos_exact {m : Nat} {k : Int} (hm : m ≤ 2 ^ 53) (hk : -1074 ≤ k) :
    flPos ((m : ℚ) * 2 ^ k) = m * 2 ^ k := by
  rcases Nat.eq_zero_or_pos m with h0 | h0
  · subst h0; simp [flPos_zero]
  set x : ℚ := (m : ℚ) * 2 ^ k with hx
  have hpos : 0 < x := by
    have : (0 : ℚ) < m := by exact_mod_cast h0
    positivity
  -- the mantissa is an integer
  have key : ∀ e : Int, e ≤ k → roundTiesEven (x / 2 ^ e) * (2 : ℚ) ^ e = x := by
    intro e he
    have : x / 2 ^ e = ((m * 2 ^ (k - e).toNat : Int) : ℚ) := by
      rw [hx, mul_div_assoc, ← zpow_sub₀ (by norm_num)]
      push_cast
      rw [← zpow_natCast, Int.toNat_of_nonneg (by omega)]
    rw [this, roundTiesEven_int, ← this]
    field_simp
  rcases le_or_gt (lastBit x) k with h | h
  · exact key _ h
  · -- only for m = 2^53
    have h1 := lastBit_le hpos (by omega)
    have h2 : x ≤ 2 ^ (k + 53) := by
      rw [hx, zpow_add₀ (by norm_num), mul_comm]
      have : (m : ℚ) ≤ 2 ^ 53 := by exact_mod_cast hm
      exact mul_le_mul_of_nonneg_left (by simpa using this) (by positivity)
    have h3 : lastBit x + 52 ≤ k + 53 :=
      (zpow_le_zpow_iff_right₀ (by norm_num : (1 : ℚ) < 2)).1 (h1.trans h2)
    have he : lastBit x = k + 1 := by omega
    have hxe : x = 2 ^ (k + 53) := le_antisymm h2 (by rw [he] at h1; convert h1 using 2; ring)
    unfold flPos
    have : x / 2 ^ lastBit x = (((2 : Int) ^ 52 : Int) : ℚ) := by
      rw [he, hxe, ← zpow_sub₀ (by norm_num)]
      rw [show k + 53 - (k + 1) = 52 by ring]
      norm_num
    rw [this, roundTiesEven_int, ← this]
    field_simp

theorem fl_exact {m k : Int} (hm : |m| ≤ 2 ^ 53) (hk : -1074 ≤ k) :
    fl ((m : ℚ) * 2 ^ k) = m * 2 ^ k := by
  have hp : (0 : ℚ) < 2 ^ k := two_zpow_pos k
  have hn : m.natAbs ≤ 2 ^ 53 := by
    have : (m.natAbs : Int) ≤ 2 ^ 53 := by rw [Int.natCast_natAbs]; exact hm
    exact_mod_cast this
  have := flPos_exact hn hk
  rcases lt_or_ge m 0 with h | h
  · have e : ((m.natAbs : Nat) : ℚ) = -(m : ℚ) := by
      rw [Nat.cast_natAbs, abs_of_neg h]; push_cast; ring
    have hneg : (m : ℚ) * 2 ^ k < 0 := mul_neg_of_neg_of_pos (by exact_mod_cast h) hp
    unfold fl
    rw [if_pos hneg]
    rw [e] at this
    rw [← neg_mul, this]; ring
  · have e : ((m.natAbs : Nat) : ℚ) = (m : ℚ) := by
      rw [Nat.cast_natAbs, abs_of_nonneg h]
    have hneg : 0 ≤ (m : ℚ) * 2 ^ k := mul_nonneg (by exact_mod_cast h) hp.le
    unfold fl
    rw [if_neg (by linarith)]
    rwa [e] at this

/-- The relative error of rounding a number in the normal range. -/
theorem flPos_rel {x : ℚ} (h : 2 ^ (-1022 : Int) ≤ x) : |flPos x - x| ≤ 2 ^ (-53 : Int) * x := by
  have hx : 0 < x := lt_of_lt_of_le (two_zpow_pos _) h
  have hb : 2 ^ (lastBit x + 52) ≤ x := by
    rcases eq_or_lt_of_le (lastBit_ge x) with he | he
    · rw [← he]; exact h
    · exact lastBit_le hx he
  have hc := roundTiesEven_close (x / 2 ^ lastBit x)
  have hp : (0 : ℚ) < 2 ^ lastBit x := two_zpow_pos _
  unfold flPos
  have e : (roundTiesEven (x / 2 ^ lastBit x) : ℚ) * 2 ^ lastBit x - x
      = -(x / 2 ^ lastBit x - roundTiesEven (x / 2 ^ lastBit x)) * 2 ^ lastBit x := by
    field_simp; ring
  rw [e, abs_mul, abs_neg, abs_of_pos hp]
  calc _ ≤ 1 / 2 * 2 ^ lastBit x := mul_le_mul_of_nonneg_right hc hp.le
    _ = 2 ^ (-53 : Int) * 2 ^ (lastBit x + 52) := by
      rw [← zpow_add₀ (by norm_num)]
      rw [show (-53 : Int) + (lastBit x + 52) = -1 + lastBit x by ring, zpow_add₀ (by norm_num)]
      norm_num
    _ ≤ _ := mul_le_mul_of_nonneg_left hb (two_zpow_pos _).le

/-- Rounding yields at most 53 significant bits. -/
theorem fl_repr (x : ℚ) : ∃ m k : Int, |m| ≤ 2 ^ 53 ∧ -1074 ≤ k ∧ fl x = m * 2 ^ k := by
  have key : ∀ y : ℚ, 0 ≤ y → ∃ m k : Int, |m| ≤ 2 ^ 53 ∧ -1074 ≤ k ∧ flPos y = m * 2 ^ k := by
    intro y hy
    refine ⟨roundTiesEven (y / 2 ^ lastBit y), lastBit y, ?_, lastBit_ge y, rfl⟩
    have h0 : 0 ≤ roundTiesEven (y / 2 ^ lastBit y) :=
      roundTiesEven_nonneg (div_nonneg hy (two_zpow_pos _).le)
    rw [abs_of_nonneg h0]
    apply roundTiesEven_le
    rw [div_le_iff₀ (two_zpow_pos _)]
    have hx := lt_lastBit y
    rw [zpow_add₀ (by norm_num)] at hx
    push_cast
    calc y ≤ _ := hx.le
      _ = _ := by rw [mul_comm]; norm_num
  unfold fl
  split
  · obtain ⟨m, k, h1, h2, h3⟩ := key (-x) (by linarith)
    exact ⟨-m, k, by rwa [abs_neg], h2, by rw [h3]; push_cast; ring⟩
  · obtain ⟨m, k, h1, h2, h3⟩ := key x (by linarith)
    exact ⟨m, k, h1, h2, h3⟩

theorem fl_idem (x : ℚ) : fl (fl x) = fl x := by
  obtain ⟨m, k, h1, h2, h3⟩ := fl_repr x
  rw [h3]; exact fl_exact h1 h2

end Cpp
