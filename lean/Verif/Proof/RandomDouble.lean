import Verif.Proof.Random
import Mathlib.Tactic.NormNum
import Mathlib.Tactic.Positivity
import Mathlib.Tactic.FieldSimp
import Mathlib.Algebra.Order.Field.Power

/-! # Lemmas about nextDouble in binary64 arithmetic -/

set_option exponentiation.threshold 2000

namespace Rand
open Cpp Spec

variable {E : Engine}

theorem fl_of_isDouble {q : ℚ} (h : IsDouble q) : fl q = q := by
  obtain ⟨m, k, hm, hk, _, rfl⟩ := h
  exact fl_exact hm.le hk

theorem abs_fl (x : ℚ) : |fl x| = fl |x| := by
  rcases le_total 0 x with h | h
  · rw [abs_of_nonneg h, abs_of_nonneg (fl_nonneg h)]
  · have h1 : fl x ≤ 0 := by have := fl_mono h; rwa [fl_zero] at this
    rw [abs_of_nonpos h, abs_of_nonpos h1, fl_neg]

/-- the greatest finite double -/
def maxDouble : ℚ := (2 ^ 53 - 1) * 2 ^ 971

theorem maxDouble_fl : fl maxDouble = maxDouble := by
  have := fl_exact (m := 2 ^ 53 - 1) (k := 971) (by decide) (by decide)
  unfold maxDouble
  push_cast at this
  exact_mod_cast this

theorem round_fin {x : ℚ} (h : |x| ≤ maxDouble) : Dbl.round x = .fin (fl x) := by
  unfold Dbl.round
  rw [if_neg]
  rw [abs_fl, not_le]
  have h1 := fl_mono h
  rw [maxDouble_fl] at h1
  refine lt_of_le_of_lt h1 ?_
  unfold maxDouble
  norm_num

theorem fl_isDouble {x : ℚ} (h : |fl x| < 2 ^ 1024) : IsDouble (fl x) := by
  have key : ∀ y : ℚ, 0 ≤ y → flPos y < 2 ^ 1024 → IsDouble (flPos y) := by
    intro y hy hlt
    rcases eq_or_lt_of_le hy with h0 | h0
    · rw [← h0, flPos_zero]; exact ⟨0, 0, by norm_num, by norm_num, by norm_num, by simp⟩
    set m := roundTiesEven (y / 2 ^ lastBit y) with hm
    have hm0 : 0 ≤ m := roundTiesEven_nonneg (div_nonneg hy (two_zpow_pos _).le)
    have hm1 : m ≤ 2 ^ 53 := by
      apply roundTiesEven_le
      rw [div_le_iff₀ (two_zpow_pos _)]
      have hx := lt_lastBit y
      rw [zpow_add₀ (by norm_num)] at hx
      push_cast
      calc y ≤ _ := hx.le
        _ = _ := by rw [mul_comm]; norm_num
    have hk0 := lastBit_ge y
    have hf : flPos y = m * 2 ^ lastBit y := rfl
    have hk1 : lastBit y ≤ 971 := by
      by_contra hc
      have hb := lastBit_le h0 (by omega)
      have hb2 : (2 : ℚ) ^ (1024 : Int) ≤ 2 ^ (lastBit y + 52) :=
        zpow_le_zpow_right₀ (by norm_num) (by omega)
      have hm2 : 2 ^ 52 ≤ m := by
        apply le_roundTiesEven
        rw [le_div_iff₀ (two_zpow_pos _)]
        rw [zpow_add₀ (by norm_num)] at hb
        push_cast
        calc _ = _ := by rw [mul_comm]; norm_num
          _ ≤ y := hb
      have hm3 : (2 : ℚ) ^ 52 ≤ m := by exact_mod_cast hm2
      have : (2 : ℚ) ^ 52 * 2 ^ lastBit y ≤ m * 2 ^ lastBit y :=
        mul_le_mul_of_nonneg_right hm3 (two_zpow_pos _).le
      rw [zpow_add₀ (by norm_num)] at hb2
      rw [hf] at hlt
      have h3 : (2 : ℚ) ^ (1024 : Int) = 2 ^ 1024 := by norm_cast
      have h4 : (2 : ℚ) ^ (52 : Int) = 2 ^ 52 := by norm_cast
      rw [h3, h4, mul_comm] at hb2
      linarith
    rcases eq_or_lt_of_le hm1 with he | he
    · have hk2 : lastBit y < 971 := by
        rcases eq_or_lt_of_le hk1 with hk | hk
        · rw [hf, he, hk] at hlt
          norm_num at hlt
        · exact hk
      refine ⟨2 ^ 52, lastBit y + 1, by norm_num, by omega, by omega, ?_⟩
      rw [hf, he, zpow_add₀ (by norm_num)]
      push_cast
      ring
    · exact ⟨m, lastBit y, by rwa [abs_of_nonneg hm0], hk0, hk1, hf⟩
  unfold fl at *
  split at h
  · rename_i hx
    rw [if_pos hx]
    have h0 := flPos_nonneg (x := -x) (by linarith)
    rw [abs_neg, abs_of_nonneg h0] at h
    obtain ⟨m, k, h1, h2, h3, h4⟩ := key _ (by linarith) h
    exact ⟨-m, k, by rwa [abs_neg], h2, h3, by rw [h4]; push_cast; ring⟩
  · rename_i hx
    rw [if_neg hx]
    have h0 := flPos_nonneg (x := x) (by linarith)
    rw [abs_of_nonneg h0] at h
    exact key _ (by linarith) h

/-- `(double)g / int64Max` -/
def unif (g : Nat) : ℚ := fl (g : ℚ) / 2 ^ 64

/-- the value of `nextDouble(a, b)` if the engine yields `g` -/
def ndVal (g : Nat) (a b : ℚ) : ℚ := fl (fl (unif g * fl (b - a)) + a)

theorem fl_nat_repr {g : Nat} (hg : 0 < g) :
    ∃ m k : Int, |m| ≤ 2 ^ 53 ∧ -52 ≤ k ∧ fl (g : ℚ) = m * 2 ^ k := by
  have h0 : (0 : ℚ) < g := by exact_mod_cast hg
  refine ⟨roundTiesEven ((g : ℚ) / 2 ^ lastBit (g : ℚ)), lastBit (g : ℚ), ?_, ?_, ?_⟩
  · have h0 : 0 ≤ roundTiesEven ((g : ℚ) / 2 ^ lastBit (g : ℚ)) :=
      roundTiesEven_nonneg (div_nonneg h0.le (two_zpow_pos _).le)
    rw [abs_of_nonneg h0]
    apply roundTiesEven_le
    rw [div_le_iff₀ (two_zpow_pos _)]
    have hx := lt_lastBit (g : ℚ)
    rw [zpow_add₀ (by norm_num)] at hx
    push_cast
    calc (g : ℚ) ≤ _ := hx.le
      _ = _ := by rw [mul_comm]; norm_num
  · unfold lastBit
    have : 0 ≤ Int.log 2 (g : ℚ) := by
      rw [Int.log_natCast]; omega
    omega
  · unfold fl
    rw [if_neg (by linarith)]
    rfl

theorem unif_exact (g : Nat) : fl (unif g) = unif g := by
  rcases Nat.eq_zero_or_pos g with h | h
  · subst h; simp [unif, fl_zero]
  · obtain ⟨m, k, h1, h2, h3⟩ := fl_nat_repr h
    have : unif g = m * 2 ^ (k - 64) := by
      unfold unif
      rw [h3, zpow_sub₀ (by norm_num), mul_div_assoc]
      norm_cast
    rw [this]
    exact fl_exact h1 (by omega)

theorem fl_64 : fl ((2 : ℚ) ^ 64) = 2 ^ 64 := by decide +kernel

theorem unif_nonneg (g : Nat) : 0 ≤ unif g :=
  div_nonneg (fl_nonneg (by positivity)) (by positivity)

theorem unif_mono {g g' : Nat} (h : g ≤ g') : unif g ≤ unif g' :=
  div_le_div_of_nonneg_right (fl_mono (by exact_mod_cast h)) (by positivity)

theorem unif_le_one {g : Nat} (h : g < 2 ^ 64) : unif g ≤ 1 := by
  unfold unif
  rw [div_le_one (by positivity)]
  have h1 : (g : ℚ) ≤ 2 ^ 64 := by exact_mod_cast h.le
  have := fl_mono h1
  rwa [fl_64] at this

theorem intCast_fin (i : Int) (h : |(i : ℚ)| ≤ maxDouble) : ((i : Int) : Dbl) = .fin (fl (i : ℚ)) :=
  round_fin h

theorem big_le {x : ℚ} (h : |x| ≤ 2 ^ 64) : |x| ≤ maxDouble := by
  refine h.trans ?_
  unfold maxDouble
  norm_num

theorem gen_div (g : Nat) (h : g < 2 ^ 64) :
    ((g : Int) : Dbl) / ((2 ^ 64 - 1 : Int) : Dbl) = .fin (unif g) := by
  have hg : |(((g : Int)) : ℚ)| ≤ 2 ^ 64 := by
    have : (g : ℚ) ≤ 2 ^ 64 := by exact_mod_cast h.le
    rw [Int.cast_natCast, abs_of_nonneg (by positivity)]; exact this
  rw [intCast_fin _ (big_le hg)]
  have h2 : ((2 ^ 64 - 1 : Int) : Dbl) = .fin (2 ^ 64) := by decide +kernel
  rw [h2]
  show Dbl.div _ _ = _
  unfold Dbl.div
  dsimp only
  rw [if_neg (by norm_num), Int.cast_natCast]
  show Dbl.round (unif g) = _
  rw [round_fin, unif_exact]
  apply big_le
  rw [abs_of_nonneg (unif_nonneg g)]
  exact (unif_le_one h).trans (by norm_num)

theorem fin_lt (a b : ℚ) : (Dbl.fin a < Dbl.fin b) ↔ a < b := by
  show Dbl.lt _ _ = true ↔ _
  simp [Dbl.lt]
theorem fin_le (a b : ℚ) : (Dbl.fin a ≤ Dbl.fin b) ↔ a ≤ b := by
  show Dbl.le _ _ = true ↔ _
  simp [Dbl.le]

theorem nextDouble2_run (a b : ℚ) (hab : a ≤ b) (ha : |a| ≤ 2 ^ 1022) (hb : |b| ≤ 2 ^ 1022) (s : E.σ) :
    nextDouble2 (Dbl.fin a) (Dbl.fin b) s = .ok (.fin (ndVal (out s) a b), aft s) := by
  have hg : out s < 2 ^ 64 := (E.draw s).1.isLt
  unfold nextDouble2
  rw [if_neg (by rw [fin_lt]; linarith), bind_run, draw_run]
  simp only [Out.bind]
  rw [gen_div _ hg, pure_run]
  have hM : (2 : ℚ) ^ 1023 ≤ maxDouble := by unfold maxDouble; norm_num
  have hM2 : (2 : ℚ) ^ 1023 + 2 ^ 1022 ≤ maxDouble := by unfold maxDouble; norm_num
  have hp : (2 : ℚ) ^ 1023 = 2 ^ 1022 + 2 ^ 1022 := by norm_num
  have h23 : fl ((2 : ℚ) ^ 1023) = 2 ^ 1023 := by
    have := fl_exact (m := 1) (k := 1023) (by decide) (by decide)
    simpa using this
  rw [abs_le] at ha hb
  have hsub : Dbl.fin b - Dbl.fin a = .fin (fl (b - a)) := by
    show Dbl.round (b + -a) = _
    rw [← sub_eq_add_neg, round_fin]
    rw [abs_of_nonneg (by linarith)]
    linarith
  have hs0 : 0 ≤ fl (b - a) := fl_nonneg (by linarith)
  have hs1 : fl (b - a) ≤ 2 ^ 1023 := by
    rw [← h23]; exact fl_mono (by linarith)
  have hu0 := unif_nonneg (out s)
  have hu1 := unif_le_one hg
  have hq0 : 0 ≤ unif (out s) * fl (b - a) := mul_nonneg hu0 hs0
  have hq1 : unif (out s) * fl (b - a) ≤ 2 ^ 1023 := (mul_le_of_le_one_left hs0 hu1).trans hs1
  have hmul : Dbl.fin (unif (out s)) * Dbl.fin (fl (b - a)) = .fin (fl (unif (out s) * fl (b - a))) := by
    show Dbl.round _ = _
    rw [round_fin]
    rw [abs_of_nonneg hq0]
    linarith
  have hp0 := fl_nonneg hq0
  have hp1 : fl (unif (out s) * fl (b - a)) ≤ 2 ^ 1023 := by
    rw [← h23]; exact fl_mono hq1
  have hadd : Dbl.fin (fl (unif (out s) * fl (b - a))) + Dbl.fin a
      = .fin (fl (fl (unif (out s) * fl (b - a)) + a)) := by
    show Dbl.round _ = _
    rw [round_fin]
    rw [abs_le]; constructor <;> linarith
  rw [hsub, hmul, hadd]
  rfl

theorem ndVal_ge {a : ℚ} (ha : IsDouble a) {b : ℚ} (hab : a ≤ b) (g : Nat) : a ≤ ndVal g a b := by
  have h0 : 0 ≤ fl (unif g * fl (b - a)) :=
    fl_nonneg (mul_nonneg (unif_nonneg g) (fl_nonneg (by linarith)))
  have := fl_mono (x := a) (y := fl (unif g * fl (b - a)) + a) (by linarith)
  rwa [fl_of_isDouble ha] at this

theorem ndVal_mono {a b : ℚ} (hab : a ≤ b) {g g' : Nat} (h : g ≤ g') :
    ndVal g a b ≤ ndVal g' a b := by
  unfold ndVal
  apply fl_mono
  have : fl (unif g * fl (b - a)) ≤ fl (unif g' * fl (b - a)) :=
    fl_mono (mul_le_mul_of_nonneg_right (unif_mono h) (fl_nonneg (by linarith)))
  linarith

theorem ndVal_zero_le {b : ℚ} (hb : IsDouble b) (h : 0 ≤ b) {g : Nat} (hg : g < 2 ^ 64) :
    ndVal g 0 b ≤ b := by
  unfold ndVal
  rw [sub_zero, fl_of_isDouble hb, add_zero, fl_idem]
  have := fl_mono (mul_le_of_le_one_left h (unif_le_one hg))
  rwa [fl_of_isDouble hb] at this

theorem ndVal_one (g : Nat) : ndVal g 0 1 = unif g := by
  unfold ndVal
  have : fl ((1 : ℚ) - 0) = 1 := by decide +kernel
  rw [this, mul_one, add_zero, fl_idem, unif_exact]

theorem unif_eq_one_iff {g : Nat} (hg : g < 2 ^ 64) : unif g = 1 ↔ 2 ^ 64 - 1024 ≤ g := by
  constructor
  · intro h
    by_contra hc
    have h1 : unif g ≤ unif (2 ^ 64 - 1025) := unif_mono (by omega)
    have h2 : unif (2 ^ 64 - 1025) < 1 := by decide +kernel
    linarith
  · intro h
    have h1 : unif (2 ^ 64 - 1024) ≤ unif g := unif_mono h
    have h2 : unif (2 ^ 64 - 1024) = 1 := by decide +kernel
    have h3 := unif_le_one hg
    linarith

theorem ndVal_isDouble {a b : ℚ} (hab : a ≤ b) (ha : |a| ≤ 2 ^ 1022) (hb : |b| ≤ 2 ^ 1022)
    {g : Nat} (hg : g < 2 ^ 64) : IsDouble (ndVal g a b) := by
  apply fl_isDouble
  rw [abs_le] at ha hb
  have h23 : fl ((2 : ℚ) ^ 1023) = 2 ^ 1023 := by
    have := fl_exact (m := 1) (k := 1023) (by decide) (by decide)
    simpa using this
  have hp : (2 : ℚ) ^ 1023 = 2 ^ 1022 + 2 ^ 1022 := by norm_num
  have hs0 : 0 ≤ fl (b - a) := fl_nonneg (by linarith)
  have hs1 : fl (b - a) ≤ 2 ^ 1023 := by
    rw [← h23]; exact fl_mono (by linarith)
  have hq1 : unif g * fl (b - a) ≤ 2 ^ 1023 :=
    (mul_le_of_le_one_left hs0 (unif_le_one hg)).trans hs1
  have hp0 := fl_nonneg (mul_nonneg (unif_nonneg g) hs0)
  have hp1 : fl (unif g * fl (b - a)) ≤ 2 ^ 1023 := by
    rw [← h23]; exact fl_mono hq1
  have hM2 : (2 : ℚ) ^ 1023 + 2 ^ 1022 ≤ maxDouble := by unfold maxDouble; norm_num
  have : |fl (unif g * fl (b - a)) + a| ≤ maxDouble := by
    rw [abs_le]; constructor <;> linarith
  have := fl_mono this
  rw [maxDouble_fl, ← abs_fl] at this
  refine lt_of_le_of_lt this ?_
  unfold maxDouble; norm_num

/-! ### Quotients in the loops of the discrete samplers -/

theorem zero_mul_fin (d : ℚ) : Dbl.fin 0 * Dbl.fin d = Dbl.fin 0 := by
  show Dbl.round (0 * d) = _
  rw [zero_mul]; decide +kernel

theorem mul_zero_fin (d : ℚ) : Dbl.fin d * Dbl.fin 0 = Dbl.fin 0 := by
  show Dbl.round (d * 0) = _
  rw [mul_zero]; decide +kernel

theorem int_le_max (i : Int) (h0 : 0 ≤ i) (h1 : i ≤ 2 ^ 32) : |(i : ℚ)| ≤ maxDouble := by
  apply big_le
  have h2 : (0 : ℚ) ≤ i := by exact_mod_cast h0
  have h3 : (i : ℚ) ≤ 2 ^ 32 := by exact_mod_cast h1
  rw [abs_of_nonneg h2]
  linarith

theorem one_le_fl (i : Int) (h : 1 ≤ i) : 1 ≤ fl (i : ℚ) := by
  have h1 : (1 : ℚ) ≤ i := by exact_mod_cast h
  have := fl_mono h1
  have e : fl (1 : ℚ) = 1 := by decide +kernel
  rwa [e] at this

theorem div_fin (a b : ℚ) (hb : 1 ≤ b) (ha : |a| ≤ 2 ^ 64) :
    Dbl.fin a / Dbl.fin b = Dbl.fin (fl (a / b)) := by
  show Dbl.div _ _ = _
  unfold Dbl.div
  dsimp only
  rw [if_neg (by linarith)]
  apply round_fin
  apply big_le
  rw [abs_div, abs_of_nonneg (by linarith : 0 ≤ b), div_le_iff₀ (by linarith)]
  nlinarith

theorem ratio_fin' (c : ℚ) (k : Int) (hc : |c| ≤ 2 ^ 64) (hk : 1 ≤ k) (hk1 : k ≤ 2 ^ 32) :
    ∃ d, Dbl.fin c / ((k : Int) : Dbl) = Dbl.fin d := by
  rw [intCast_fin _ (int_le_max _ (by omega) hk1)]
  exact ⟨_, div_fin _ _ (one_le_fl _ hk) hc⟩

theorem ratio_fin (c : ℚ) (s k : Int) (hc : 0 ≤ c) (hc1 : c ≤ 1) (hs : 0 ≤ s) (hs1 : s ≤ 2 ^ 32)
    (hk : 1 ≤ k) (hk1 : k ≤ 2 ^ 32) :
    ∃ d, Dbl.fin c * ((s : Int) : Dbl) / ((k : Int) : Dbl) = Dbl.fin d := by
  have hs2 : (0 : ℚ) ≤ s := by exact_mod_cast hs
  have hs3 : (s : ℚ) ≤ 2 ^ 32 := by exact_mod_cast hs1
  have h32 : fl ((2 : ℚ) ^ 32) = 2 ^ 32 := by decide +kernel
  have h0 := fl_nonneg hs2
  have h1 : fl (s : ℚ) ≤ 2 ^ 32 := by rw [← h32]; exact fl_mono hs3
  have h2 : 0 ≤ c * fl (s : ℚ) := by positivity
  have h3 : c * fl (s : ℚ) ≤ 2 ^ 32 := by nlinarith
  have hm : Dbl.fin c * Dbl.fin (fl (s : ℚ)) = Dbl.fin (fl (c * fl (s : ℚ))) := by
    apply round_fin
    apply big_le
    rw [abs_of_nonneg h2]
    linarith
  rw [intCast_fin _ (int_le_max _ hs hs1), hm]
  refine ratio_fin' _ k ?_ hk hk1
  rw [abs_of_nonneg (fl_nonneg h2)]
  have := fl_mono h3
  rw [h32] at this
  linarith

/-! ### Counting the outputs below a bound -/

theorem exists_cut (N : Nat) (P : Nat → Prop) (h : ∀ a b, a ≤ b → P b → P a) :
    ∃ c ≤ N, ∀ g < N, P g ↔ g < c := by
  induction N with
  | zero => exact ⟨0, le_rfl, by omega⟩
  | succ n ih =>
    by_cases hp : P n
    · exact ⟨n + 1, le_rfl, fun g hg => ⟨fun _ => hg, fun _ => h g n (by omega) hp⟩⟩
    · obtain ⟨c, hc, hg⟩ := ih
      refine ⟨c, by omega, fun g hgn => ?_⟩
      rcases Nat.lt_or_eq_of_le (Nat.le_of_lt_succ hgn) with h1 | h1
      · exact hg g h1
      · subst h1
        exact ⟨fun hx => absurd hx hp, fun hx => by omega⟩

theorem card_cut (N c : Nat) (hc : c ≤ N) (P : Nat → Prop) (h : ∀ g < N, P g ↔ g < c) :
    Nat.card {g : Fin N // P g.val} = c := by
  have : Nat.card {g : Fin N // P g.val} = Nat.card (Fin c) :=
    Nat.card_congr ⟨fun g => ⟨g.1.val, (h _ g.1.isLt).1 g.2⟩,
      fun x => ⟨⟨x.val, by have := x.isLt; omega⟩, (h _ (by have := x.isLt; omega)).2 x.isLt⟩,
      fun _ => rfl, fun _ => rfl⟩
  rw [this, Nat.card_fin]

theorem fl_nat_rel (g : Nat) : |fl (g : ℚ) - g| ≤ g / 2 ^ 53 := by
  rcases Nat.eq_zero_or_pos g with h | h
  · subst h; simp [fl_zero]
  · have h1 : (1 : ℚ) ≤ g := by exact_mod_cast h
    have h2 := flPos_rel (x := (g : ℚ)) (le_trans (by norm_num [zpow_neg]) h1)
    have h3 : fl (g : ℚ) = flPos (g : ℚ) := by unfold fl; rw [if_neg (by linarith)]
    rw [h3]
    refine h2.trans (le_of_eq ?_)
    rw [zpow_neg, div_eq_inv_mul]
    norm_cast

end Rand
