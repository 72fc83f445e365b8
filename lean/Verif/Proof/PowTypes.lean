import Verif.Model.PowTypes
import Verif.Spec.Random
import Verif.Proof.Pow
import Verif.Proof.Fraction
import Verif.Proof.MatrixHeap
import Verif.Proof.StatsDouble

/-! # Lemmas on `genericBinaryPow` for `Fraction`, `double` and `Matrix` -/

namespace PowTypes
open Cpp

/-! ### Fractions -/

section
open Fraction Fraction.Spec

theorem mk2_eq {n d : Int} {f : Frac} (hn : IsInt n) (hd : IsInt d) (h0 : 0 < d) (hc : Int.gcd n d = 1) (hf : mk2 n d = .ok f) :
    f = ⟨n, d⟩ := by
  obtain ⟨c, -, hx⟩ := mk2_spec hn hd hf
  apply val_inj c ⟨hn, hd, h0, hc⟩
  rw [val_of_cross c (by omega) hx]
  rfl

theorem mk2_small {n d : Int} (hn : Small n) (hd : Small d) (h0 : 0 < d) (hc : Int.gcd n d = 1) : mk2 n d = .ok ⟨n, d⟩ := by
  obtain ⟨f, hf⟩ := mk2_defined hn hd (by omega)
  rw [hf, mk2_eq (small_isInt hn) (small_isInt hd) h0 hc hf]

theorem int_cases (x : Int) : int x = .ub ∨ int x = .ok x := by
  unfold int; split <;> simp

theorem quot_cases (a b : Int) : MathFns.quot a b = .ub ∨ ∃ c, MathFns.quot a b = .ok c := by
  unfold MathFns.quot; split
  · simp
  · split <;> simp

theorem mk2_cases {n d : Int} (hn : IsInt n) (hd : IsInt d) (h0 : 0 < d) (hc : Int.gcd n d = 1) :
    mk2 n d = .ub ∨ mk2 n d = .ok ⟨n, d⟩ := by
  have h : mk2 n d = .ub ∨ ∃ f, mk2 n d = .ok f := by
    obtain ⟨g, e, -, -, -⟩ := MathFns.gcd_spec n d hn hd (by omega) (by unfold INT_MIN; omega)
    unfold mk2
    rw [if_neg (by omega), e, Out.ok_bind]
    rcases quot_cases n g with e1 | ⟨n1, e1⟩
    · left; rw [e1]; rfl
    rcases quot_cases d g with e2 | ⟨d1, e2⟩
    · left; rw [e1, e2]; rfl
    rw [e1, e2, Out.ok_bind, Out.ok_bind]
    rcases int_cases (n1 * -1) with e3 | e3 <;> rcases int_cases (d1.natAbs : Int) with e4 | e4 <;> rw [e3, e4] <;>
      by_cases hs : d1 < 0 <;> simp [hs]
  rcases h with h | ⟨f, h⟩
  · exact .inl h
  · right; rw [h, mk2_eq hn hd h0 hc h]

theorem gcd_pow {x y : Int} (h : Int.gcd x y = 1) (i : Nat) : Int.gcd (x ^ i) (y ^ i) = 1 := by
  rw [Int.gcd, Int.natAbs_pow, Int.natAbs_pow]
  exact Nat.Coprime.pow i i h

theorem mul_cases {x y : Int} (hy : 0 < y) (hc : Int.gcd x y = 1) (i j : Nat) :
    mulAssign ⟨x ^ i, y ^ i⟩ ⟨x ^ j, y ^ j⟩ = .ub ∨
      (mulAssign ⟨x ^ i, y ^ i⟩ ⟨x ^ j, y ^ j⟩ = .ok ⟨x ^ (i + j), y ^ (i + j)⟩ ∧ IsInt (x ^ (i + j)) ∧ IsInt (y ^ (i + j))) := by
  unfold mulAssign
  dsimp only
  rw [← pow_add, ← pow_add]
  by_cases h1 : IsInt (x ^ (i + j))
  · by_cases h2 : IsInt (y ^ (i + j))
    · rw [int_ok h1, int_ok h2, Out.ok_bind, Out.ok_bind]
      rcases mk2_cases h1 h2 (pow_pos hy _) (gcd_pow hc _) with h | h <;> rw [h]
      · left; rfl
      · right; exact ⟨rfl, h1, h2⟩
    · left
      rcases int_cases (y ^ (i + j)) with h | h
      · rw [int_ok h1, Out.ok_bind, h]; rfl
      · exact absurd (int_eq_ok.1 h).1 h2
  · left
    rcases int_cases (x ^ (i + j)) with h | h
    · rw [h]; rfl
    · exact absurd (int_eq_ok.1 h).1 h1

theorem mul_ok {x y : Int} (hy : 0 < y) (hc : Int.gcd x y = 1) {i j : Nat} (h1 : Small (x ^ (i + j))) (h2 : Small (y ^ (i + j))) :
    mulAssign ⟨x ^ i, y ^ i⟩ ⟨x ^ j, y ^ j⟩ = .ok ⟨x ^ (i + j), y ^ (i + j)⟩ := by
  unfold mulAssign
  dsimp only
  rw [← pow_add, ← pow_add, int_ok (small_isInt h1), int_ok (small_isInt h2), Out.ok_bind, Out.ok_bind,
    mk2_small h1 h2 (pow_pos hy _) (gcd_pow hc _)]
  rfl

/-- If the loop returns, the last square was in range. -/
theorem loop_range {x y : Int} (hy : 0 < y) (hc : Int.gcd x y = 1) (e : Nat) (he : e ≠ 0) (i j : Nat) :
    MathFns.genericLoop mulAssign ⟨x ^ i, y ^ i⟩ ⟨x ^ j, y ^ j⟩ e = .ub ∨
      IsInt (x ^ (j * 2 ^ (Nat.log2 e + 1))) ∧ IsInt (y ^ (j * 2 ^ (Nat.log2 e + 1))) := by
  induction e using Nat.strongRecOn generalizing i j with
  | _ e ih =>
    rw [MathFns.genericLoop_pos _ _ _ _ he]
    have key : ∀ i', (do
        let b ← mulAssign ⟨x ^ j, y ^ j⟩ ⟨x ^ j, y ^ j⟩
        MathFns.genericLoop mulAssign ⟨x ^ i', y ^ i'⟩ b (e / 2)) = .ub ∨
        IsInt (x ^ (j * 2 ^ (Nat.log2 e + 1))) ∧ IsInt (y ^ (j * 2 ^ (Nat.log2 e + 1))) := by
      intro i'
      rcases mul_cases hy hc j j with h | ⟨h, h1, h2⟩
      · left; rw [h]; rfl
      · rw [h, Out.ok_bind]
        by_cases h1e : e = 1
        · subst h1e
          right
          rw [MathFns.log2_one, zero_add, pow_one, mul_two]; exact ⟨h1, h2⟩
        · have h2e : 2 ≤ e := by omega
          rcases ih (e / 2) (by omega) (by omega) i' (j + j) with h | h
          · exact .inl h
          · right
            rw [MathFns.log2_half e h2e, pow_succ', ← mul_assoc, mul_two]
            exact h
    by_cases ho : e % 2 = 1
    · rw [if_pos ho]
      rcases mul_cases hy hc i j with h | ⟨h, -, -⟩
      · left; rw [h]; rfl
      · rw [h, Out.ok_bind]; exact key _
    · rw [if_neg ho, Out.ok_bind]; exact key _

/-- The loop returns if all powers up to the last square are in range. -/
theorem loop_ok {x y : Int} (hy : 0 < y) (hc : Int.gcd x y = 1) (N : Nat)
    (hs : ∀ k, 1 ≤ k → k ≤ N → Small (x ^ k) ∧ Small (y ^ k)) (e : Nat) (i j : Nat) (hi : 1 ≤ i) (hj : 1 ≤ j) (hij : i ≤ j)
    (hN : e ≠ 0 → j * 2 ^ (Nat.log2 e + 1) ≤ N) :
    MathFns.genericLoop mulAssign ⟨x ^ i, y ^ i⟩ ⟨x ^ j, y ^ j⟩ e = .ok ⟨x ^ (i + j * e), y ^ (i + j * e)⟩ := by
  induction e using Nat.strongRecOn generalizing i j with
  | _ e ih =>
    by_cases he : e = 0
    · subst he; rw [MathFns.genericLoop_zero]; simp
    rw [MathFns.genericLoop_pos _ _ _ _ he]
    have hN := hN he
    have h2j : 2 * j ≤ N := by
      refine le_trans ?_ hN
      rw [pow_succ']
      have := Nat.one_le_two_pow (n := Nat.log2 e)
      nlinarith
    have hbb := mul_ok hy hc (hs (j + j) (by omega) (by omega)).1 (hs (j + j) (by omega) (by omega)).2
    have hN' : e / 2 ≠ 0 → (j + j) * 2 ^ (Nat.log2 (e / 2) + 1) ≤ N := by
      intro h
      rw [MathFns.log2_half e (by omega), pow_succ', ← mul_assoc, mul_two] at hN
      exact hN
    have hd := Nat.div_add_mod e 2
    by_cases ho : e % 2 = 1
    · rw [if_pos ho, mul_ok hy hc (hs (i + j) (by omega) (by omega)).1 (hs (i + j) (by omega) (by omega)).2, Out.ok_bind, hbb,
        Out.ok_bind, ih (e / 2) (by omega) (i + j) (j + j) (by omega) (by omega) (by omega) hN']
      have : i + j + (j + j) * (e / 2) = i + j * e := by
        conv_rhs => rw [← hd, ho]
        ring
      rw [this]
    · rw [if_neg ho, Out.ok_bind, hbb, Out.ok_bind, ih (e / 2) (by omega) i (j + j) hi (by omega) (by omega) hN']
      have : i + (j + j) * (e / 2) = i + j * e := by
        conv_rhs => rw [← hd, show e % 2 = 0 by omega]
        ring
      rw [this]

theorem small_pow {x : Int} {E : Nat} (h : x ^ E ≤ INT_MAX) (hE : 2 ∣ E) (h0 : E ≠ 0) {k : Nat} (hk : k ≤ E) (hk1 : 1 ≤ k) : Small (x ^ k) := by
  rw [isInt_small_iff, Int.natAbs_pow]
  obtain ⟨m, rfl⟩ := hE
  have h1 : (x.natAbs : Int) ^ (2 * m) ≤ INT_MAX := by
    rw [Int.natCast_natAbs, pow_mul, sq_abs, ← pow_mul]; exact h
  have h2 : x.natAbs ^ (2 * m) ≤ 2147483647 := by
    unfold INT_MAX at h1; exact_mod_cast h1
  by_cases hx : x.natAbs = 0
  · rw [hx, zero_pow (by omega)]; omega
  · exact (Nat.pow_le_pow_right (by omega) hk).trans h2

theorem fraction_spec {f : Frac} (hf : Canonical f) {n : Nat} (hn : 2 ≤ n) :
    fraction f n = if f.num ^ 2 ^ (Nat.log2 (n - 1) + 1) ≤ INT_MAX ∧ f.den ^ 2 ^ (Nat.log2 (n - 1) + 1) ≤ INT_MAX then
      .ok ⟨f.num ^ n, f.den ^ n⟩ else .ub := by
  obtain ⟨x, y⟩ := f
  have hy : 0 < y := hf.den_pos
  have hc : Int.gcd x y = 1 := hf.coprime
  unfold fraction MathFns.genericBinaryPow
  rw [if_neg (by omega), if_neg (by omega), if_neg (by omega), if_neg (by omega), show ((n : Int) - 1).toNat = n - 1 by omega]
  have h1 : (⟨x, y⟩ : Frac) = ⟨x ^ 1, y ^ 1⟩ := by rw [pow_one, pow_one]
  split
  · rename_i h
    have h2 : 2 ∣ 2 ^ (Nat.log2 (n - 1) + 1) := ⟨2 ^ Nat.log2 (n - 1), by rw [pow_succ']⟩
    have := loop_ok hy hc (2 ^ (Nat.log2 (n - 1) + 1))
      (fun k h3 h4 => ⟨small_pow h.1 h2 (by positivity) h4 h3, small_pow h.2 h2 (by positivity) h4 h3⟩) (n - 1) 1 1 le_rfl le_rfl le_rfl
      (by intro; rw [one_mul])
    rw [← h1, show 1 + 1 * (n - 1) = n by omega] at this
    exact this
  · rename_i h
    rcases loop_range hy hc (n - 1) (by omega) 1 1 with h3 | h3
    · rw [← h1] at h3; exact h3
    · rw [one_mul] at h3
      exact absurd ⟨h3.1.2, h3.2.2⟩ h

end

/-! ### Doubles -/

section
/-- Half a unit in the last place of one. -/
def u : ℚ := 1 / 2 ^ 53

theorem u_pos : 0 < u := by unfold u; norm_num

/-- `y` is `x` after `k` roundings. -/
def Near (k : Nat) (x y : ℚ) : Prop := |y - x| ≤ ((1 + u) ^ k - 1) * |x|

theorem one_le (k : Nat) : 1 ≤ (1 + u) ^ k := one_le_pow₀ (by linarith [u_pos])

theorem hi_le (m : Nat) (h : (m : ℚ) * u ≤ 1 / 2) : (1 + u) ^ m ≤ 1 + 2 * (m * u) := by
  induction m with
  | zero => simp
  | succ m ih =>
    have hu := u_pos
    have h1 : (m : ℚ) * u ≤ 1 / 2 := by push_cast at h; nlinarith
    have h2 := ih h1
    have h3 : (0 : ℚ) ≤ m * u := by positivity
    rw [pow_succ]
    push_cast at h ⊢
    nlinarith

theorem Near.mul {k l : Nat} {x x' y y' : ℚ} (h : Near k x y) (h' : Near l x' y') : Near (k + l) (x * x') (y * y') := by
  unfold Near at *
  have e : y * y' - x * x' = (y - x) * (y' - x') + (y - x) * x' + x * (y' - x') := by ring
  have ha := one_le k
  have hb := one_le l
  rw [e, abs_mul, pow_add]
  calc |(y - x) * (y' - x') + (y - x) * x' + x * (y' - x')|
      ≤ |y - x| * |y' - x'| + |y - x| * |x'| + |x| * |y' - x'| := by
        refine (abs_add_le _ _).trans (add_le_add ((abs_add_le _ _).trans (add_le_add ?_ ?_)) ?_) <;> rw [abs_mul]
    _ ≤ ((1 + u) ^ k - 1) * |x| * (((1 + u) ^ l - 1) * |x'|) + ((1 + u) ^ k - 1) * |x| * |x'| + |x| * (((1 + u) ^ l - 1) * |x'|) := by
        have h1 : (0 : ℚ) ≤ ((1 + u) ^ k - 1) * |x| := mul_nonneg (by linarith) (abs_nonneg _)
        gcongr
    _ = _ := by ring

theorem fl_rel {y : ℚ} (h : 2 ^ (-1022 : Int) ≤ |y|) : |fl y - y| ≤ u * |y| := by
  have hu : u = 2 ^ (-53 : Int) := by unfold u; norm_num
  have h0 : (0 : ℚ) < 2 ^ (-1022 : Int) := by positivity
  rw [hu]
  rcases le_or_gt 0 y with hy | hy
  · rw [abs_of_nonneg hy] at h ⊢
    unfold fl; rw [if_neg (not_lt.2 hy)]
    exact flPos_rel h
  · rw [abs_of_neg hy] at h ⊢
    unfold fl; rw [if_pos hy]
    have := flPos_rel h
    rw [← abs_neg]
    rw [show -(-flPos (-y) - y) = flPos (-y) - -y by ring]
    exact this

theorem Near.round {k : Nat} {x y : ℚ} (h : Near k x y) (hy : 2 ^ (-1022 : Int) ≤ |y|) : Near (k + 1) x (fl y) := by
  unfold Near at *
  have h1 := fl_rel hy
  have h2 : |y| ≤ (1 + u) ^ k * |x| := by
    have : |y| ≤ |y - x| + |x| := by
      have := abs_add_le (y - x) x
      rwa [sub_add_cancel] at this
    linarith
  have h3 : |fl y - x| ≤ |fl y - y| + |y - x| := abs_sub_le _ _ _
  rw [pow_succ]
  have := u_pos
  nlinarith

theorem Near.bounds {k : Nat} {x y : ℚ} (h : Near k x y) (hk : (k : ℚ) * u ≤ 1 / 4) : |x| / 2 ≤ |y| ∧ |y| ≤ 3 / 2 * |x| := by
  unfold Near at h
  have h1 := hi_le k (by linarith)
  have h2 : |y - x| ≤ 1 / 2 * |x| := by
    refine h.trans (mul_le_mul_of_nonneg_right (by linarith) (abs_nonneg _))
  have h3 : |x| ≤ |y - x| + |y| := by
    have := abs_sub_le x y 0
    rw [sub_zero, sub_zero, abs_sub_comm] at this
    exact this
  have h4 : |y| ≤ |y - x| + |x| := by
    have := abs_add_le (y - x) x
    rwa [sub_add_cancel] at this
  constructor <;> linarith

theorem maxDouble_ge2 : 3 / 2 * (2 : ℚ) ^ 1022 ≤ Rand.maxDouble := by
  unfold Rand.maxDouble
  rw [show (2 : ℚ) ^ 1022 = 2 ^ 51 * 2 ^ 971 by rw [← pow_add], ← mul_assoc]
  apply mul_le_mul_of_nonneg_right _ (by positivity)
  norm_num

theorem pow_between {p : ℚ} {n : Nat} (h0 : 2 ^ (-1021 : Int) ≤ |p| ^ n) (h1 : |p| ^ n ≤ 2 ^ 1022) {k : Nat} (hk : k ≤ n) :
    2 ^ (-1021 : Int) ≤ |p ^ k| ∧ |p ^ k| ≤ 2 ^ 1022 := by
  rw [abs_pow]
  rcases le_total |p| 1 with h | h
  · exact ⟨h0.trans (pow_le_pow_of_le_one (abs_nonneg _) h hk), (pow_le_one₀ (abs_nonneg _) h).trans (one_le_pow₀ (by norm_num))⟩
  · refine ⟨le_trans ?_ (one_le_pow₀ h), (pow_le_pow_right₀ h hk).trans h1⟩
    exact zpow_le_one_of_nonpos₀ (by norm_num) (by norm_num)

theorem pow_step {p : ℚ} {n : Nat} (hn : n ≤ 2 ^ 51) (h0 : 2 ^ (-1021 : Int) ≤ |p| ^ n) (h1 : |p| ^ n ≤ 2 ^ 1022) {i j : Nat} {a b : ℚ}
    (hi : 1 ≤ i) (hj : 1 ≤ j) (hij : i + j ≤ n) (ha : Near (i - 1) (p ^ i) a) (hb : Near (j - 1) (p ^ j) b) :
    Dbl.fin a * Dbl.fin b = .fin (fl (a * b)) ∧ Near (i + j - 1) (p ^ (i + j)) (fl (a * b)) := by
  have h := ha.mul hb
  rw [← pow_add] at h
  obtain ⟨l, r⟩ := pow_between h0 h1 (k := i + j) hij
  obtain ⟨l2, r2⟩ := h.bounds (by
    have h3 : ((i - 1 + (j - 1) : Nat) : ℚ) ≤ 2 ^ 51 := by exact_mod_cast (show i - 1 + (j - 1) ≤ 2 ^ 51 by omega)
    calc _ ≤ (2 : ℚ) ^ 51 * u := mul_le_mul_of_nonneg_right h3 u_pos.le
      _ ≤ 1 / 4 := by unfold u; norm_num)
  constructor
  · rw [Stats.mul_dbl, Rand.round_fin]
    exact r2.trans (le_trans (by linarith) maxDouble_ge2)
  · rw [show i + j - 1 = i - 1 + (j - 1) + 1 by omega]
    apply h.round
    refine le_trans ?_ l2
    rw [show (-1022 : Int) = -1021 - 1 by norm_num, zpow_sub₀ (by norm_num), zpow_one]
    linarith

/-- The loop on doubles: the values computed satisfy `R i` if they stand for the `i`-th power. -/
theorem dbl_loop (R : Nat → ℚ → Prop) (n : Nat)
    (step : ∀ i j a b, 1 ≤ i → 1 ≤ j → i + j ≤ n → R i a → R j b → ∃ c, Dbl.fin a * Dbl.fin b = .fin c ∧ R (i + j) c) (e : Nat) :
    ∀ (i j : Nat) (a : ℚ) (base : Dbl), i + j * e = n → 1 ≤ i → 1 ≤ j → R i a → (e ≠ 0 → ∃ b, base = .fin b ∧ R j b) →
    ∃ q, MathFns.genericLoop (fun x y => .ok (x * y)) (Dbl.fin a) base e = .ok (.fin q) ∧ R n q := by
  induction e using Nat.strongRecOn with
  | _ e ih =>
    intro i j a base hn hi hj ha hB
    by_cases he : e = 0
    · subst he
      rw [MathFns.genericLoop_zero]
      rw [mul_zero, add_zero] at hn
      subst hn
      exact ⟨a, rfl, ha⟩
    rw [MathFns.genericLoop_pos _ _ _ _ he]
    obtain ⟨b, rfl, hb⟩ := hB he
    have hd := Nat.div_add_mod e 2
    have hje : j ≤ j * e := Nat.le_mul_of_pos_right _ (by omega)
    have hbase : e / 2 ≠ 0 → ∃ b', Dbl.fin b * Dbl.fin b = .fin b' ∧ R (2 * j) b' := by
      intro h2
      have h2e : 2 ≤ e := by omega
      have : j + j ≤ n := by nlinarith
      rw [two_mul]
      exact step j j b b hj hj this hb hb
    by_cases ho : e % 2 = 1
    · rw [if_pos ho]
      obtain ⟨c, h3, h4⟩ := step i j a b hi hj (by omega) ha hb
      rw [h3]
      simp only [Out.ok_bind]
      refine ih (e / 2) (by omega) (i + j) (2 * j) c _ ?_ (by omega) (by omega) h4 hbase
      rw [← hn]
      conv_rhs => rw [← hd, ho]
      ring
    · rw [if_neg ho]
      simp only [Out.ok_bind]
      refine ih (e / 2) (by omega) i (2 * j) a _ ?_ (by omega) (by omega) ha hbase
      rw [← hn]
      conv_rhs => rw [← hd, show e % 2 = 0 by omega]
      ring

theorem double_of_step (R : Nat → ℚ → Prop) (q : ℚ) (n : Nat) (hn : 1 ≤ n)
    (step : ∀ i j a b, 1 ≤ i → 1 ≤ j → i + j ≤ n → R i a → R j b → ∃ c, Dbl.fin a * Dbl.fin b = .fin c ∧ R (i + j) c) (h1 : R 1 q) :
    ∃ r, double (.fin q) n = .ok (.fin r) ∧ R n r := by
  unfold double MathFns.genericBinaryPow
  rw [if_neg (by omega)]
  by_cases h : (n : Int) = 1
  · rw [if_pos h]
    obtain rfl : n = 1 := by omega
    exact ⟨q, rfl, h1⟩
  · rw [if_neg h, if_neg (by omega), show ((n : Int) - 1).toNat = n - 1 by omega]
    exact dbl_loop R n step (n - 1) 1 1 q _ (by omega) le_rfl le_rfl h1 (fun _ => ⟨q, rfl, h1⟩)

end

/-! ### Matrices -/

section
open Matrix Matrix.Mem Matrix.Spec
variable {α : Type}

/-- A temporary matrix and a second one are made, and the temporary one is destroyed. -/
theorem temp_ok {h h1 h2 : Heap α} {b r : Obj} {pb pr : List Nat} {A B : Value α} (hw : ∀ a, h.next ≤ a → h.cell a = none)
    (P1 : Own h1 b pb A) (n1 : (fp b pb).Nodup) (f1 : Fresh h h1 (fp b pb)) (P2 : Own h2 r pr B) (n2 : (fp r pr).Nodup)
    (f2 : Fresh h1 h2 (fp r pr)) :
    ∃ h3 h4, clear h2 b = .ok h3 ∧ Own h3 r pr B ∧ clear h3 r = .ok h4 ∧ (∀ a, a < h.next → h3.cell a = h.cell a) ∧ ∀ a, h4.cell a = h.cell a := by
  have w1 := f1.wf
  obtain ⟨h3, e3, -, c3⟩ := clear_ok (P1.fresh w1 f2) n1
  have hd : ∀ a ∈ fp r pr, a ∉ fp b pb := fun a ha hb => by
    have := (f2.bound a ha).1
    have := (f1.bound a hb).2
    omega
  have P3 : Own h3 r pr B := P2.frame fun a ha => by rw [c3, if_neg (hd a ha)]
  obtain ⟨h4, e4, -, c4⟩ := clear_ok P3 n2
  have hold : ∀ a, a < h.next → h3.cell a = h.cell a := by
    intro a ha
    rw [c3, if_neg (fun hb => by have := (f1.bound a hb).1; omega), f2.old a (by have := f1.next; omega), f1.old a ha]
  refine ⟨h3, h4, e3, P3, e4, hold, fun a => ?_⟩
  rw [c4]
  by_cases hr : a ∈ fp r pr
  · rw [if_pos hr, hw]
    have := (f2.bound a hr).1
    have := f1.next
    omega
  · rw [if_neg hr]
    by_cases ha : a < h.next
    · exact hold a ha
    · rw [c3]
      by_cases hb : a ∈ fp b pb
      · rw [if_pos hb, hw a (by omega)]
      · rw [if_neg hb, hw a (by omega)]
        by_cases ha1 : a < h1.next
        · rw [f2.old a ha1]
          have := (f1.live a (by omega)).not.2 hb
          simpa using this
        · have := (f2.live a (by omega)).not.2 hr
          simpa using this

theorem matrix_one {ar : Arith α} {h : Heap α} {x : Obj} {ps : List Nat} {A : Value α} (P : Own h x ps A)
    (hw : ∀ a, h.next ≤ a → h.cell a = none) :
    ∃ r pr h3 h4, matrix ar h x 1 = .ok (r, h3) ∧ Own h3 r pr A ∧ clear h3 r = .ok h4 ∧ (∀ a, a < h.next → h3.cell a = h.cell a) ∧
      ∀ a, h4.cell a = h.cell a := by
  obtain ⟨b, pb, h1, e1, P1, n1, f1⟩ := deepCopy_ok P hw
  obtain ⟨r, pr, h2, e2, P2, n2, f2⟩ := deepCopy_ok P1 (f1.wf)
  obtain ⟨h3, h4, e3, P3, e4, c3, c4⟩ := temp_ok hw P1 n1 f1 P2 n2 f2
  refine ⟨r, pr, h3, h4, ?_, P3, e4, c3, c4⟩
  unfold matrix
  rw [e1, Out.ok_bind]
  dsimp only
  rw [if_neg (by decide), if_pos rfl, e2, Out.ok_bind]
  dsimp only
  rw [e3, Out.ok_bind]

theorem matrix_zero {ar : Arith α} {h : Heap α} {x : Obj} {ps : List Nat} {A : Value α} (P : Own h x ps A)
    (hw : ∀ a, h.next ≤ a → h.cell a = none) :
    ∃ r pr h3, matrix ar h x 0 = .ok (r, h3) ∧ Own h3 r pr ⟨1, 1, fun _ _ => ar.zero⟩ := by
  obtain ⟨b, pb, h1, e1, P1, n1, f1⟩ := deepCopy_ok P hw
  obtain ⟨r, pr, h2, e2, P2, n2, f2⟩ := make_ok (ar := ar) (f1.wf) 1 1
  obtain ⟨h3, h4, e3, P3, e4, c3, c4⟩ := temp_ok hw P1 n1 f1 P2 n2 f2
  refine ⟨r, pr, h3, ?_, P3⟩
  unfold matrix
  rw [e1, Out.ok_bind]
  dsimp only
  rw [if_pos rfl, e2, Out.ok_bind]
  dsimp only
  rw [e3, Out.ok_bind]

theorem matrix_neg {ar : Arith α} {h : Heap α} {x : Obj} {ps : List Nat} {A : Value α} (P : Own h x ps A)
    (hw : ∀ a, h.next ≤ a → h.cell a = none) {n : Int} (hn : n < 0) : matrix ar h x n = .exit := by
  obtain ⟨b, pb, h1, e1, P1, n1, f1⟩ := deepCopy_ok P hw
  unfold matrix
  rw [e1, Out.ok_bind]
  dsimp only
  rw [if_neg (by omega), if_neg (by omega), if_pos hn]

variable [Field α] [DecidableEq α]

theorem matrix_ub {h : Heap α} {x : Obj} {ps : List Nat} {A : Value α} (P : Own h x ps A)
    (hw : ∀ a, h.next ≤ a → h.cell a = none) {n : Int} (hn : 2 ≤ n) :
    matrix (Arith.exact α) h x n = if A.rows = A.cols then .ub else .exit := by
  obtain ⟨b, pb, h1, e1, P1, n1, f1⟩ := deepCopy_ok P hw
  have w1 := f1.wf
  obtain ⟨r, pr, h2, e2, P2, n2, f2⟩ := deepCopy_ok P1 w1
  have w2 := f2.wf
  have P1' := P1.fresh w1 f2
  unfold matrix
  rw [e1, Out.ok_bind]
  dsimp only
  rw [if_neg (show ¬ n = 0 by omega), if_neg (show ¬ n = 1 by omega), if_neg (show ¬ n < 0 by omega), e2, Out.ok_bind]
  dsimp only
  unfold matrixLoop
  rw [if_neg (show ¬ (n - 1).toNat = 0 by omega)]
  by_cases hs : A.rows = A.cols
  · rw [if_pos hs]
    by_cases ho : (n - 1).toNat % 2 = 1
    · rw [if_pos ho, timesAssign_ub P2 P1' n2 w2 hs.symm]; rfl
    · rw [if_neg ho, Out.ok_bind]
      dsimp only
      rw [timesAssign_ub P1' P1' n1 w2 hs.symm]; rfl
  · rw [if_neg hs]
    by_cases ho : (n - 1).toNat % 2 = 1
    · rw [if_pos ho, Mem.timesAssign, if_pos (by rw [P2.1.col, P1'.1.row]; exact fun c => hs c.symm)]; rfl
    · rw [if_neg ho, Out.ok_bind]
      dsimp only
      rw [Mem.timesAssign, if_pos (by rw [P1'.1.col, P1'.1.row]; exact fun c => hs c.symm)]; rfl

end
end PowTypes
