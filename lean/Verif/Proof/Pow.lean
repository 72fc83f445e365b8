import Verif.Model.MathFns
import Verif.Spec.MathFns
import Mathlib.Algebra.Order.Ring.Int
import Mathlib.Algebra.Order.Ring.Abs
import Mathlib.Data.Int.ModEq
import Mathlib.Tactic.Ring
import Mathlib.Tactic.Linarith
import Mathlib.Tactic.NormNum

namespace MathFns
open Cpp

theorem powLoop_zero (ar : Int → Out Int) (r b : Int) : powLoop ar r b 0 = .ok r := by
  unfold powLoop; rfl

theorem powLoop_pos (ar : Int → Out Int) (r b : Int) (e : Nat) (h : e ≠ 0) :
    powLoop ar r b e = (do
      let r ← (if e % 2 = 1 then ar (r * b) else .ok r)
      let b ← ar (b * b)
      powLoop ar r b (e / 2)) := by
  rw [powLoop, if_neg h]

theorem pow_split (b : Int) (e : Nat) : b ^ e = (if e % 2 = 1 then b else 1) * (b * b) ^ (e / 2) := by
  conv_lhs => rw [← Nat.div_add_mod e 2, pow_add, pow_mul]
  rcases Nat.mod_two_eq_zero_or_one e with h | h <;> simp [h] <;> ring

theorem powLoop_correct (r b x : Int) (e : Nat) (h : powLoop int64 r b e = .ok x) :
    x = r * b ^ e := by
  induction e using Nat.strongRecOn generalizing r b with
  | _ e ih =>
    by_cases he : e = 0
    · subst he; rw [powLoop_zero] at h; simp at h; simp [h]
    · rw [powLoop_pos _ _ _ _ he] at h
      obtain ⟨r', h1, h⟩ := Out.bind_eq_ok.mp h
      obtain ⟨b', h2, h⟩ := Out.bind_eq_ok.mp h
      rw [int64_eq_ok] at h2
      rw [ih (e / 2) (by omega) r' b' h, ← h2.2, pow_split b e, ← mul_assoc]
      congr 1
      split at h1
      · rename_i ho; rw [int64_eq_ok] at h1; rw [if_pos ho, h1.2]
      · rename_i ho; simp at h1; rw [if_neg ho, h1, mul_one]

theorem log2_half (e : Nat) (h : 2 ≤ e) : Nat.log2 e = Nat.log2 (e / 2) + 1 := by
  rw [Nat.log2_def, if_pos h]

theorem log2_one : Nat.log2 1 = 0 := by decide

/-- the squarings performed stay in range exactly if the last one does -/
theorem powLoop_range (r b x : Int) (e : Nat) (h0 : e ≠ 0) (h : powLoop int64 r b e = .ok x) :
    IsInt64 (b ^ 2 ^ (Nat.log2 e + 1)) := by
  induction e using Nat.strongRecOn generalizing r b with
  | _ e ih =>
    rw [powLoop_pos _ _ _ _ h0] at h
    obtain ⟨r', _, h⟩ := Out.bind_eq_ok.mp h
    obtain ⟨b', h2, h⟩ := Out.bind_eq_ok.mp h
    rw [int64_eq_ok] at h2
    by_cases he : e = 1
    · subst he; rw [log2_one]; rw [zero_add, pow_one, pow_two]; exact h2.1
    · have := ih (e / 2) (by omega) r' b' (by omega) h
      rw [← h2.2, ← log2_half e (by omega)] at this
      rw [pow_succ', pow_mul, pow_two]; exact this

theorem isInt64_of_abs {x : Int} (h : |x| ≤ INT64_MAX) : IsInt64 x := by
  have := abs_le.mp h
  unfold IsInt64 INT64_MIN
  unfold INT64_MAX at *
  omega

theorem powLoop_defined (r b : Int) (e : Nat) (B : Int) (hB : 1 ≤ B) (hb : |b| ≤ B)
    (h1 : |r| * B ^ e ≤ INT64_MAX) (h2 : B ^ 2 ^ (Nat.log2 e + 1) ≤ INT64_MAX) :
    ∃ x, powLoop int64 r b e = .ok x := by
  induction e using Nat.strongRecOn generalizing r b B with
  | _ e ih =>
    by_cases he : e = 0
    · subst he; exact ⟨r, powLoop_zero _ _ _⟩
    · rw [powLoop_pos _ _ _ _ he]
      have hBB : 1 ≤ B * B := one_le_mul_of_one_le_of_one_le hB hB
      have hbb : |b * b| ≤ B * B := by
        rw [abs_mul]; exact mul_le_mul hb hb (abs_nonneg _) (by omega)
      have hBp : B * B ≤ B ^ 2 ^ (Nat.log2 e + 1) := by
        rw [← pow_two]
        apply pow_le_pow_right₀ hB
        rw [pow_succ']
        have := Nat.one_le_two_pow (n := Nat.log2 e)
        omega
      have hr : ∃ r', (if e % 2 = 1 then int64 (r * b) else .ok r) = .ok r' ∧
          |r'| * (B * B) ^ (e / 2) ≤ |r| * B ^ e := by
        by_cases ho : e % 2 = 1
        · rw [if_pos ho]
          have hrb : |r * b| ≤ |r| * B := by
            rw [abs_mul]; exact mul_le_mul_of_nonneg_left hb (abs_nonneg _)
          have hB1 : B ≤ B ^ e := by
            conv_lhs => rw [← pow_one B]
            exact pow_le_pow_right₀ hB (by omega)
          refine ⟨r * b, int64_ok (isInt64_of_abs ?_), ?_⟩
          · refine hrb.trans (le_trans ?_ h1)
            exact mul_le_mul_of_nonneg_left hB1 (abs_nonneg _)
          · rw [pow_split B e, if_pos ho, ← mul_assoc]
            exact mul_le_mul_of_nonneg_right hrb (by positivity)
        · rw [if_neg ho]
          refine ⟨r, rfl, ?_⟩
          rw [pow_split B e, if_neg ho, one_mul]
      obtain ⟨r', e1, hr'⟩ := hr
      rw [e1, Out.ok_bind, int64_ok (isInt64_of_abs (hbb.trans (hBp.trans h2))), Out.ok_bind]
      by_cases h1e : e = 1
      · subst h1e
        exact ⟨r', powLoop_zero _ _ _⟩
      · refine ih (e / 2) (by omega) r' (b * b) (B * B) hBB hbb (hr'.trans h1) ?_
        rw [← pow_two, ← pow_mul, ← pow_succ', ← log2_half e (by omega)]
        exact h2

theorem powLoop_one_defined (b : Int) (e : Nat)
    (h : IsInt64 (b ^ 2 ^ (Nat.log2 e + 1))) : ∃ x, powLoop int64 1 b e = .ok x := by
  have hev : |b| ^ 2 ^ (Nat.log2 e + 1) = b ^ 2 ^ (Nat.log2 e + 1) := by
    rw [pow_succ', pow_mul, pow_mul, sq_abs]
  by_cases hb : b = 0
  · subst hb
    refine powLoop_defined 1 0 e 1 (le_refl _) (by simp) (by simp; decide) (by simp; decide)
  · have hb1 : 1 ≤ |b| := Int.one_le_abs hb
    have h2 : |b| ^ 2 ^ (Nat.log2 e + 1) ≤ INT64_MAX := by rw [hev]; exact h.2
    refine powLoop_defined 1 b e |b| hb1 (le_refl _) ?_ h2
    rw [abs_one, one_mul]
    refine le_trans (pow_le_pow_right₀ hb1 ?_) h2
    exact Nat.lt_log2_self.le

theorem powLoop_outcome (r b : Int) (e : Nat) :
    powLoop int64 r b e = .ub ∨ ∃ x, powLoop int64 r b e = .ok x := by
  induction e using Nat.strongRecOn generalizing r b with
  | _ e ih =>
    by_cases he : e = 0
    · subst he; exact .inr ⟨r, powLoop_zero _ _ _⟩
    · rw [powLoop_pos _ _ _ _ he]
      have hi : ∀ x, int64 x = .ub ∨ int64 x = .ok x := by
        intro x; unfold int64; split <;> simp
      have h1 : (if e % 2 = 1 then int64 (r * b) else .ok r) = .ub ∨
          ∃ r', (if e % 2 = 1 then int64 (r * b) else .ok r) = .ok r' := by
        split
        · rcases hi (r * b) with h | h <;> simp [h]
        · simp
      rcases h1 with h | ⟨r', h⟩ <;> rw [h]
      · simp
      · rcases hi (b * b) with h' | h' <;> simp only [h', Out.ok_bind, Out.ub_bind]
        · simp
        · exact ih _ (by omega) _ _

/-! ### wrapping arithmetic -/

theorem bmod_range (x : Int) : -2 ^ 63 ≤ x.bmod (2 ^ 64) ∧ x.bmod (2 ^ 64) < 2 ^ 63 := by
  have h1 := Int.le_bmod (x := x) (m := 2 ^ 64) (by decide)
  have h2 := Int.bmod_lt (x := x) (m := 2 ^ 64) (by decide)
  norm_num at *
  omega

theorem bmod_of_range (x : Int) (h : -2 ^ 63 ≤ x ∧ x < 2 ^ 63) : x.bmod (2 ^ 64) = x := by
  apply Int.bmod_eq_of_le <;> norm_num at * <;> omega

theorem powLoop_wrap (r b : Int) (e : Nat) (hr : -2 ^ 63 ≤ r ∧ r < 2 ^ 63) :
    powLoop wrap64 r b e = .ok ((r * b ^ e).bmod (2 ^ 64)) := by
  induction e using Nat.strongRecOn generalizing r b with
  | _ e ih =>
    by_cases he : e = 0
    · subst he; rw [powLoop_zero, pow_zero, mul_one, bmod_of_range r hr]
    · rw [powLoop_pos _ _ _ _ he]
      have hbb : ∀ k : Nat, ((b * b).bmod (2 ^ 64)) ^ k ≡ (b * b) ^ k [ZMOD ((2 ^ 64 : Nat) : Int)] := by
        intro k
        apply Int.ModEq.pow
        rw [Int.ModEq, Int.bmod_emod]
      have key : ∀ x y : Int, x ≡ y [ZMOD ((2 ^ 64 : Nat) : Int)] → x.bmod (2 ^ 64) = y.bmod (2 ^ 64) := by
        intro x y h
        unfold Int.bmod
        rw [show x % ((2 ^ 64 : Nat) : Int) = y % ((2 ^ 64 : Nat) : Int) from h]
      by_cases ho : e % 2 = 1
      · rw [if_pos ho]
        simp only [wrap64, Out.ok_bind]
        have := ih (e / 2) (by omega) ((r * b).bmod (2 ^ 64)) ((b * b).bmod (2 ^ 64)) (bmod_range _)
        rw [this]
        congr 1
        apply key
        rw [pow_split b e, if_pos ho, ← mul_assoc]
        apply Int.ModEq.mul _ (hbb _)
        rw [Int.ModEq, Int.bmod_emod]
      · rw [if_neg ho]
        simp only [wrap64, Out.ok_bind]
        have := ih (e / 2) (by omega) r ((b * b).bmod (2 ^ 64)) hr
        rw [this]
        congr 1
        apply key
        rw [pow_split b e, if_neg ho, one_mul]
        exact Int.ModEq.mul rfl (hbb _)

/-! ### generic power -/

section
variable {α : Type u} {S : Type v} [Semigroup S]

theorem iter_add (x : S) (m n : Nat) : Spec.iter x (m + n + 1) = Spec.iter x m * Spec.iter x n := by
  induction n with
  | zero => rfl
  | succ n ih =>
    rw [show m + (n + 1) + 1 = (m + n + 1) + 1 from rfl]
    show Spec.iter x (m + n + 1) * x = Spec.iter x m * (Spec.iter x n * x)
    rw [ih, mul_assoc]

theorem iter_mul (x : S) (m : Nat) (n : Nat) :
    Spec.iter (Spec.iter x m) n = Spec.iter x ((m + 1) * (n + 1) - 1) := by
  induction n with
  | zero => simp [Spec.iter]
  | succ n ih =>
    show Spec.iter (Spec.iter x m) n * Spec.iter x m = _
    rw [ih, ← iter_add]
    congr 1
    have : 1 ≤ (m + 1) * (n + 1) := Nat.mul_pos (by omega) (by omega)
    rw [show (m + 1) * (n + 1 + 1) = (m + 1) * (n + 1) + (m + 1) by ring]
    omega

theorem genericLoop_zero (mul : α → α → Out α) (r b : α) : genericLoop mul r b 0 = .ok r := by
  unfold genericLoop; rfl

theorem genericLoop_pos (mul : α → α → Out α) (r b : α) (e : Nat) (h : e ≠ 0) :
    genericLoop mul r b e = (do
      let r ← (if e % 2 = 1 then mul r b else .ok r)
      let b ← mul b b
      genericLoop mul r b (e / 2)) := by
  rw [genericLoop, if_neg h]

/-- If `*=` respects the value `φ` whenever it returns, so does the loop. -/
theorem genericLoop_correct (mul : α → α → Out α) (φ : α → S)
    (hmul : ∀ x y z, mul x y = .ok z → φ z = φ x * φ y) (x : S) (m k : Nat) (e : Nat) (r b y : α)
    (hr : φ r = Spec.iter x m) (hb : φ b = Spec.iter x k)
    (h : genericLoop mul r b e = .ok y) : φ y = Spec.iter x (m + (k + 1) * e) := by
  induction e using Nat.strongRecOn generalizing r b m k with
  | _ e ih =>
    by_cases he : e = 0
    · subst he; rw [genericLoop_zero] at h; simp at h; rw [← h, hr]; simp
    · rw [genericLoop_pos _ _ _ _ he] at h
      obtain ⟨r', h1, h⟩ := Out.bind_eq_ok.mp h
      obtain ⟨b', h2, h⟩ := Out.bind_eq_ok.mp h
      have hb' : φ b' = Spec.iter x (k + k + 1) := by rw [hmul _ _ _ h2, hb, iter_add]
      have hd := Nat.div_add_mod e 2
      split at h1
      · rename_i ho
        have hr' : φ r' = Spec.iter x (m + k + 1) := by rw [hmul _ _ _ h1, hr, hb, iter_add]
        rw [ih _ (by omega) _ _ _ _ hr' hb' h]
        congr 1
        conv_rhs => rw [← hd, ho]
        ring
      · rename_i ho
        simp only [Out.ok.injEq] at h1
        subst h1
        rw [ih _ (by omega) _ _ _ _ hr hb' h]
        congr 1
        have : e % 2 = 0 := by omega
        conv_rhs => rw [← hd, this]
        ring

theorem genericLoop_total (mul : α → α → Out α) (ht : ∀ x y, ∃ z, mul x y = .ok z) (e : Nat)
    (r b : α) : ∃ y, genericLoop mul r b e = .ok y := by
  induction e using Nat.strongRecOn generalizing r b with
  | _ e ih =>
    by_cases he : e = 0
    · subst he; exact ⟨r, genericLoop_zero _ _ _⟩
    · rw [genericLoop_pos _ _ _ _ he]
      obtain ⟨b', hb'⟩ := ht b b
      have : ∃ r', (if e % 2 = 1 then mul r b else .ok r) = .ok r' := by
        split
        · exact ht _ _
        · exact ⟨r, rfl⟩
      obtain ⟨r', hr'⟩ := this
      rw [hr', Out.ok_bind, hb', Out.ok_bind]
      exact ih _ (by omega) _ _

end

end MathFns
