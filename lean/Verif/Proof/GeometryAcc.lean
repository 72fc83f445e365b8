import Verif.Proof.GeometryRel
import Verif.Spec.GeometryAcc
import Verif.Proof.RandomDouble

/-! # Accuracy of lengths, distances and products in binary64 -/

set_option exponentiation.threshold 2000

namespace Geo.Acc
open Cpp Geo Geo.Spec

variable {N : Nat}

/-- 0, or at least `2^e` in absolute value -/
def Big (e : Int) (x : ℝ) : Prop := x = 0 ∨ 2 ^ e ≤ |x|

variable {a b : Int} {m : Nat} {x y : ℝ}

theorem Big.mono (h : Big a x) (hab : b ≤ a) : Big b x :=
  h.imp_right fun h => (zpow_le_zpow_right₀ (by norm_num) hab).trans h

theorem Big.mul (h : Big a x) (h' : Big b y) : Big (a + b) (x * y) := by
  rcases h with h | h
  · exact .inl (by rw [h, zero_mul])
  rcases h' with h' | h'
  · exact .inl (by rw [h', mul_zero])
  right
  rw [zpow_add₀ (by norm_num), abs_mul]
  exact mul_le_mul h h' (two_zpow_pos _).le (abs_nonneg _)

theorem Big.div {x y : ℝ} (h : Big a x) (h' : |y| ≤ 2 ^ b) (hy : y ≠ 0) : Big (a - b) (x / y) := by
  rcases h with h | h
  · exact .inl (by rw [h, zero_div])
  right
  rw [zpow_sub₀ (by norm_num), abs_div]
  exact div_le_div₀ (abs_nonneg _) h (abs_pos.2 hy) h'

theorem Big.add (hx : 0 ≤ x) (hy : 0 ≤ y) (h : Big a x) (h' : Big a y) : Big a (x + y) := by
  rcases h with h | h
  · rw [h, zero_add]; exact h'
  right
  rw [abs_of_nonneg hx] at h
  rw [abs_of_nonneg (by linarith)]
  linarith

theorem fl_two (ha : -1022 ≤ a) : Cpp.fl ((2 : ℝ) ^ a) = 2 ^ a := by
  have := fl_exact (m := 1) (k := a) (by norm_num) (by omega)
  rw [Int.cast_one, one_mul] at this
  rw [show ((2 : ℝ) ^ a) = (((2 : ℚ) ^ a : ℚ) : ℝ) by push_cast; rfl, fl_cast, this]

theorem Big.fl (h : Big a x) (ha : -1022 ≤ a) : Big a ((Cpp.fl x : ℚ) : ℝ) := by
  rcases h with h | h
  · left; rw [h, fl_zero, Rat.cast_zero]
  right
  have h2 : ∀ x : ℝ, 2 ^ a ≤ x → (2 : ℝ) ^ a ≤ ((Cpp.fl x : ℚ) : ℝ) := by
    intro x hx
    have := fl_mono hx
    rw [fl_two ha] at this
    rw [show ((2 : ℝ) ^ a) = (((2 : ℚ) ^ a : ℚ) : ℝ) by push_cast; rfl]
    exact Rat.cast_le.2 this
  rcases le_total 0 x with h0 | h0
  · rw [abs_of_nonneg h0] at h
    exact (h2 x h).trans (le_abs_self _)
  · rw [abs_of_nonpos h0] at h
    have := h2 _ h
    rw [fl_neg, Rat.cast_neg] at this
    exact this.trans (neg_le_abs _)

theorem Big.flq {x : ℚ} (h : Big a (x : ℝ)) (ha : -1022 ≤ a) : Big a ((Cpp.fl x : ℚ) : ℝ) := by
  rw [← fl_cast]; exact h.fl ha

theorem Big.relq {x : ℚ} (h : Big a (x : ℝ)) (ha : -1022 ≤ a) : Rel 1 (x : ℝ) ((Cpp.fl x : ℚ) : ℝ) := by
  rw [← fl_cast]; exact Rel.fl (h.mono ha)

theorem zpow_nat (n : Nat) : (2 : ℝ) ^ (n : Int) = 2 ^ n := zpow_natCast _ _

/-- the loop of `len` and of the dot product of a vector with itself -/
theorem fold_sq (P : Fin N → ℝ) (p : Fin N → ℚ) {e : Nat} (hp : ∀ i, Rel e (P i) (p i)) (hb : ∀ i, Big (-480) (p i)) :
    ∀ (l : List (Fin N)) (m : Nat) (A : ℝ) (a : ℚ), 2 * e + 1 ≤ m → 0 ≤ A → Rel m A a → Big (-960) a →
      A + (l.map fun i => P i ^ 2).sum ≤ 2 ^ 900 → m + l.length ≤ 2 ^ 24 →
      ∃ z : ℚ, l.foldl (fun ret i => ret + Dbl.fin (p i) * Dbl.fin (p i)) (Dbl.fin a) = .fin z ∧
        Rel (m + l.length) (A + (l.map fun i => P i ^ 2).sum) z ∧ Big (-960) (z : ℝ)
  | [], m, A, a, _, _, h, hb', _, _ => ⟨a, rfl, by simpa using h, hb'⟩
  | i :: l, m, A, a, hm, hA, h, ha, hup, hlen => by
    simp only [List.map_cons, List.sum_cons, List.length_cons] at hup hlen
    have hl : 0 ≤ (l.map fun i => P i ^ 2).sum := List.sum_nonneg (by
      intro x hx
      obtain ⟨j, _, rfl⟩ := List.mem_map.1 hx
      exact sq_nonneg _)
    have hP0 : 0 ≤ P i ^ 2 := sq_nonneg _
    have bb : (2 : ℝ) * 2 ^ 900 ≤ 2 ^ 1000 := by norm_num
    -- the square
    have hsq : Rel (2 * e) (P i ^ 2) ((p i * p i : ℚ) : ℝ) := by
      have := (hp i).mul (hp i)
      rw [← two_mul, ← pow_two] at this
      push_cast
      exact this
    have hsqb : Big (-960) ((p i * p i : ℚ) : ℝ) := by
      have := (hb i).mul (hb i)
      push_cast
      exact this
    set s : ℚ := fl (p i * p i) with hs
    have hs1 : Rel m (P i ^ 2) s := (hsq.trans (hsqb.relq (by norm_num))).mono hm
    have hs2 : Big (-960) (s : ℝ) := hsqb.flq (by norm_num)
    have e1 : Dbl.fin (p i) * Dbl.fin (p i) = Dbl.fin s := by
      show Dbl.round (p i * p i) = _
      apply roundq
      refine (hsq.double (by omega)).trans (le_trans ?_ bb)
      rw [abs_of_nonneg hP0]
      generalize (2 : ℝ) ^ 900 = B at *
      linarith
    -- the sum
    have hs0 : 0 ≤ (s : ℝ) := hs1.nonneg hP0
    have ha0 : 0 ≤ (a : ℝ) := h.nonneg hA
    have hsum : Rel m (A + P i ^ 2) ((a + s : ℚ) : ℝ) := by
      push_cast
      exact Rel.add hA hP0 h hs1
    have hsumb : Big (-960) ((a + s : ℚ) : ℝ) := by
      push_cast
      exact Big.add ha0 hs0 ha hs2
    have e2 : Dbl.fin a + Dbl.fin s = Dbl.fin (fl (a + s)) := by
      show Dbl.round (a + s) = _
      apply roundq
      refine (hsum.double (by omega)).trans (le_trans ?_ bb)
      rw [abs_of_nonneg (by linarith)]
      generalize (2 : ℝ) ^ 900 = B at *
      linarith
    rw [List.foldl_cons, e1, e2]
    obtain ⟨z, h1, h2, h3⟩ := fold_sq P p hp hb l (m + 1) (A + P i ^ 2) (fl (a + s)) (by omega) (by linarith)
      (hsum.trans (hsumb.relq (by norm_num))) (hsumb.flq (by norm_num)) (by rw [add_assoc]; exact hup) (by omega)
    refine ⟨z, h1, ?_, h3⟩
    simp only [List.map_cons, List.sum_cons, List.length_cons]
    rw [show m + (l.length + 1) = m + 1 + l.length by ring, ← add_assoc A]
    exact h2

theorem sum_finRange (f : Fin N → ℝ) : ((List.finRange N).map f).sum = ∑ i, f i := by
  rw [← List.sum_ofFn, List.ofFn_eq_map]

/-- `len` of a vector whose coordinates are `P` up to `e` roundings -/
theorem len_rel (P : Fin N → ℝ) (p : Fin N → ℚ) {e : Nat} (hp : ∀ i, Rel e (P i) (p i)) (hb : ∀ i, Big (-480) (p i))
    (hN : N ≤ 2 ^ 20) (he : e ≤ 4) (hup : ∀ i, |P i| ≤ 2 ^ 430) :
    ∃ z : ℚ, len Fp.dbl (fun i => Dbl.fin (p i)) = .fin z ∧ Rel (e + N / 2 + 2) (vlen P) z ∧ Big (-480) (z : ℝ) ∧
      vlen P ≤ 2 ^ 440 := by
  have hS : ∑ i, P i ^ 2 ≤ 2 ^ 880 := by
    have h1 : ∀ i ∈ Finset.univ, P i ^ 2 ≤ 2 ^ 860 := by
      intro i _
      rw [← sq_abs, show (2 : ℝ) ^ 860 = (2 ^ 430) ^ 2 by rw [← pow_mul]]
      exact pow_le_pow_left₀ (abs_nonneg _) (hup i) 2
    refine (Finset.sum_le_card_nsmul _ _ _ h1).trans ?_
    rw [Finset.card_univ, Fintype.card_fin, nsmul_eq_mul]
    have h2 : (N : ℝ) ≤ 2 ^ 20 := by exact_mod_cast hN
    rw [show (2 : ℝ) ^ 880 = 2 ^ 20 * 2 ^ 860 by rw [← pow_add]]
    exact mul_le_mul_of_nonneg_right h2 (by positivity)
  have h0 : 0 ≤ ∑ i, P i ^ 2 := Finset.sum_nonneg fun i _ => sq_nonneg _
  obtain ⟨s, h1, h2, h3⟩ := fold_sq P p hp hb (List.finRange N) (2 * e + 1) 0 0 le_rfl le_rfl
    (by rw [Rat.cast_zero]; exact Rel.zero _) (.inl Rat.cast_zero)
    (by rw [sum_finRange, zero_add]; exact hS.trans (pow_le_pow_right₀ (by norm_num) (by norm_num)))
    (by rw [List.length_finRange]; omega)
  rw [sum_finRange, zero_add, List.length_finRange] at h2
  have hs0 : 0 ≤ (s : ℝ) := h2.nonneg h0
  have hs1 : Rel (e + N / 2 + 1) (vlen P) (Real.sqrt s) :=
    (h2.mono (m' := 2 * (e + N / 2 + 1)) (by omega)).sqrt h0
  have hn : vlen P ≤ 2 ^ 440 := by
    unfold vlen
    rw [Real.sqrt_le_left (by positivity), ← pow_mul]
    exact hS
  have hsb : Big (-480) (Real.sqrt s) := by
    rcases h3 with h3 | h3
    · left; rw [h3, Real.sqrt_zero]
    · right
      rw [abs_of_nonneg (Real.sqrt_nonneg _)]
      apply Real.le_sqrt_of_sq_le
      rw [abs_of_nonneg hs0] at h3
      rw [← zpow_natCast, ← zpow_mul]
      exact h3
  refine ⟨fl (Real.sqrt s), ?_, ?_, hsb.fl (by norm_num), hn⟩
  · show Fp.dbl.sqrt (List.foldl _ ((0 : Int) : Dbl) _) = _
    rw [dzero, Int.cast_zero, h1]
    show (if s < 0 then Dbl.nan else Dbl.round (Real.sqrt (s : ℝ))) = _
    rw [if_neg (not_lt.2 (by exact_mod_cast hs0))]
    apply round_real
    refine (hs1.double (by omega)).trans ?_
    rw [abs_of_nonneg (show 0 ≤ vlen P from Real.sqrt_nonneg _)]
    refine (mul_le_mul_of_nonneg_left hn (by norm_num)).trans ?_
    rw [show (2 : ℝ) * 2 ^ 440 = 2 ^ 441 by rw [pow_succ]; ring]
    exact pow_le_pow_right₀ (by norm_num) (by norm_num)
  · exact hs1.trans (Rel.fl (hsb.mono (by norm_num)))

end Geo.Acc
