import Verif.Model.MathFns
import Verif.Proof.Loop
import Mathlib.Data.Nat.Factorial.Basic
import Mathlib.Data.Nat.Choose.Basic
import Mathlib.Tactic.Ring
import Mathlib.Tactic.Linarith

namespace MathFns
open Cpp

/-- Arithmetic `ar` is exact on `[0, M]`. -/
def Fits (ar : Int → Out Int) (M : Int) : Prop := ∀ x, 0 ≤ x → x ≤ M → ar x = .ok x

theorem fits_int : Fits int INT_MAX := fun x h0 h => int_ok ⟨by unfold INT_MIN; omega, h⟩
theorem fits_int64 : Fits int64 INT64_MAX := fun x h0 h => int64_ok ⟨by unfold INT64_MIN; omega, h⟩

theorem factorial_eq (ar : Int → Out Int) (M : Int) (hf : Fits ar M) (n : Nat)
    (h : (n.factorial : Int) ≤ M) : factorial ar n = .ok n.factorial := by
  unfold factorial
  rw [if_neg (by omega), Int.toNat_natCast]
  have hr : List.range' 2 (n - 1) = (List.range (n - 1)).map (· + 2) := by
    apply List.ext_getElem <;> simp [Nat.add_comm]
  rw [hr, List.foldlM_map]
  obtain ⟨s, e, p⟩ := foldlM_range_inv (fun (fac : Int) (i : Nat) => ar (fac * ((i + 2 : Nat) : Int)))
    (fun k s => s = ((k + 1).factorial : Int)) (n - 1) 1 (by simp)
    (by
      rintro k hk s rfl
      refine ⟨_, hf _ (by positivity) ?_, ?_⟩
      · rw [← Nat.cast_mul]
        refine le_trans ?_ h
        rw [Nat.cast_le, mul_comm, ← Nat.factorial_succ]
        exact Nat.factorial_le (by omega)
      · rw [← Nat.cast_mul, mul_comm, ← Nat.factorial_succ])
  rw [e, p]
  rcases Nat.eq_zero_or_pos n with rfl | hn
  · rfl
  · rw [show n - 1 + 1 = n by omega]

theorem permLoop_eq (ar : Int → Out Int) (M : Int) (hf : Fits ar M) (r : Nat) (p n : Nat)
    (hr : r ≤ n + 1) (h : ((p * n.descFactorial (r - 1) : Nat) : Int) ≤ M) :
    permLoop ar p n r = .ok (p * n.descFactorial (r - 1) : Nat) := by
  induction r generalizing p n with
  | zero => simp [permLoop]
  | succ r ih =>
    cases r with
    | zero => simp [permLoop]
    | succ r =>
      simp only [permLoop]
      obtain ⟨m, rfl⟩ : ∃ m, n = m + 1 := ⟨n - 1, by omega⟩
      have hd : p * (m + 1).descFactorial (r + 1 + 1 - 1) = p * (m + 1) * m.descFactorial r := by
        simp only [Nat.add_sub_cancel]
        rw [Nat.succ_descFactorial_succ]; ring
      rw [hd] at h ⊢
      have hpos : 0 < m.descFactorial r := Nat.pos_of_ne_zero (by
        rw [Ne, Nat.descFactorial_eq_zero_iff_lt]; omega)
      rw [← Nat.cast_mul, hf _ (by positivity) (le_trans (by
        rw [Nat.cast_le]; exact Nat.le_mul_of_pos_right _ hpos) h)]
      simp only [Out.ok_bind]
      rw [show ((m + 1 : Nat) : Int) - 1 = (m : Nat) by omega]
      exact ih (p * (m + 1)) m (by omega) h

theorem permutation_eq (ar : Int → Out Int) (M : Int) (hf : Fits ar M) (n r : Nat) (h0 : 0 < r)
    (hr : r ≤ n) (h : (n.descFactorial r : Int) ≤ M) :
    permutation ar n r = .ok (n.descFactorial r) := by
  unfold permutation
  rw [if_neg (by omega), Int.toNat_natCast]
  obtain ⟨m, rfl⟩ : ∃ m, n = m + 1 := ⟨n - 1, by omega⟩
  obtain ⟨q, rfl⟩ : ∃ q, r = q + 1 := ⟨r - 1, by omega⟩
  rw [Nat.succ_descFactorial_succ] at *
  rw [show ((m + 1 : Nat) : Int) - 1 = (m : Nat) by omega]
  exact permLoop_eq ar M hf (q + 1) (m + 1) m (by omega) h

/-! ### binomial coefficients -/

/-- Cell `j` after `i` complete passes. -/
def bc (i j : Nat) : Nat := (i + j + 1).choose (j + 1)

theorem bc_zero (j : Nat) : bc 0 j = 1 := by simp [bc]

theorem bc_succ_zero (i : Nat) : bc (i + 1) 0 = bc i 0 + 1 := by simp [bc]

theorem bc_succ_succ (i j : Nat) : bc (i + 1) (j + 1) = bc i (j + 1) + bc (i + 1) j := by
  unfold bc
  rw [show i + 1 + (j + 1) + 1 = (i + j + 1 + 1) + 1 by ring, Nat.choose_succ_succ, Nat.add_comm]
  congr 2
  ring

theorem bc_mono {i i' j j' : Nat} (hi : i ≤ i') (hj : j ≤ j') : bc i j ≤ bc i' j' := by
  have h1 : bc i j ≤ bc i' j := Nat.choose_le_choose _ (by omega)
  refine h1.trans ?_
  unfold bc
  rw [← Nat.choose_symm_of_eq_add (show i' + j + 1 = i' + (j + 1) by ring),
    ← Nat.choose_symm_of_eq_add (show i' + j' + 1 = i' + (j' + 1) by ring)]
  exact Nat.choose_le_choose _ (by omega)

/-- During pass `i`, cells below `j` are already updated. -/
structure Row (r i j : Nat) (c : Arr Int) : Prop where
  size : c.size = r
  done : ∀ k, k < r → k < j → c.cell k = some (bc (i + 1) k)
  todo : ∀ k, k < r → j ≤ k → c.cell k = some (bc i k)

theorem binomialCell_row (ar : Int → Out Int) (M : Int) (hf : Fits ar M) (r i j : Nat) (c : Arr Int)
    (hj : j < r) (hM : (bc (i + 1) (r - 1) : Int) ≤ M) (h : Row r i j c) :
    ∃ c', binomialCell ar c j = .ok c' ∧ Row r i (j + 1) c' := by
  have hg : c.get (j : Int) = .ok (bc i j : Int) :=
    Arr.get_ok (by rw [h.size]; exact hj) (h.todo j hj (le_refl _))
  have hset : ∀ v : Int, v = bc (i + 1) j → ∃ c', c.set j v = .ok c' ∧ Row r i (j + 1) c' := by
    rintro v rfl
    refine ⟨_, Arr.set_ok (by rw [h.size]; exact hj), h.size, ?_, ?_⟩
    · intro k hk hk'
      by_cases e : k = j
      · subst e; simp
      · simp only [e, if_false]; exact h.done k hk (by omega)
    · intro k hk hk'
      simp only [show k ≠ j by omega, if_false]; exact h.todo k hk (by omega)
  have hle : (bc (i + 1) j : Int) ≤ M :=
    le_trans (by rw [Nat.cast_le]; exact bc_mono (le_refl _) (by omega)) hM
  unfold binomialCell
  by_cases h0 : j = 0
  · rw [if_pos h0, hg]
    simp only [Out.ok_bind]
    have e : (bc i j : Int) + 1 = (bc (i + 1) j : Nat) := by subst h0; rw [bc_succ_zero]; simp
    rw [e, hf _ (by positivity) hle]
    exact hset _ rfl
  · rw [if_neg h0, hg]
    obtain ⟨k, rfl⟩ : ∃ k, j = k + 1 := ⟨j - 1, by omega⟩
    have hg2 : c.get (((k + 1 : Nat) : Int) - 1) = .ok (bc (i + 1) k : Int) := by
      rw [show ((k + 1 : Nat) : Int) - 1 = (k : Nat) by omega]
      exact Arr.get_ok (by rw [h.size]; omega) (h.done k (by omega) (by omega))
    simp only [Out.ok_bind, hg2]
    rw [← Nat.cast_add, ← bc_succ_succ, hf _ (by positivity) hle]
    exact hset _ rfl

theorem choose_one_le (n r : Nat) (h0 : 1 ≤ r) (hn : r < n) : n ≤ n.choose r := by
  induction n with
  | zero => omega
  | succ n ih =>
    obtain ⟨k, rfl⟩ : ∃ k, r = k + 1 := ⟨r - 1, by omega⟩
    by_cases h : k + 1 = n
    · rw [h, Nat.choose_succ_self_right]
    · have h1 := ih (by omega)
      have h2 : 0 < n.choose k := Nat.choose_pos (by omega)
      rw [Nat.choose_succ_succ]
      simp only [Nat.succ_eq_add_one]
      omega

theorem binomialLoop_eq (ar : Int → Out Int) (M : Int) (hf : Fits ar M) (n r : Nat) (hr : r ≤ n)
    (h : (n.choose r : Int) ≤ M) (hc : r = 0 ∨ ((n - r : Nat) : Int) ≤ INT_MAX) :
    binomialLoop ar n r = .ok (n.choose r) := by
  unfold binomialLoop
  by_cases h0 : r = 0
  · subst h0; simp
  rw [if_neg h0, if_neg (show ¬ INT_MAX < ((n - r : Nat) : Int) by
    rcases hc with h | h
    · exact absurd h h0
    · omega)]
  obtain ⟨c1, e1, p1⟩ := foldlM_range_inv (fun (c : Arr Int) i => c.set (i : Int) 1)
    (fun k c => c.size = r ∧ ∀ j, j < k → c.cell j = some 1) r (Arr.new r)
    ⟨rfl, fun j hj => by omega⟩
    (by
      rintro k hk s ⟨h1, h2⟩
      refine ⟨_, Arr.set_ok (by rw [h1]; exact hk), h1, ?_⟩
      intro j hj
      by_cases e : j = k
      · simp [e]
      · simp only [e, if_false]; exact h2 j (by omega))
  have hbc : bc (n - r) (r - 1) = n.choose r := by
    unfold bc
    rw [show n - r + (r - 1) + 1 = n by omega, show r - 1 + 1 = r by omega]
  obtain ⟨c2, e2, p2⟩ := foldlM_range_inv
    (fun (c : Arr Int) (_ : Nat) => (List.range r).foldlM (binomialCell ar) c)
    (fun i c => Row r i 0 c) (n - r) c1
    ⟨p1.1, fun k _ hk => by omega, fun k hk _ => by rw [p1.2 k hk, bc_zero]; rfl⟩
    (by
      intro i hi s hs
      obtain ⟨c, e, p⟩ := foldlM_range_inv (binomialCell ar) (fun j c => Row r i j c) r s hs
        (fun j hj s hs => binomialCell_row ar M hf r i j s hj (le_trans (by
          rw [Nat.cast_le, ← hbc]; exact bc_mono (by omega) (le_refl _)) h) hs)
      exact ⟨c, e, p.size, fun k _ hk => by omega, fun k hk _ => p.done k hk hk⟩)
  dsimp only
  rw [e1, Out.ok_bind, e2, Out.ok_bind]
  rw [show (r : Int) - 1 = ((r - 1 : Nat) : Int) by omega,
    Arr.get_ok (by rw [p2.size]; omega) (p2.todo (r - 1) (by omega) (Nat.zero_le _)), hbc]

theorem binomial_eq (ar : Int → Out Int) (M : Int) (hf : Fits ar M) (n r : Nat) (hr : r ≤ n)
    (h : (n.choose r : Int) ≤ M) (hc : r = 0 ∨ r = n ∨ ((r : Int) ≤ INT_MAX ∧ ((n - r : Nat) : Int) ≤ INT_MAX)) :
    binomial ar n r = .ok (n.choose r) := by
  unfold binomial
  rw [if_neg (by omega)]
  by_cases h0 : r = 0
  · subst h0; simp
  rw [if_neg (by omega)]
  split
  · rw [show ((n : Int) - r).toNat = n - r by omega, Int.toNat_natCast,
      binomialLoop_eq ar M hf n (n - r) (by omega) (by rw [Nat.choose_symm hr]; exact h)
        (by rw [show n - (n - r) = r by omega]; omega),
      Nat.choose_symm hr]
  · rw [Int.toNat_natCast, Int.toNat_natCast]
    exact binomialLoop_eq ar M hf n r hr h (by omega)

end MathFns
