import Verif.Spec.BigNumIndex
import Verif.Proof.BigNum
import Mathlib.Tactic.Linarith
import Mathlib.Tactic.Ring

/-! # Lemmas on indexing a big number -/

namespace BigNum
open Cpp Spec

/-- The digits of a Horner sum of decimal digits. -/
theorem horner_digit {c : Nat → Int} : ∀ {n : Nat}, (∀ k, k < n → 0 ≤ c k ∧ c k ≤ 9) → ∀ i, i < n →
    horner c n / 10 ^ i % 10 = c i
  | 0, _, i, hi => absurd hi (by omega)
  | n + 1, h, i, hi => by
    have h' : ∀ k, k < n → 0 ≤ c k ∧ c k ≤ 9 := fun k hk => h k (by omega)
    have l := horner_lt h'
    have nn := horner_nonneg fun k hk => (h' k hk).1
    have hp : (0 : Int) < 10 ^ i := by positivity
    rcases Nat.lt_succ_iff_lt_or_eq.1 hi with g | rfl
    · have ih := horner_digit h' i g
      obtain ⟨m, rfl⟩ : ∃ m, n = i + (m + 1) := ⟨n - i - 1, by omega⟩
      have e : horner c (i + (m + 1) + 1) = horner c (i + (m + 1)) + (c (i + (m + 1)) * 10 ^ m * 10) * 10 ^ i := by
        rw [horner]; ring
      rw [e, Int.add_mul_ediv_right _ _ (by omega), Int.add_mul_emod_self_right, ih]
    · have e : horner c (i + 1) = horner c i + c i * 10 ^ i := rfl
      rw [e, Int.add_mul_ediv_right _ _ (by omega), Int.ediv_eq_zero_of_lt nn l, Int.zero_add]
      have := h i (by omega)
      exact Int.emod_eq_of_lt this.1 (by omega)

theorem natAbs_val {N : Nat} {b : Big} (h : Valid N b) : ((val b).natAbs : Int) = horner (digit b) b.len := by
  have nn : 0 ≤ horner (digit b) b.len := mag_nonneg h
  rcases h.sign with s | s <;> simp [val, s, abs_of_nonneg nn]

theorem digitOf_val {N : Nat} {b : Big} (h : Valid N b) (i : Nat) :
    digitOf (val b) i = if i < b.len then digit b i else 0 := by
  have e : digitOf (val b) i = horner (digit b) b.len / 10 ^ i % 10 := by
    rw [digitOf, ← natAbs_val h]; push_cast; rfl
  rw [e]
  split
  · rename_i g
    exact horner_digit (fun k hk => (h.digits k hk).2) i g
  · rename_i g
    have l : horner (digit b) b.len < 10 ^ b.len := mag_lt h
    have m : (10 : Int) ^ b.len ≤ 10 ^ i := pow_le_pow_right₀ (by norm_num) (by omega)
    have nn : 0 ≤ horner (digit b) b.len := mag_nonneg h
    rw [Int.ediv_eq_zero_of_lt nn (by omega)]; rfl

theorem setAll_spec : ∀ (ws : List (Int × Int)) (b : Big),
    (∀ w ∈ ws, 0 ≤ w.1 ∧ w.1 < b.elem.size) →
    ∃ b', setAll b ws = .ok b' ∧ b'.len = b.len ∧ b'.sign = b.sign ∧ b'.elem.size = b.elem.size ∧
      (∀ i, digit b' i = written (digit b) ws i) ∧ (∀ i, b.elem.cell i ≠ none → b'.elem.cell i ≠ none) ∧
      (∀ i : Nat, (∀ w ∈ ws, w.1 ≠ (i : Int)) → b'.elem.cell i = b.elem.cell i)
  | [], b, _ => ⟨b, rfl, rfl, rfl, rfl, fun _ => rfl, fun _ h => h, fun _ _ => rfl⟩
  | (i, d) :: ws, b, h => by
    have h0 := h (i, d) (by simp)
    have e : setAt b i d = .ok { b with elem := { b.elem with cell := fun j => if j = i.toNat then some d else b.elem.cell j } } := by
      rw [setAt, Arr.set, if_pos h0]; rfl
    obtain ⟨b', e', h1, h2, h3, h4, h5, h6⟩ := setAll_spec ws
      { b with elem := { b.elem with cell := fun j => if j = i.toNat then some d else b.elem.cell j } }
      fun w hw => h w (by simp [hw])
    refine ⟨b', by rw [setAll, e, Out.ok_bind, e'], h1, h2, h3, ?_, ?_, ?_⟩
    · intro k
      rw [h4, written]
      congr 1
      funext j
      simp only [digit]
      by_cases g : j = i.toNat
      · rw [if_pos g, if_pos (by omega)]; rfl
      · rw [if_neg g, if_neg (by omega)]
    · intro k hk
      apply h5
      show (if k = i.toNat then some d else b.elem.cell k) ≠ none
      split
      · simp
      · exact hk
    · intro k hk
      rw [h6 k fun w hw => hk w (by simp [hw])]
      have := hk (i, d) (by simp)
      exact if_neg (by simp at this; omega)

theorem written_digit {n : Nat} : ∀ (ws : List (Int × Int)) (d : Nat → Int), DigitsBelow n ws → ∀ i,
    (0 ≤ d i ∧ d i ≤ 9) → 0 ≤ written d ws i ∧ written d ws i ≤ 9
  | [], _, _, _, h => h
  | (j, v) :: ws, d, hw, i, h => by
    rw [written]
    apply written_digit ws _ (fun w m => hw w (by simp [m])) i
    have := hw (j, v) (by simp)
    split
    · exact this.2.2
    · exact h

theorem written_out {n : Nat} : ∀ (ws : List (Int × Int)) (d : Nat → Int), DigitsBelow n ws → ∀ i, n ≤ i →
    written d ws i = d i
  | [], _, _, _, _ => rfl
  | (j, v) :: ws, d, hw, i, h => by
    rw [written, written_out ws _ (fun w m => hw w (by simp [m])) i h]
    have := hw (j, v) (by simp)
    exact if_neg (by simp at this; omega)

end BigNum
