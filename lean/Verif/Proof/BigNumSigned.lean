import Verif.Proof.BigNumText
import Verif.Spec.BigNumSigned
import Mathlib.Tactic.Linarith
import Mathlib.Tactic.Ring
import Mathlib.Data.Int.ModEq

/-! # Subtraction of big numbers when the magnitude of the first is smaller: the borrow is lost -/

namespace BigNum
open Cpp Spec

/-- State of the borrow loop at step `i`; the value is kept up to a multiple of `10 ^ L`. -/
structure LossInv (L : Nat) (V : Int) (i : Nat) (c : Nat → Int) : Prop where
  value : (10 : Int) ^ L ∣ horner c L - V
  done : ∀ k, k < i → 0 ≤ c k ∧ c k ≤ 9
  todo : ∀ k, i ≤ k → k < L → -9 - (if k = i then 1 else 0) ≤ c k ∧ c k ≤ 9
  last : -1000 ≤ c L ∧ c L ≤ 0

theorem loss_step {N L : Nat} {V : Int} {i : Nat} {ret : Arr Int} {c : Nat → Int} (hL : L < N)
    (hi : i < L) (hr : Rep N ret c) (h : LossInv L V i c) (hl : i + 1 < L → c L = 0) (hl' : c L = 0) :
    ∃ ret', subBorrow ret i = .ok ret' ∧ ∃ c', Rep N ret' c' ∧ LossInv L V (i + 1) c' ∧ (i + 1 < L → c' L = 0) := by
  have hc := h.todo i (le_refl _) hi
  rw [if_pos rfl] at hc
  unfold subBorrow
  rw [rep_get hr (by omega), Out.ok_bind]
  by_cases h10 : c i < 0
  · rw [if_pos h10]
    obtain ⟨r1, e1, hr1⟩ := rep_set hr (show i < N by omega) (c i + 10)
    rw [int_ok (isInt_of (by omega)), Out.ok_bind, e1, Out.ok_bind,
      rep_get hr1 (show i + 1 < N by omega), Out.ok_bind, Function.update_of_ne (by omega)]
    have hc1 : -9 ≤ c (i + 1) ∧ c (i + 1) ≤ 9 := by
      by_cases g : i + 1 < L
      · have := h.todo (i + 1) (by omega) g
        rw [if_neg (by omega)] at this
        omega
      · rw [show i + 1 = L by omega, hl']; omega
    rw [int_ok (isInt_of (by omega)), Out.ok_bind]
    obtain ⟨r2, e2, hr2⟩ := rep_set hr1 (show i + 1 < N by omega) (c (i + 1) - 1)
    refine ⟨r2, e2, _, hr2, ⟨?_, ?_, ?_, ?_⟩, ?_⟩
    · rw [horner_update, horner_update, if_pos (show i < L from hi), Function.update_of_ne (by omega)]
      by_cases g : i + 1 < L
      · rw [if_pos g]
        have e : horner c L + (c i + 10 - c i) * 10 ^ i + (c (i + 1) - 1 - c (i + 1)) * 10 ^ (i + 1) - V =
          horner c L - V := by rw [pow_succ]; ring
        rw [e]; exact h.value
      · rw [if_neg g]
        have e : horner c L + (c i + 10 - c i) * 10 ^ i + 0 - V = (horner c L - V) + 10 ^ L := by
          rw [show L = i + 1 by omega, pow_succ]; ring
        rw [e]; exact (dvd_add_self_right).2 h.value
    · intro k hk
      rw [Function.update_of_ne (by omega)]
      by_cases e : k = i
      · subst e; rw [Function.update_self]; omega
      · rw [Function.update_of_ne e]; exact h.done k (by omega)
    · intro k hk hk'
      by_cases e : k = i + 1
      · subst e; rw [Function.update_self, if_pos rfl]; omega
      · rw [Function.update_of_ne e, Function.update_of_ne (by omega), if_neg e]
        have := h.todo k (by omega) hk'; rw [if_neg (by omega)] at this; exact this
    · by_cases e : L = i + 1
      · rw [e, Function.update_self, ← e, hl']; omega
      · rw [Function.update_of_ne e, Function.update_of_ne (by omega), hl']; omega
    · intro g
      rw [Function.update_of_ne (by omega), Function.update_of_ne (by omega), hl']
  · rw [if_neg h10]
    refine ⟨ret, rfl, c, hr, ⟨h.value, ?_, ?_, h.last⟩, fun _ => hl'⟩
    · intro k hk
      by_cases e : k = i
      · subst e; omega
      · exact h.done k (by omega)
    · intro k hk hk'
      have := h.todo k (by omega) hk'
      rw [if_neg (by omega)] at this
      split <;> omega

/-- Two values congruent modulo `10 ^ n` on the first `n` digits. -/
theorem horner_mod (c : Nat → Int) {m n : Nat} (h : m ≤ n) : (10 : Int) ^ m ∣ horner c n - horner c m := by
  induction n, h using Nat.le_induction with
  | base => simp
  | succ k hk ih =>
    have e : horner c (k + 1) - horner c m = (horner c k - horner c m) + c k * 10 ^ k := by rw [horner]; ring
    rw [e]
    exact dvd_add ih (Dvd.dvd.mul_left (pow_dvd_pow _ hk) _)

/-- `sub` of a number of smaller magnitude when `cmp` does not say so: what is left of the difference. -/
theorem sub_loss {N fuel : Nat} {a b : Big} (ha : Clean N a) (hb : Clean N b) {c : Int}
    (hc : cmp a b true = .ok c) (hc0 : ¬ c < 0) (hl : a.len < N) :
    ∃ r, sub N (fuel + 1) a b = .ok r ∧ Valid N r ∧ mag r = (mag a - mag b) % 10 ^ a.len ∧ r.sign = 1 := by
  simp only [sub]
  rw [hc, Out.ok_bind, if_neg hc0]
  obtain ⟨r1, e1, hr1⟩ := subCells ha hb a.len ha.len
  rw [e1, Out.ok_bind]
  have hV : (10 : Int) ^ a.len ∣
      horner (fun k => if k < a.len then digit a k - digit b k else 0) a.len - (mag a - mag b) := by
    rw [horner_congr (d := fun k => digit a k - digit b k) (fun k hk => by rw [if_pos hk]), horner_sub]
    have q : (10 : Int) ^ a.len ∣ mag b - horner (digit b) a.len := by
      rcases le_total a.len b.len with g | g
      · exact horner_mod (digit b) g
      · rw [mag_ext hb g ha.len]; simp
    have e : horner (digit a) a.len - horner (digit b) a.len - (mag a - mag b) = mag b - horner (digit b) a.len := by
      unfold mag; ring
    rw [e]; exact q
  obtain ⟨r2, e2, c, hr2, hI, -⟩ := foldlM_range_inv subBorrow
    (fun i ret => ∃ c, Rep N ret c ∧ LossInv a.len (mag a - mag b) i c ∧ (i < a.len → c a.len = 0)) a.len r1
    ⟨_, hr1, ⟨hV, fun k hk => by omega, fun k _ hk => by
      have da := clean_digit ha (show k < N from lt_of_lt_of_le hk ha.len)
      have db := clean_digit hb (show k < N from lt_of_lt_of_le hk ha.len)
      simp only [if_pos hk]
      split <;> omega, by simp⟩, fun _ => by simp⟩
    (fun _ hi ret ⟨c, hr, hc, hz⟩ => loss_step hl hi hr hc (fun _ => hz hi) (hz hi))
  obtain ⟨m, e3, hm1, hm2, hm3⟩ := strip_spec hr2 a.len ha.len
  rw [e2, Out.ok_bind, e3, Out.ok_bind]
  have dg : ∀ k, k < N → digit ⟨r2, m, 1⟩ k = c k := by
    intro k hk; simp [digit, hr2.2 k hk]
  refine ⟨_, rfl, ⟨hr2.1, hm1.trans ha.len, .inl rfl, ?_, ?_⟩, ?_, rfl⟩
  · intro i hi
    have hi' : i < m := hi
    rw [dg i (by omega)]
    exact ⟨hr2.2 i (by omega), hI.done i (by omega)⟩
  · intro h0
    have h0' : 0 < m := h0
    show digit _ (m - 1) ≠ 0
    rw [dg _ (by omega)]
    exact hm3 h0'
  · have e : mag ⟨r2, m, 1⟩ = horner c a.len := by
      rw [horner_zero_ext hm1 hm2]
      exact horner_congr fun k hk => dg k (by have : k < m := hk; omega)
    rw [e]
    have nn := horner_nonneg fun k hk => (hI.done k hk).1
    have lt := horner_lt hI.done
    rw [← Int.emod_eq_of_lt nn lt]
    exact ((Int.modEq_iff_dvd).2 hI.value).symm

theorem fresh_sign {N : Nat} {b : Big} (h : Fresh N b) : b.sign = -1 ↔ val b < 0 := by
  have nn := mag_nonneg h.1.toValid
  constructor
  · intro s
    have l : 0 < b.len := by
      rcases Nat.eq_zero_or_pos b.len with g | g
      · have := h.2 g; omega
      · exact g
    have := mag_pos h.1.toValid l
    rw [val_eq, s]; omega
  · intro v
    rcases h.1.sign with s | s
    · rw [val_eq, s] at v; omega
    · exact s

end BigNum
