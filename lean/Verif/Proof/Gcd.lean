import Verif.Model.MathFns
import Mathlib.Algebra.Order.Group.Unbundled.Int
import Mathlib.Algebra.GCDMonoid.Nat
import Mathlib.Tactic.Ring
import Mathlib.Tactic.Linarith

namespace MathFns
open Cpp

theorem gcd_tmod (a b : Int) : Int.gcd b (a.tmod b) = Int.gcd a b := by
  unfold Int.gcd
  rw [Int.natAbs_tmod, Nat.gcd_comm b.natAbs, ← Nat.gcd_rec, Nat.gcd_comm]

theorem natAbs_le_of_isInt {a : Int} (h : IsInt a) : a.natAbs ≤ 2147483648 := by
  unfold IsInt INT_MIN INT_MAX at h; omega

theorem gcdLoop_spec (a b : Int) (ha : IsInt a) (hb : IsInt b) (hb0 : b ≠ 0)
    (h1 : ¬ (a = INT_MIN ∧ b = -1)) (h2 : ¬ (a = -1 ∧ b = INT_MIN)) :
    ∃ g, gcdLoop a b = .ok g ∧ g.natAbs = Int.gcd a b ∧ (0 ≤ a → 0 ≤ b → 0 ≤ g) ∧
      (IsInt g ∧ g ≠ INT_MIN ∨ g = b) := by
  induction hn : b.natAbs using Nat.strongRecOn generalizing a b with
  | _ n ih =>
    have hlt : (a.tmod b).natAbs < b.natAbs := by
      rw [Int.natAbs_tmod]; exact Nat.mod_lt _ (by omega)
    have hb' := natAbs_le_of_isInt hb
    unfold gcdLoop
    rw [dif_neg hb0, if_neg h1]
    by_cases hz : a.tmod b = 0
    · rw [dif_pos hz, Int.zero_add, int_ok hb]
      refine ⟨b, rfl, ?_, fun _ h => h, .inr rfl⟩
      rw [← gcd_tmod, hz]; simp
    · rw [dif_neg hz]
      have hub : ¬ (b = INT_MIN ∧ a.tmod b = -1) := by
        rintro ⟨rfl, h⟩
        apply h2
        refine ⟨?_, rfl⟩
        have hle : (a.natAbs % INT_MIN.natAbs) = 1 := by
          rw [← Int.natAbs_tmod, h]; rfl
        have ha' := natAbs_le_of_isInt ha
        have hmn : INT_MIN.natAbs = 2147483648 := rfl
        rw [hmn] at hle
        have hna : a.natAbs = 1 := by omega
        rcases Int.natAbs_eq a with h' | h' <;> rw [hna] at h'
        · rw [h'] at h; exact absurd h (by decide)
        · exact h'
      rw [if_neg hub]
      have hlt2 : (b.tmod (a.tmod b)).natAbs < (a.tmod b).natAbs := by
        rw [Int.natAbs_tmod]; exact Nat.mod_lt _ (by omega)
      have hia : IsInt (a.tmod b) := by unfold IsInt INT_MIN INT_MAX; omega
      have hib : IsInt (b.tmod (a.tmod b)) := by unfold IsInt INT_MIN INT_MAX; omega
      have hna : a.tmod b ≠ INT_MIN := by unfold INT_MIN; omega
      have hnb : b.tmod (a.tmod b) ≠ INT_MIN := by unfold INT_MIN; omega
      have hpos : 0 ≤ a → 0 ≤ a.tmod b := fun h => Int.tmod_nonneg _ h
      by_cases hz2 : b.tmod (a.tmod b) = 0
      · rw [if_pos hz2, Int.add_zero, int_ok hia]
        refine ⟨_, rfl, ?_, fun h _ => hpos h, .inl ⟨hia, hna⟩⟩
        rw [← gcd_tmod a b, ← gcd_tmod b, hz2]; simp
      · rw [if_neg hz2]
        obtain ⟨g, hg, hg2, hg3, hg4⟩ := ih _ (by omega) (a.tmod b) (b.tmod (a.tmod b)) hia hib hz2
          (fun h => hna h.1) (fun h => hnb h.2) rfl
        refine ⟨g, hg, ?_, ?_, ?_⟩
        · rw [hg2, gcd_tmod, gcd_tmod]
        · intro h h'
          exact hg3 (hpos h) (Int.tmod_nonneg _ h')
        · rcases hg4 with h | rfl
          · exact .inl h
          · exact .inl ⟨hib, hnb⟩

theorem gcd_spec (a b : Int) (ha : IsInt a) (hb : IsInt b)
    (h1 : ¬ (a = INT_MIN ∧ b = -1)) (h2 : ¬ (a = -1 ∧ b = INT_MIN)) :
    ∃ g, gcd a b = .ok g ∧ IsInt g ∧ g.natAbs = Int.gcd a b ∧ (0 ≤ a → 0 ≤ b → 0 ≤ g) := by
  unfold gcd
  by_cases h : b = 0
  · subst h
    rw [if_neg (by simp), Int.add_zero, int_ok ha]
    exact ⟨a, rfl, ha, by simp, fun h _ => h⟩
  · rw [if_pos h]
    obtain ⟨g, e1, e2, e3, e4⟩ := gcdLoop_spec a b ha hb h h1 h2
    refine ⟨g, e1, ?_, e2, e3⟩
    rcases e4 with h | rfl
    · exact h.1
    · exact hb

theorem gcd_ub (a b : Int) : (a = INT_MIN ∧ b = -1 ∨ a = -1 ∧ b = INT_MIN) → gcd a b = .ub := by
  rintro (⟨rfl, rfl⟩ | ⟨rfl, rfl⟩) <;> decide +kernel

end MathFns
