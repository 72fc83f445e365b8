import Verif.Proof.Gcd
import Verif.Proof.Pow
import Mathlib.Data.Nat.Fib.Basic
import Mathlib.Data.Nat.Size

/-! # How many steps `gcd` and the powers take -/

namespace MathFns
open Cpp

theorem mod_grow {a b : Nat} (hb : 0 < b) (h : b < a) : b + a % b ≤ a := by
  have := Nat.div_add_mod a b
  have hq : 1 ≤ a / b := Nat.div_pos (le_of_lt h) hb
  have : b * 1 ≤ b * (a / b) := Nat.mul_le_mul_left b hq
  omega

/-- A loop which runs for longer has large arguments. -/
theorem gcdRounds_fib : ∀ (k : Nat) (a b : Int), b ≠ 0 → gcdRounds k a b = .diverge →
    Nat.fib (2 * k + 2) ≤ b.natAbs ∧ (b.natAbs < a.natAbs → Nat.fib (2 * k + 3) ≤ a.natAbs)
  | 0, a, b, hb, _ => by
    have : Nat.fib 2 = 1 := rfl
    have : Nat.fib 3 = 2 := rfl
    simp only [Nat.mul_zero, Nat.zero_add]
    omega
  | k + 1, a, b, hb, h => by
    unfold gcdRounds at h
    unfold rem at h
    rw [if_neg hb] at h
    split at h
    · cases h
    rw [Out.ok_bind] at h
    by_cases h1 : a.tmod b = 0
    · rw [if_pos h1] at h
      unfold int at h
      split at h <;> cases h
    rw [if_neg h1, if_neg h1] at h
    split at h
    · cases h
    rw [Out.ok_bind] at h
    by_cases h2 : b.tmod (a.tmod b) = 0
    · rw [if_pos h2] at h
      unfold int at h
      split at h <;> cases h
    rw [if_neg h2] at h
    obtain ⟨f1, f2⟩ := gcdRounds_fib k _ _ h2 h
    rw [Int.natAbs_tmod b] at f1 f2
    have l2 : b.natAbs % (a.tmod b).natAbs < (a.tmod b).natAbs := Nat.mod_lt _ (by omega)
    have f2 := f2 l2
    have l1 : (a.tmod b).natAbs < b.natAbs := by
      rw [Int.natAbs_tmod]; exact Nat.mod_lt _ (by omega)
    have g1 := mod_grow (by omega) l1
    have e4 : Nat.fib (2 * (k + 1) + 2) = Nat.fib (2 * k + 2) + Nat.fib (2 * k + 3) := Nat.fib_add_two
    have e5 : Nat.fib (2 * (k + 1) + 3) = Nat.fib (2 * k + 3) + Nat.fib (2 * k + 4) := Nat.fib_add_two
    have e4' : Nat.fib (2 * k + 4) = Nat.fib (2 * k + 2) + Nat.fib (2 * k + 3) := Nat.fib_add_two
    refine ⟨by omega, fun hlt => ?_⟩
    have g2 := mod_grow (by omega) hlt
    rw [← Int.natAbs_tmod] at g2
    omega

theorem gcdRounds_eq : ∀ (k : Nat) (a b : Int), gcdRounds k a b = .diverge ∨ gcdRounds k a b = gcdLoop a b
  | 0, _, _ => .inl rfl
  | k + 1, a, b => by
    unfold gcdRounds gcdLoop rem
    by_cases hb : b = 0
    · right; simp [hb]
    rw [dif_neg hb, if_neg hb]
    by_cases h1 : a = INT_MIN ∧ b = -1
    · right; rw [if_pos h1, if_pos h1]; rfl
    rw [if_neg h1, if_neg h1, Out.ok_bind]
    by_cases h2 : a.tmod b = 0
    · right; rw [if_pos h2, dif_pos h2, h2]
    rw [if_neg h2, dif_neg h2, if_neg h2]
    by_cases h3 : b = INT_MIN ∧ a.tmod b = -1
    · right; rw [if_pos h3, if_pos h3]; rfl
    rw [if_neg h3, if_neg h3, Out.ok_bind]
    by_cases h4 : b.tmod (a.tmod b) = 0
    · right; rw [if_pos h4, if_pos h4, h4]
    rw [if_neg h4, if_neg h4]
    exact gcdRounds_eq k _ _

/-- The power depends on few products. -/
theorem genericLoop_queries (mul : α → α → Out α) : ∀ (e : Nat) (r b : α), ∃ L : List (α × α),
    L.length ≤ 2 * e.size ∧
      ∀ mul' : α → α → Out α, (∀ p ∈ L, mul' p.1 p.2 = mul p.1 p.2) → genericLoop mul' r b e = genericLoop mul r b e := by
  intro e
  induction e using Nat.strongRecOn with
  | _ e ih =>
    intro r b
    by_cases h0 : e = 0
    · subst h0
      exact ⟨[], by simp, fun mul' _ => by rw [genericLoop_zero, genericLoop_zero]⟩
    · have hs : e.size = (e / 2).size + 1 := by
        have := Nat.size_bit (b := Nat.bodd e) (n := Nat.div2 e) (by rw [Nat.bit_bodd_div2]; exact h0)
        rw [Nat.bit_bodd_div2, Nat.div2_val] at this
        exact this
      -- what the rest of the loop needs
      have rest : ∃ L : List (α × α), L.length ≤ 2 * (e / 2).size ∧ ∀ mul' : α → α → Out α,
          (∀ p ∈ L, mul' p.1 p.2 = mul p.1 p.2) →
          ((if e % 2 = 1 then mul r b else .ok r) >>= fun r' => mul b b >>= fun b' => genericLoop mul' r' b' (e / 2)) =
          ((if e % 2 = 1 then mul r b else .ok r) >>= fun r' => mul b b >>= fun b' => genericLoop mul r' b' (e / 2)) := by
        cases h1 : (if e % 2 = 1 then mul r b else .ok r) with
        | ok r' =>
          cases h2 : mul b b with
          | ok b' =>
            obtain ⟨L, hL, h⟩ := ih (e / 2) (by omega) r' b'
            exact ⟨L, hL, fun mul' hm => by simpa using h mul' hm⟩
          | exit => exact ⟨[], by simp, fun _ _ => rfl⟩
          | ub => exact ⟨[], by simp, fun _ _ => rfl⟩
          | diverge => exact ⟨[], by simp, fun _ _ => rfl⟩
        | exit => exact ⟨[], by simp, fun _ _ => rfl⟩
        | ub => exact ⟨[], by simp, fun _ _ => rfl⟩
        | diverge => exact ⟨[], by simp, fun _ _ => rfl⟩
      obtain ⟨L, hL, h⟩ := rest
      refine ⟨(r, b) :: (b, b) :: L, by simp only [List.length_cons]; omega, fun mul' hm => ?_⟩
      have hr := hm (r, b) (by simp)
      have hb := hm (b, b) (by simp)
      have hm' := h mul' (fun p hp => hm p (by simp [hp]))
      dsimp only at hr hb
      rw [genericLoop_pos _ _ _ _ h0, genericLoop_pos _ _ _ _ h0, hr, hb]
      exact hm'

end MathFns
