import Verif.Proof.BigNum

/-! # Comparison of numbers with a negative zero among them -/

namespace BigNum
open Cpp BigNum.Spec

theorem cmp_any {N : Nat} {a b : Big} (ha : Valid N a) (hb : Valid N b) : ∃ c, cmp a b false = .ok c ∧
    (c < 0 ↔ val a < val b ∨ val a = val b ∧ a.sign < b.sign) ∧ (c = 0 ↔ val a = val b ∧ a.sign = b.sign) := by
  have ma := mag_nonneg ha
  have mb := mag_nonneg hb
  rw [val_eq, val_eq]
  by_cases hs : a.sign = b.sign
  · have hc : cmp a b false = cmp a b true := by
      unfold cmp; simp only [hs]; simp
    rw [hc]
    have key := cmpAbs_spec ha hb
    rcases lt_trichotomy (mag a) (mag b) with h | h | h
    · refine ⟨_, key.1 h, ?_⟩
      rw [← hs]
      rcases ha.sign with e | e <;> rw [e] <;> constructor <;> constructor <;> intro <;> omega
    · refine ⟨_, key.2.1 h, ?_⟩
      rw [hs, h]; simp
    · refine ⟨_, key.2.2 h, ?_⟩
      rw [← hs]
      rcases ha.sign with e | e <;> rw [e] <;> constructor <;> constructor <;> intro <;> omega
  · unfold cmp
    rw [if_pos ⟨rfl, hs⟩]
    refine ⟨_, rfl, ?_⟩
    rcases ha.sign with e | e <;> rcases hb.sign with e' | e'
    · omega
    · rw [e, e', if_pos (by omega)]
      constructor <;> constructor <;> intro <;> omega
    · rw [e, e', if_neg (by omega)]
      constructor <;> constructor <;> intro <;> omega
    · omega

end BigNum
