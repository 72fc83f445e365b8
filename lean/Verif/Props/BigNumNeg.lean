import Verif.Props.BigNum
import Verif.Proof.BigNumNeg

/-! # C72: comparison with negated numbers -/

namespace BigNum
open Cpp BigNum.Spec

/-- **C72, exactly how numbers compare**, whatever their signs: by value, and of two zeros the one with the sign -1 is the
smaller one. -/
theorem C72_order (N : Nat) (a b : Big) (ha : Valid N a) (hb : Valid N b) :
    lt a b = .ok (decide (val a < val b ∨ val a = val b ∧ a.sign < b.sign)) ∧
    eq a b = .ok (decide (val a = val b ∧ a.sign = b.sign)) ∧
    le a b = .ok (decide (val a < val b ∨ val a = val b ∧ a.sign ≤ b.sign)) := by
  obtain ⟨c, e, h1, h2⟩ := cmp_any ha hb
  unfold lt eq le
  rw [e]
  simp only [Out.ok_bind, Out.ok.injEq, decide_eq_decide]
  refine ⟨h1, h2, ?_⟩
  rw [Int.le_iff_lt_or_eq, h1, h2, Int.le_iff_lt_or_eq]
  tauto

/-- **C72, what holds**: the negative of the negative is the number again, for all numbers, and `-a == -b` exactly if
`a == b`.  Missing: `-0 == 0`. -/
theorem C72_twice_partial (N : Nat) (a b : Big) (ha : Valid N a) (hb : Valid N b) :
    eq (neg (neg a)) a = .ok true ∧ eq (neg a) (neg b) = eq a b ∧ lt (neg a) (neg b) = lt b a := by
  obtain ⟨v1, w1, -⟩ := C72_neg_partial N a ha
  obtain ⟨v2, w2, -⟩ := C72_neg_partial N (neg a) w1
  obtain ⟨v3, w3, -⟩ := C72_neg_partial N b hb
  have s1 : (neg a).sign = -a.sign := rfl
  have s2 : (neg (neg a)).sign = - -a.sign := rfl
  have s3 : (neg b).sign = -b.sign := rfl
  rw [(C72_order N _ _ w2 ha).2.1, (C72_order N _ _ w1 w3).2.1, (C72_order N _ _ w1 w3).1, (C72_order N _ _ ha hb).2.1,
    (C72_order N _ _ hb ha).1, v2, v1, v3, s1, s2, s3]
  simp only [Out.ok.injEq, decide_eq_decide, decide_eq_true_eq]
  refine ⟨by omega, by omega, by omega⟩

/-- **C72, refuted for every zero**: no number is equal to its negative, not even 0, which is greater than `-0`; `-0` is
printed as a single `-`. -/
theorem C72_zero_refuted (N : Nat) (a : Big) (ha : Valid N a) : eq (neg a) a = .ok false ∧
    (val a = 0 → PosZero a → lt (neg a) a = .ok true ∧ toString (neg a) = .ok [byte '-']) := by
  obtain ⟨v1, w1, -⟩ := C72_neg_partial N a ha
  have s1 : (neg a).sign = -a.sign := rfl
  rw [(C72_order N _ _ w1 ha).2.1, (C72_order N _ _ w1 ha).1, v1, s1]
  simp only [Out.ok.injEq, decide_eq_false_iff_not, decide_eq_true_eq]
  refine ⟨by rcases ha.sign with e | e <;> omega, fun h0 hp => ?_⟩
  have hl : a.len = 0 := by
    refine Nat.eq_zero_or_pos a.len |>.resolve_right fun hl => ?_
    have := mag_pos ha hl
    rw [val_eq] at h0
    rcases ha.sign with e | e <;> rw [e] at h0 <;> omega
  have hs := hp hl
  refine ⟨.inr ⟨by omega, by omega⟩, ?_⟩
  have e1 : (neg a).len = 0 := hl
  unfold toString
  rw [e1, s1, hs]
  rfl

-- 0 as the constructor makes it, and two numbers with the negative of one of them between
example : (do
    let z ← ofInt 8 0
    let a ← ofInt 8 95
    let b ← ofInt 8 (-100)
    Out.ok (val z, z.sign, ← eq (neg z) z, ← lt (neg a) z, ← lt b (neg a), ← lt (neg z) (neg b))) =
      .ok (0, 1, false, true, true, true) := by
  decide +kernel

end BigNum
