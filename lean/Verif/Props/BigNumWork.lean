import Verif.Props.BigNum
import Verif.Proof.BigNumWork
import Verif.Spec.BigNumWork

/-! # C184: work of BigNum

`digits x` is the number of decimal digits of `x` (none for 0).  `cells` counts uses of single digits, `bulk` the cells
cleared by `memset` or copied by `memcpy`.  `fuel` bounds the depth of the recursion of `sub`. -/

namespace BigNum.Props
open Cpp BigNum.Spec

/-- C184: the counted functions are those of the model: same outcome, for all arguments. -/
theorem C184_same (N fuel : Nat) (a b : Big) (q : Bool) (x : Int) :
    (Work.cmp a b q).out = cmp a b q ∧ (Work.plus N fuel a b).out = plus N fuel a b ∧
    (Work.minus N fuel a b).out = minus N fuel a b ∧ (Work.plusAssign N fuel a b).out = plusAssign N fuel a b ∧
    (Work.minusAssign N fuel a b).out = minusAssign N fuel a b ∧ (Work.times N a b).out = times N a b ∧
    (Work.ofInt N x).out = ofInt N x ∧ (Work.inc N fuel a).out = inc N fuel a :=
  ⟨Work.cmp_out a b q, Work.plus_out N fuel a b, Work.minus_out N fuel a b, Work.plusAssign_out N fuel a b,
    Work.minusAssign_out N fuel a b, Work.mul_out N a b, Work.ofInt_out N x, Work.plusAssignInt_out N fuel a 1⟩

/-- C184: a comparison looks at no more digits than the shorter number has, in each of the two, and clears nothing. -/
theorem C184_compare {N : Nat} {a b : Big} (ha : Valid N a) (hb : Valid N b) (q : Bool) :
    (Work.cmp a b q).cells ≤ 2 * min (digits (val a)) (digits (val b)) + 2 ∧ (Work.cmp a b q).bulk = 0 := by
  rw [← Work.len_digits ha, ← Work.len_digits hb]
  have := Work.le_cmp a b q
  exact ⟨this.1, Nat.le_zero.1 this.2⟩

/-- C184 is false: no bound on the work of an addition depends on the numbers of digits only.  To add 1 and 1 more than
`MAX_SIZE` cells are cleared. -/
theorem C184_refuted : ¬ ∃ f : Nat → Nat → Nat, ∀ (N : Nat) (a b : Big), Clean N a → Clean N b →
    max a.len b.len < N → 0 ≤ val a → 0 ≤ val b →
    (Work.plus N 1 a b).bulk ≤ f (digits (val a)) (digits (val b)) := by
  rintro ⟨f, h⟩
  obtain ⟨a, e, ha, _, va, _⟩ := C19_ofInt_partial (f 1 1 + 2) 1 (by decide)
    (by rw [show (decimalDigits (1 : Int).natAbs).length = 1 by decide +kernel]; omega)
  have hl : a.len = 1 := by rw [Work.len_digits ha.toValid, va]; decide +kernel
  have := h _ a a ha ha (by omega) (by omega) (by omega)
  rw [va, show digits 1 = 1 by decide +kernel] at this
  have key : f 1 1 + 2 ≤ (Work.plus (f 1 1 + 2) 1 a a).bulk := by
    show _ ≤ (Work.Job.bind _ _).bulk
    exact Nat.le_add_right _ _
  omega

/-- C184, partial: an addition or subtraction that comes to an end uses single digits at most 11 times the number of
digits of the longer number, and 4; apart from that it clears or copies at most three times `MAX_SIZE` cells (twice for
`+=` and `-=`) and twice the number of digits.  Missing: independence of `MAX_SIZE`. -/
theorem C184_plus_partial {N : Nat} {a b : Big} (fuel : Nat) (ha : Valid N a) (hb : Valid N b) :
    let d := max (digits (val a)) (digits (val b))
    (plus N fuel a b ≠ .diverge →
      ((Work.plus N fuel a b).cells ≤ 11 * d + 4 ∧ (Work.plus N fuel a b).bulk ≤ 3 * N + 2 * d + 1) ∧
      ((Work.plusAssign N fuel a b).cells ≤ 11 * d + 4 ∧ (Work.plusAssign N fuel a b).bulk ≤ 2 * N + 2 * d + 1)) ∧
    (minus N fuel a b ≠ .diverge →
      ((Work.minus N fuel a b).cells ≤ 11 * d + 4 ∧ (Work.minus N fuel a b).bulk ≤ 3 * N + 2 * d + 1) ∧
      ((Work.minusAssign N fuel a b).cells ≤ 11 * d + 4 ∧ (Work.minusAssign N fuel a b).bulk ≤ 2 * N + 2 * d + 1)) := by
  intro d
  have hd : d = max a.len b.len := by rw [Work.len_digits ha, Work.len_digits hb]
  rw [hd]
  refine ⟨fun h => ?_, fun h => ?_⟩
  · have h' : plusRaw N fuel a b ≠ .diverge := fun e => h (by rw [plus, e]; rfl)
    have hr := Work.le_plusRaw h'
    refine ⟨?_, ?_⟩
    · refine Work.Le.seq (Work.le_zero N) (by omega) (by omega) fun _ _ => ?_
      refine Work.Le.seq hr (by omega) (by omega) fun r e => ?_
      rw [Work.plusRaw_out] at e
      have := Work.plusRaw_len e
      exact (Work.le_assign _ _).mono (by omega) (by omega)
    · refine Work.Le.seq hr (by omega) (by omega) fun r e => ?_
      rw [Work.plusRaw_out] at e
      have := Work.plusRaw_len e
      exact (Work.le_assign _ _).mono (by omega) (by omega)
  · have h' : minusRaw N fuel a b ≠ .diverge := fun e => h (by rw [minus, e]; rfl)
    have hr := Work.le_minusRaw h'
    refine ⟨?_, ?_⟩
    · refine Work.Le.seq (Work.le_zero N) (by omega) (by omega) fun _ _ => ?_
      refine Work.Le.seq hr (by omega) (by omega) fun r e => ?_
      rw [Work.minusRaw_out] at e
      have := Work.minusRaw_len e
      exact (Work.le_assign _ _).mono (by omega) (by omega)
    · refine Work.Le.seq hr (by omega) (by omega) fun r e => ?_
      rw [Work.minusRaw_out] at e
      have := Work.minusRaw_len e
      exact (Work.le_assign _ _).mono (by omega) (by omega)

/-- C184: a product of two numbers that are not 0 takes exactly 3de + 3(d + e) - 2 uses of digits, for d and e digits, and
clears `MAX_SIZE` cells once. -/
theorem C184_times {N : Nat} {a b r : Big} (ha : Valid N a) (hb : Valid N b) (h0 : val a ≠ 0) (h1 : val b ≠ 0)
    (h : times N a b = .ok r) :
    let d := digits (val a)
    let e := digits (val b)
    (Work.times N a b).cells + 2 = 3 * (d * e) + 3 * (d + e) ∧ (Work.times N a b).bulk = N := by
  intro d e
  have pos : ∀ {c : Big}, val c ≠ 0 → 0 < c.len := fun {c} hc => by
    rcases Nat.eq_zero_or_pos c.len with h | h
    · refine absurd ?_ hc
      rw [val, h, horner, mul_zero]
    · exact h
  have hla := pos h0
  have hlb := pos h1
  have := Work.ex_mul N a b hla hlb r (by rw [Work.mul_out]; exact h)
  show (Work.mul N a b).cells + 2 = 3 * (digits (val a) * digits (val b)) + 3 * (digits (val a) + digits (val b)) ∧ _
  rw [← Work.len_digits ha, ← Work.len_digits hb]
  exact ⟨by rw [this.1]; omega, this.2⟩

/-- C184: `++` goes through all digits, whether there is a carry or not: between 4 and 6 uses for each digit of a positive
number (and at most 2 more). -/
theorem C184_increment {N fuel : Nat} {a r : Big} (ha : Valid N a) (h0 : 0 < val a) (h : inc N fuel a = .ok r) :
    4 * digits (val a) ≤ (Work.inc N fuel a).cells ∧ (Work.inc N fuel a).cells ≤ 6 * digits (val a) + 2 := by
  rw [← Work.len_digits ha]
  have hs : a.sign = 1 := by
    rcases ha.sign with s | s
    · exact s
    · have := mag_nonneg ha
      rw [val_eq, s] at h0; omega
  have hl : 1 ≤ a.len := by
    rcases Nat.eq_zero_or_pos a.len with e | e
    · rw [val, e, horner, mul_zero] at h0; exact absurd h0 (lt_irrefl _)
    · exact e
  obtain ⟨b, eb, h⟩ := Out.bind_eq_ok.1 h
  have hb := ofInt_facts eb
  rw [show (decimalDigits (1 : Int).natAbs).length = 1 by decide +kernel, if_neg (by decide)] at hb
  have one : ∀ c : Big, (Work.ofIntLoop c 1).cells = 1 ∨ ∀ y, (Work.ofIntLoop c 1).out ≠ .ok y := by
    intro c
    rw [Work.ofIntLoop, if_neg (by decide)]
    cases e : c.elem.set c.len ((1 % 10 : Nat) : Int) with
    | ok y =>
      refine .inl ?_
      show (Work.Job.bind _ _).cells = 1
      unfold Work.Job.bind Work.set
      dsimp only
      rw [e]
      dsimp only
      rw [show 1 / 10 = 0 by rfl, Work.ofIntLoop, if_pos rfl]
      rfl
    | exit => refine .inr fun y hy => ?_; rw [Work.out_bind, Work.out_set, e] at hy; cases hy
    | ub => refine .inr fun y hy => ?_; rw [Work.out_bind, Work.out_set, e] at hy; cases hy
    | diverge => refine .inr fun y hy => ?_; rw [Work.out_bind, Work.out_set, e] at hy; cases hy
  have c1 : (Work.ofInt N 1).cells = 1 := by
    have eo : (Work.ofInt N 1).out = .ok b := by rw [Work.ofInt_out]; exact eb
    have e1 : Work.ofInt N 1 = Work.Job.bind (Work.block N) fun _ =>
        Work.ofIntLoop { zero N with sign := 1 } 1 := rfl
    rw [e1] at eo ⊢
    have eo' : (Work.ofIntLoop { zero N with sign := 1 } 1).out = .ok b := eo
    rcases one { zero N with sign := 1 } with k | k
    · show 0 + _ = 1
      rw [Nat.zero_add, k]
    · exact absurd eo' (k b)
  have e2 : (Work.inc N fuel a).cells = 1 + (Work.plusAssign N fuel a b).cells := by
    show (Work.Job.bind _ _).cells = _
    unfold Work.Job.bind
    rw [show (Work.ofInt N 1).out = .ok b by rw [Work.ofInt_out]; exact eb]
    show (Work.ofInt N 1).cells + _ = _
    rw [c1]
  obtain ⟨s, es, _⟩ := Out.bind_eq_ok.1 h
  have eadd : plusRaw N fuel a b = add N a b := by rw [plusRaw, if_pos (by rw [hs, hb.2])]
  rw [eadd] at es
  have eW : Work.plusRaw N fuel a b = Work.add N a b := by rw [Work.plusRaw, if_pos (by rw [hs, hb.2])]
  have e3 : (Work.plusAssign N fuel a b).cells = (Work.add N a b).cells := by
    show (Work.Job.bind _ _).cells = _
    unfold Work.Job.bind
    rw [eW, Work.add_out, es]
    show (Work.add N a b).cells + 0 = _
    rw [Nat.add_zero]
  have lo := (Work.ge_add N a b s (by rw [Work.add_out]; exact es)).1
  have hi := (Work.le_add N a b).1
  rw [e2, e3]
  have : max a.len b.len = a.len := by rw [hb.1]; omega
  rw [this] at lo hi
  exact ⟨by omega, by omega⟩

/-- The hypotheses are met by 999 and 12: valid numbers, a sum, a difference and a product with values, an increment. -/
example : ∃ a b, ofInt 8 999 = .ok a ∧ ofInt 8 12 = .ok b ∧ Clean 8 a ∧ Clean 8 b ∧ val a = 999 ∧ val b = 12 := by
  obtain ⟨a, ea, ca, _, va, _⟩ := C19_ofInt_partial 8 999 (by decide) (by decide +kernel)
  obtain ⟨b, eb, cb, _, vb, _⟩ := C19_ofInt_partial 8 12 (by decide) (by decide +kernel)
  exact ⟨a, b, ea, eb, ca, cb, va, vb⟩

example : (match (do
    let a ← ofInt 8 999
    let b ← ofInt 8 12
    let s ← plus 8 2 a b
    let d ← minus 8 2 b a
    let p ← times 8 a b
    let i ← inc 8 2 a
    .ok [toString s, toString d, toString p, toString i]) with | .ok l => l | _ => []) =
    [.ok (bytes "1011".toList), .ok (bytes "-987".toList), .ok (bytes "11988".toList), .ok (bytes "1000".toList)] := by
  decide +kernel

/-- 999 + 1 in a `BigNum<8>`: 3 digits, a carry through all of them. -/
example : (match (do
    let a ← Work.ofInt 8 999
    let b ← Work.ofInt 8 1
    Work.plus 8 2 a b).out with | .ok r => toString r | _ => .ub) = .ok (bytes "1000".toList) := by decide +kernel

example : (match ofInt 8 999, ofInt 8 12 with
    | .ok a, .ok b => [(Work.plus 8 2 a b).cells, (Work.plus 8 2 a b).bulk, (Work.minus 8 2 b a).cells,
        (Work.minus 8 2 b a).bulk, (Work.times 8 a b).cells, (Work.times 8 a b).bulk, (Work.cmp a b false).cells,
        (Work.inc 8 2 b).cells]
    | _, _ => []) = [19, 20, 13, 30, 31, 8, 0, 10] := by decide +kernel

example : digits (-1024) = 4 ∧ digits 0 = 0 := by decide +kernel

end BigNum.Props
