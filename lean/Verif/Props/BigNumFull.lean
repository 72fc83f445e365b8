import Verif.Props.BigNum
import Verif.Proof.BigNumFull

/-! C20, C21, C22: what happens for *every* pair of operands whose digits reach the end of the array. -/

namespace BigNum
open Cpp BigNum.Spec

/-- C20 refuted: for *every* two numbers of the same sign of which one has as many digits as the array has cells,
`a + b` and `a += b` are undefined (the cell behind the last one is read), also if the sum fits. -/
theorem C20_full_all_refuted (N fuel : Nat) (a b : Big) (hs : a.sign = b.sign) (h : a.len = N ∨ b.len = N) :
    plus N fuel a b = .ub ∧ plusAssign N fuel a b = .ub := by
  have e : plusRaw N fuel a b = .ub := by
    unfold plusRaw; rw [if_pos hs]; exact add_full a b (by omega)
  unfold plus plusAssign
  rw [e]; exact ⟨rfl, rfl⟩

/-- C21 refuted: the same for `a - b` and `a -= b` of numbers with different signs. -/
theorem C21_full_all_refuted (N fuel : Nat) (a b : Big) (hs : a.sign ≠ b.sign) (h : a.len = N ∨ b.len = N) :
    minus N fuel a b = .ub ∧ minusAssign N fuel a b = .ub := by
  have e : minusRaw N fuel a b = .ub := by
    unfold minusRaw; rw [if_neg hs]; exact add_full a b (by omega)
  unfold minus minusAssign
  rw [e]; exact ⟨rfl, rfl⟩

/-- C22 refuted: for *every* two factors different from 0 which together have more digits than the array has cells,
`a * b` is undefined, also if the product fits: `C22_times_partial` covers all other pairs. -/
theorem C22_full_all_refuted (N : Nat) (a b : Big) (ha : a.len ≠ 0) (hb : b.len ≠ 0) (h : N < a.len + b.len) :
    times N a b = .ub := mul_full a b ha hb h

/-- Numbers meeting the hypotheses: 23 and 14, and -14, in arrays of two cells; 2 and 4 in arrays of one, whose
product 8 fits. -/
example : ∃ a b c, ofInt 2 23 = .ok a ∧ ofInt 2 14 = .ok b ∧ ofInt 2 (-14) = .ok c ∧
    (plus 2 5 a b = .ub ∧ plusAssign 2 5 a b = .ub) ∧ (minus 2 5 a c = .ub ∧ minusAssign 2 5 a c = .ub) := by
  obtain ⟨a, e1, -⟩ := C19_ofInt_partial 2 23 (by decide) (by decide +kernel)
  obtain ⟨b, e2, -⟩ := C19_ofInt_partial 2 14 (by decide) (by decide +kernel)
  obtain ⟨c, e3, -⟩ := C19_ofInt_partial 2 (-14) (by decide) (by decide +kernel)
  have s : ∀ {x : Int} {y : Big}, ofInt 2 x = .ok y → (do Out.ok (← ofInt 2 x).sign) = .ok y.sign := by
    intro x y h; rw [h]; rfl
  have l : ∀ {x : Int} {y : Big}, ofInt 2 x = .ok y → (do Out.ok (← ofInt 2 x).len) = .ok y.len := by
    intro x y h; rw [h]; rfl
  have sa : a.sign = 1 := Out.ok.inj ((s e1).symm.trans (by decide +kernel))
  have sb : b.sign = 1 := Out.ok.inj ((s e2).symm.trans (by decide +kernel))
  have sc : c.sign = -1 := Out.ok.inj ((s e3).symm.trans (by decide +kernel))
  have la : a.len = 2 := Out.ok.inj ((l e1).symm.trans (by decide +kernel))
  exact ⟨a, b, c, e1, e2, e3, C20_full_all_refuted 2 5 a b (by omega) (.inl la),
    C21_full_all_refuted 2 5 a c (by omega) (.inl la)⟩

example : ∃ a b, ofInt 1 2 = .ok a ∧ ofInt 1 4 = .ok b ∧ times 1 a b = .ub := by
  obtain ⟨a, e1, -⟩ := C19_ofInt_partial 1 2 (by decide) (by decide +kernel)
  obtain ⟨b, e2, -⟩ := C19_ofInt_partial 1 4 (by decide) (by decide +kernel)
  have l : ∀ {x : Int} {y : Big}, ofInt 1 x = .ok y → (do Out.ok (← ofInt 1 x).len) = .ok y.len := by
    intro x y h; rw [h]; rfl
  have la : a.len = 1 := Out.ok.inj ((l e1).symm.trans (by decide +kernel))
  have lb : b.len = 1 := Out.ok.inj ((l e2).symm.trans (by decide +kernel))
  exact ⟨a, b, e1, e2, C22_full_all_refuted 1 a b (by omega) (by omega) (by omega)⟩

end BigNum
