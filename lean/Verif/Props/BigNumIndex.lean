import Verif.Proof.BigNumIndex
import Verif.Props.BigNum
import Verif.Proof.Decimal

/-! # Property C173: `b[i]` is decimal digit `i` of a big number, for reading and for writing

`Spec.digitOf x i` is decimal digit `i` of the integer `x` counted from the units. -/

namespace BigNum
open Cpp Spec

/-- C173: reading any index below `N` of a number whose unused cells are 0 (as after construction and arithmetic)
gives the decimal digit, 0 beyond the last one; any other index is undefined. -/
theorem C173_read_partial (N : Nat) (b : Big) (hb : Clean N b) (i : Int) :
    digitAt b i = if 0 ≤ i ∧ i < N then .ok (digitOf (val b) i.toNat) else .ub := by
  have hs := hb.size
  split
  · rename_i g
    obtain ⟨k, rfl⟩ : ∃ k : Nat, i = k := ⟨i.toNat, by omega⟩
    rw [digitAt, Int.toNat_natCast, digitOf_val hb.toValid]
    split
    · rename_i h
      exact Arr.get_ok (by omega) (hb.digits k h).1
    · rename_i h
      exact Arr.get_ok (by omega) (hb.pad k (by omega) (by omega))
  · rename_i g
    rw [digitAt, Arr.get, if_neg (by rw [hs]; exact g)]

/-- C173: `BigNum(x)[i]` for every `int64_t` but the least one. -/
theorem C173_ofInt_partial (N : Nat) (x : Int) (hx : x ≠ INT64_MIN) (hN : (decimalDigits x.natAbs).length ≤ N)
    (i : Nat) (hi : i < N) : (do digitAt (← ofInt N x) i) = .ok (digitOf x i) := by
  obtain ⟨b, e, hb, _, hv, _⟩ := C19_ofInt_partial N x hx hN
  rw [e, Out.ok_bind, C173_read_partial N b hb, if_pos (by omega), hv]; simp

example : (do digitAt (← ofInt 8 (-4071)) 2) = .ok 0 ∧ (do digitAt (← ofInt 8 (-4071)) 3) = .ok 4 ∧
    (do digitAt (← ofInt 8 (-4071)) 7) = .ok 0 ∧ digitOf (-4071) 3 = 4 := by decide +kernel

/-- C173: for any number, also a copy or one that has been assigned to, the digits below its length. -/
theorem C173_read_below (N : Nat) (b : Big) (hb : Valid N b) (i : Nat) (hi : i < b.len) :
    digitAt b i = .ok (digitOf (val b) i) := by
  rw [digitOf_val hb, if_pos hi]
  exact Arr.get_ok (by have := hb.size; have := hb.len; omega) (hb.digits i hi).1

example : (do digitAt (copy (← ofInt 8 593)) 2) = .ok 5 ∧
    (do digitAt (assign (← ofInt 8 12345) (← ofInt 8 593)) 1) = .ok 9 := by decide +kernel

/-- C173 refuted for reading: digit 1 of 5 is read as 9 after `a = 999; a = 5;`, and is indeterminate in a copy of 5. -/
theorem C173_read_refuted :
    (do let a := assign (← ofInt 8 999) (← ofInt 8 5); Out.ok (val a, ← digitAt a 1)) = .ok (5, 9) ∧
    digitOf 5 1 = 0 ∧
    (do digitAt (copy (← ofInt 8 5)) 1) = .ub := by decide +kernel

/-- C173: after any assignments of digits to positions below the length that leave the top digit nonzero, the number
has the digits written last and the others as before: reading gives them, they are the decimal digits of the
integer now denoted, which has the same sign and the same number of digits. -/
theorem C173_write_partial (N : Nat) (b : Big) (hb : Valid N b) (ws : List (Int × Int)) (hw : DigitsBelow b.len ws)
    (ht : 0 < b.len → written (digitOf (val b)) ws (b.len - 1) ≠ 0) :
    ∃ b', setAll b ws = .ok b' ∧ Valid N b' ∧ (Clean N b → Clean N b') ∧ b'.sign = b.sign ∧ b'.len = b.len ∧
      ∀ i : Nat, digitOf (val b') i = written (digitOf (val b)) ws i ∧
        (i < b.len → digitAt b' i = .ok (written (digitOf (val b)) ws i)) := by
  have hN := hb.len
  have hsz := hb.size
  obtain ⟨b', e, h1, h2, h3, h4, h5, h6⟩ := setAll_spec ws b fun w m => by have := hw w m; omega
  have cong : ∀ (ws : List (Int × Int)) (c d : Nat → Int) (k : Nat), c k = d k → written c ws k = written d ws k := by
    intro ws
    induction ws with
    | nil => intro c d k h; exact h
    | cons w ws ih =>
      intro c d k h
      simp only [written]
      apply ih
      simp only [h]
  have low : ∀ k, k < b.len → digit b' k = written (digitOf (val b)) ws k := by
    intro k hk
    rw [h4]
    exact cong ws _ _ k (by rw [digitOf_val hb, if_pos hk])
  have v : Valid N b' := by
    refine ⟨by omega, by omega, by rw [h2]; exact hb.sign, fun i hi => ?_, fun h => ?_⟩
    · have hi' : i < b.len := by omega
      have d := hb.digits i hi'
      refine ⟨?_, ?_⟩
      · cases g : b'.elem.cell i with
        | none => exact absurd g (h5 i (by rw [d.1]; simp))
        | some x => simp [digit, g]
      · rw [h4]
        exact written_digit ws _ hw i d.2
    · rw [h1, low _ (by omega)]
      exact ht (by omega)
  refine ⟨b', e, v, fun c => ⟨v, fun i g1 g2 => ?_⟩, h2, h1, fun i => ?_⟩
  · rw [h6 i fun w m => by have := hw w m; omega]
    exact c.pad i (by omega) g2
  · have r : digitOf (val b') i = written (digitOf (val b)) ws i := by
      rw [digitOf_val v]
      split
      · exact low i (by omega)
      · rw [written_out ws _ hw i (by omega), digitOf_val hb, if_neg (by omega)]
    exact ⟨r, fun hi => by rw [C173_read_below N b' v i (by omega), r]⟩

example : (do let b ← setAll (← ofInt 8 (-4071)) [(3, 0), (0, 5), (3, 8)]; Out.ok (val b, ← toString b)) =
    .ok (-8075, bytes ['-', '8', '0', '7', '5']) ∧
    DigitsBelow 4 [(3, 0), (0, 5), (3, 8)] ∧
    written (digitOf (-4071)) [(3, 0), (0, 5), (3, 8)] 3 = 8 := by
  refine ⟨by decide +kernel, ?_, by decide +kernel⟩
  intro w m
  simp at m
  rcases m with rfl | rfl | rfl <;> decide

/-- C173: one assignment of a digit to a position below the length changes the integer by the difference of the digits
times the power of ten, if the top digit does not become 0. -/
theorem C173_value_partial (N : Nat) (b : Big) (hb : Valid N b) (i : Nat) (hi : i < b.len) (d : Int)
    (hd : 0 ≤ d ∧ d ≤ 9) (ht : i = b.len - 1 → d ≠ 0) :
    ∃ b', setAt b i d = .ok b' ∧ Valid N b' ∧
      val b' = val b + b.sign * ((d - digitOf (val b) i) * 10 ^ i) := by
  have hw : DigitsBelow b.len [((i : Int), d)] := by
    intro w m
    simp at m
    subst m
    exact ⟨by simp, by simpa using hi, hd.1, hd.2⟩
  obtain ⟨b', e, v, -, h2, h1, h⟩ := C173_write_partial N b hb [((i : Int), d)] hw (by
    intro h0
    simp only [written]
    split
    · exact ht (by omega)
    · rw [digitOf_val hb, if_pos (by omega)]
      exact hb.top h0)
  have e' : setAt b i d = .ok b' := by
    rw [setAll] at e
    obtain ⟨b1, e1, e2⟩ := Out.bind_eq_ok.1 e
    cases e2
    exact e1
  refine ⟨b', e', v, ?_⟩
  have dg : ∀ k, k < b.len → digit b' k = Function.update (digit b) i d k := by
    intro k hk
    have q := (h k).1
    rw [digitOf_val v, if_pos (by omega)] at q
    rw [q]
    simp only [written, Function.update_apply]
    by_cases g : k = i
    · rw [if_pos (by omega), if_pos g]
    · rw [if_neg (by omega), if_neg g, digitOf_val hb, if_pos hk]
  have u := horner_update (digit b) i b.len d
  rw [digitOf_val hb, if_pos hi, val, val, h1, h2, horner_congr dg, u, if_pos hi]
  ring

example : (do let b ← setAt (← ofInt 8 (-4071)) 1 2; Out.ok (val b)) = .ok (-4021) := by decide +kernel

/-- C173: assignments never change how many digits are compared and printed; in particular any digits written into
`BigNum()` leave it denoting 0 and printing nothing. -/
theorem C173_zero_refuted (N : Nat) (ws : List (Int × Int)) (hw : DigitsBelow N ws) :
    ∃ b, setAll (zero N) ws = .ok b ∧ val b = 0 ∧ toString b = .ok [] ∧ eq b (zero N) = .ok true := by
  obtain ⟨b, e, h1, h2, h3, -⟩ := setAll_spec ws (zero N) fun w m => ⟨(hw w m).1, (hw w m).2.1⟩
  have hl : b.len = 0 := h1
  have hs : b.sign = 1 := h2
  refine ⟨b, e, by simp [val, hl, horner], by simp [toString, hl, toStringLoop, hs], ?_⟩
  simp [eq, cmp, hs, hl, zero, cmpLoop]

example : DigitsBelow 8 [(0, 7), (1, 4)] := by
  intro w m
  simp at m
  rcases m with rfl | rfl <;> decide

/-- C173 refuted for writing: digit 2 written into 5 is not part of the number, but of the sum with 100; after the
top digit of 15 has been overwritten with 0 it is unequal to 5 and greater than 9, and prints `05`. -/
theorem C173_write_refuted :
    (do
      let a ← setAt (← ofInt 8 5) 2 1
      Out.ok (val a, ← toString a, ← eq a (← ofInt 8 5), val (← plusInt 8 9 a 100))) =
        .ok (5, bytes ['5'], true, 205) ∧
    (do
      let a ← setAt (← ofInt 8 15) 1 0
      Out.ok (val a, ← toString a, ← eq a (← ofInt 8 5), ← gt a (← ofInt 8 9))) =
        .ok (5, bytes ['0', '5'], false, true) := by decide +kernel

/-- C173: what is printed if any integers have been written: the decimal texts of the cells below the length, top one first. -/
theorem C173_text (b : Big) (c : Nat → Int) (h : ∀ i, i < b.len → digitAt b i = .ok (c i)) :
    toString b = .ok ((if b.sign < 0 then [byte '-'] else []) ++ ((List.range b.len).reverse.map fun i => decimal (c i)).flatten) := by
  have key : ∀ n, n ≤ b.len → toStringLoop b n = .ok ((List.range n).reverse.map fun i => decimal (c i)).flatten := by
    intro n
    induction n with
    | zero => intro _; rfl
    | succ n ih =>
      intro hn
      have := h n (by omega)
      rw [digitAt] at this
      rw [toStringLoop, this, Out.ok_bind, ih (by omega), Out.ok_bind, digitText, Json.decInt_decimal, List.range_succ,
        List.reverse_concat, List.map_cons, List.flatten_cons]
  rw [toString, key _ le_rfl, Out.ok_bind]

/-- C173 refuted for integers that are not digits: after `b[0] = 12` the number 15 denotes 22 and prints `112`, and after
`b[0] = -3` it denotes 7 and prints `1-3`. -/
theorem C173_text_refuted :
    (do let b ← setAt (← ofInt 8 15) 0 12; Out.ok (val b, ← toString b)) = .ok (22, bytes ['1', '1', '2']) ∧
    (do let b ← setAt (← ofInt 8 15) 0 (-3); Out.ok (val b, ← toString b)) = .ok (7, bytes ['1', '-', '3']) := by decide +kernel

example : (do let b ← setAt (← ofInt 8 15) 0 12; Out.ok (b.len, ← digitAt b 0, ← digitAt b 1)) = .ok (2, 12, 1) := by
  decide +kernel

/-- C173: writing outside the array is undefined. -/
theorem C173_outside (b : Big) (i d : Int) (h : i < 0 ∨ b.elem.size ≤ i) : setAt b i d = .ub ∧ digitAt b i = .ub := by
  constructor
  · rw [setAt, Arr.set, if_neg (by omega)]; rfl
  · rw [digitAt, Arr.get, if_neg (by omega)]

example : (do setAt (← ofInt 8 5) 8 1) = .ub := (by
  obtain ⟨b, e, hb, -⟩ := C19_ofInt_partial 8 5 (by decide) (by decide +kernel)
  rw [e, Out.ok_bind]
  exact (C173_outside b 8 1 (.inr (by rw [hb.size]; decide))).1)

end BigNum
